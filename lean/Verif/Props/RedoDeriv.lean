import Verif.Props.Redo
/-!
# C176: a call on a derivative chain cut short by a crash and repeated after the restart
-/

namespace BCT.Props
open BCT

/-- The main chain, the ledgers and the derivative chain of `o`. -/
def Part.CoreAnd (o : Address) : Part → Prop
  | .derivBlocks a | .derivConfig a | .derivState a => a = o
  | _ => True

/-! ## One chain -/

/-- The blocks of `c`, with or without the one under way. -/
def ChainBlocks (ob : Option (U256 × Bytes)) (c : Chain) (m : KV) : Prop :=
  m = c.blocks.cur ∨ ∃ dump, ob = some (c.height, dump) ∧ m = c.blocks.cur.insert c.height.toBE.val dump

/-- The references of `c`, with or without the one under way. -/
def ChainRefs (E : Env) (ob : Option (U256 × Bytes)) (c : Chain) (m : KV) : Prop :=
  m = c.heightReference.cur ∨ ∃ dump, ob = some (c.height, dump) ∧
    m = c.heightReference.cur.insert (E.sha256 dump).val c.height.toBE.val

/-- A moment in which a block is being appended to `c`. -/
structure ChainAmid (E : Env) (ob : Option (U256 × Bytes)) (c x : Chain) : Prop where
  blocks : ∀ m ∈ x.blocks.recov, ChainBlocks ob c m
  refs : ∀ m ∈ x.heightReference.recov, ChainRefs E ob c m
  config : x.config = c.config

/-- A chain that differs from `c` in the block that was under way. -/
structure ChainLeft (E : Env) (ob : Option (U256 × Bytes)) (c e : Chain) : Prop where
  blocks : ChainBlocks ob c e.blocks.cur
  refs : ChainRefs E ob c e.heightReference.cur
  height : e.height = c.height
  difficulty : e.difficulty = c.difficulty
  config : e.config = c.config

/-- The block under way comes to the same on both chains. -/
theorem chainLeft_insert {E : Env} {h : U256} {dump : Bytes} {c e : Chain} (hl : ChainLeft E (some (h, dump)) c e) :
    e.blocks.cur.insert e.height.toBE.val dump = c.blocks.cur.insert c.height.toBE.val dump ∧
    e.heightReference.cur.insert (E.sha256 dump).val e.height.toBE.val =
      c.heightReference.cur.insert (E.sha256 dump).val c.height.toBE.val := by
  rw [hl.height]
  constructor
  · rcases hl.blocks with q | ⟨d', q', q⟩
    · rw [q]
    · cases q'; rw [q, insert_again]
  · rcases hl.refs with q | ⟨d', q', q⟩
    · rw [q]
    · cases q'; rw [q, insert_again]

theorem chainAmid_add {E : Env} {h : U256} {dump : Bytes} {c e : Chain} (hl : ChainLeft E (some (h, dump)) c e)
    (hc : ChainAmid E (some (h, dump)) c e) :
    ∀ x ∈ (Chain.addBlock E h dump e).trace, ChainAmid E (some (h, dump)) c x := by
  obtain ⟨i1, i2⟩ := chainLeft_insert hl
  by_cases hh : h = e.height
  · have hs : h = c.height := hh.trans hl.height
    have bl : ∀ m ∈ (e.blocks.insert e.height.toBE.val dump).recov, ChainBlocks (some (h, dump)) c m := by
      intro m hm
      rcases List.mem_cons.mp hm with rfl | hm
      · exact .inr ⟨dump, by rw [hs], i1⟩
      · exact hc.blocks m hm
    have rf : ∀ m ∈ (e.heightReference.insert (E.sha256 dump).val e.height.toBE.val).recov,
        ChainRefs E (some (h, dump)) c m := by
      intro m hm
      rcases List.mem_cons.mp hm with rfl | hm
      · exact .inr ⟨dump, by rw [hs], i2⟩
      · exact hc.refs m hm
    have a1 : ChainAmid E (some (h, dump)) c (e.put1 dump) := { hc with blocks := bl }
    have a2 : ChainAmid E (some (h, dump)) c (e.put2 E dump) := { hc with blocks := bl, refs := rf }
    by_cases hm : e.height.val + 1 < U256.size
    · have a3 : ChainAmid E (some (h, dump)) c (e.put3 E dump ⟨_, hm⟩) := { hc with blocks := bl, refs := rf }
      have e1 : Chain.addBlock E h dump e = _ :=
        (congrArg (fun x => Chain.addBlock E x dump e) hh).trans (Chain.addBlock_right hm)
      rw [e1]
      intro x hx
      simp only [List.mem_cons, List.not_mem_nil, or_false] at hx
      rcases hx with rfl | rfl | rfl
      · exact a1
      · exact a2
      · exact a3
    · have e1 : Chain.addBlock E h dump e = _ :=
        (congrArg (fun x => Chain.addBlock E x dump e) hh).trans (Chain.addBlock_max hm)
      rw [e1]
      intro x hx
      simp only [List.mem_cons, List.not_mem_nil, or_false] at hx
      rcases hx with rfl | rfl
      · exact a1
      · exact a2
  · rw [Chain.addBlock_wrong hh]
    exact fun x hx => by cases hx

theorem chainLeft_add {E : Env} {h : U256} {dump : Bytes} {c e : Chain} (hl : ChainLeft E (some (h, dump)) c e) :
    (Chain.addBlock E h dump e).out = (Chain.addBlock E h dump c).out ∧
    ChainLeft E none (Chain.addBlock E h dump c).final (Chain.addBlock E h dump e).final := by
  by_cases hh : h = c.height
  · have hu : h = e.height := hh.trans hl.height.symm
    obtain ⟨bl, rf⟩ := chainLeft_insert hl
    by_cases hm : c.height.val + 1 < U256.size
    · have hm' : e.height.val + 1 < U256.size := by rw [hl.height]; exact hm
      have e1 : Chain.addBlock E h dump c = _ :=
        (congrArg (fun x => Chain.addBlock E x dump c) hh).trans (Chain.addBlock_right hm)
      have e2 : Chain.addBlock E h dump e = _ :=
        (congrArg (fun x => Chain.addBlock E x dump e) hu).trans (Chain.addBlock_right hm')
      rw [e1, e2]
      refine ⟨rfl, ⟨.inl bl, .inl rf, ?_, hl.difficulty, hl.config⟩⟩
      show (⟨_, _⟩ : U256) = ⟨_, _⟩
      congr 1
      rw [hl.height]
    · have hm' : ¬ e.height.val + 1 < U256.size := by rw [hl.height]; exact hm
      have e1 : Chain.addBlock E h dump c = _ :=
        (congrArg (fun x => Chain.addBlock E x dump c) hh).trans (Chain.addBlock_max hm)
      have e2 : Chain.addBlock E h dump e = _ :=
        (congrArg (fun x => Chain.addBlock E x dump e) hu).trans (Chain.addBlock_max hm')
      rw [e1, e2]
      exact ⟨rfl, ⟨.inl bl, .inl rf, hl.height, hl.difficulty, hl.config⟩⟩
  · have hu : h ≠ e.height := fun q => hh (q.trans hl.height)
    rw [Chain.addBlock_wrong hh, Chain.addBlock_wrong hu]
    refine ⟨rfl, { hl with blocks := .inl ?_, refs := .inl ?_ }⟩
    · exact hl.blocks.resolve_right fun ⟨d', q, _⟩ => by cases q; exact hh rfl
    · exact hl.refs.resolve_right fun ⟨d', q, _⟩ => by cases q; exact hh rfl

/-- The block under way is not the last one. -/
theorem derivLeft_last {E : Env} {ob : Option (U256 × Bytes)} {c e : DerivativeChain} (h : ChainLeft E ob c.chain e.chain) :
    e.getLastBlock = c.getLastBlock := by
  unfold DerivativeChain.getLastBlock DerivativeChain.getLastRawBlock
  rw [h.height]
  by_cases hz : c.chain.height.val = 0
  · rw [if_pos hz, if_pos hz]
  · rw [if_neg hz, if_neg hz]
    have hs : c.chain.height.sub U256.one = .ok ⟨c.chain.height.val - 1,
        Nat.lt_of_le_of_lt (Nat.sub_le _ _) c.chain.height.lt⟩ := by
      unfold U256.sub
      have h1 : U256.one.val = 1 := rfl
      rw [if_pos (by omega)]
      rfl
    rw [hs]
    simp only [Outcome.ok_bind]
    unfold Chain.findRawByHeight
    rw [h.height]
    congr 2
    unfold Db.get
    rcases h.blocks with q | ⟨d', _, q⟩
    · rw [q]
    · rw [q, KV.get_insert, if_neg]
      intro q
      have : c.chain.height.val = c.chain.height.val - 1 := congrArg U256.val (toBE_inj q)
      omega

/-! ## The chain in the tree -/

/-- A node on which the tree and the derivative chain of `o` have just been flushed. -/
structure Rests (E : Env) (o : Address) (s : Tree) : Prop where
  amid : ∀ c : Touch, Amid E c s s
  config : s.main.chain.config = some s.main.chain.saved
  mem : (s.derivMem o).isSome = true
  dconfig : (s.handle o).chain.config = some (s.handle o).saved
  chain : ∀ ob, ChainAmid E ob (s.handle o).chain (s.handle o).chain

theorem amid_put {E : Env} {c : Touch} {s t : Tree} (o : Address) (e : DerivativeChain) (h : Amid E c s t) :
    Amid E c s (Tree.putHandle o e t) :=
  ⟨h.blocks, h.refs, h.txs, h.coins, h.oldCoins, h.gas, h.oldGas, h.config⟩

theorem amid_from {E : Env} {c : Touch} {s t : Tree} (o : Address) (e : DerivativeChain) (h : Amid E c s t) :
    Amid E c (Tree.putHandle o e s) t :=
  ⟨h.blocks, h.refs, h.txs, h.coins, h.oldCoins, h.gas, h.oldGas, h.config⟩

theorem rests_of {E : Env} {o : Address} {s₀ s : Tree} (hs : s = ((Op.derivFlush o).run E (Op.flush.run E s₀).final).final)
    (ho : ((Op.derivFlush o).run E (Op.flush.run E s₀).final).out = .ok ()) :
    Rests E o s ∧ s.main.chain.height = s₀.main.chain.height := by
  have e : (Op.flush.run E s₀).final = s₀.flushed := by
    obtain ⟨tr, e, _⟩ := Tree.flush_run s₀
    show (Tree.flush s₀).final = _
    rw [e]
  rw [e] at hs ho
  have key : ∀ x : Tree, (∀ c, Amid E c x x) → x.main.chain.config = some x.main.chain.saved →
      Rests E o (Tree.putHandle o (x.handle o).flushed x) := by
    intro x h1 h2
    have one : ∀ {d : Db} {m : KV}, m ∈ d.flush.recov → m = d.flush.cur := fun {d m} h => List.mem_singleton.mp h
    refine ⟨fun c => amid_from _ _ (amid_put _ _ (h1 c)), h2, by rw [Tree.putHandle_mem_self]; rfl, ?_, fun ob => ?_⟩
    · rw [Tree.handle_put_self]; rfl
    · rw [Tree.handle_put_self]
      exact ⟨fun m h => .inl (one h), fun m h => .inl (one h), rfl⟩
  have fl : ∀ x : Tree, (Tree.onDeriv o DerivativeChain.flush x).final = Tree.putHandle o (x.handle o).flushed x := by
    intro x
    unfold Tree.onDeriv
    rw [Act.zoom_run, (DerivativeChain.flush_run _).2]
  have run : ((Op.derivFlush o).run E s₀.flushed) =
      (Tree.getDerivativeChain E o >>= fun _ => Tree.onDeriv o DerivativeChain.flush) s₀.flushed := rfl
  rw [run] at hs ho
  have h0 : s₀.flushed.main.chain.config = some s₀.flushed.main.chain.saved := rfl
  rcases Tree.getDeriv_cases E o s₀.flushed with ⟨_, g⟩ | ⟨_, ⟨out, hout, g⟩ | ⟨b, c, _, _, g⟩⟩
  · rw [Act.bind_ok g] at hs
    simp only [fl] at hs
    rw [hs]
    exact ⟨key _ (fun c => amid_flushed E c s₀) h0, rfl⟩
  · exfalso
    simp only [Act.bind_def, Act.bind, g] at ho
    cases out with
    | ok u => exact hout u rfl
    | err e => cases ho
    | panic e => cases ho
    | ub => cases ho
  · rw [Act.bind_ok g] at hs
    simp only [fl] at hs
    rw [hs]
    exact ⟨key _ (fun k => amid_from _ _ (amid_put _ _ (amid_flushed E k s₀))) h0, rfl⟩

/-- What a crash during the call leaves of the chain of `o`. -/
structure Struck (E : Env) (o : Address) (ob : Option (U256 × Bytes)) (s t : Tree) : Prop where
  main : Amid E ⟨none, fun _ => False, fun _ => False⟩ s t
  files : ∃ x, ChainAmid E ob (s.handle o).chain x ∧ t.derivFiles (hexEncode o.val) = ⟨x.blocks, x.heightReference, x.config⟩

/-- The node after the restart, with the chain opened. -/
structure Regained (E : Env) (o : Address) (ob : Option (U256 × Bytes)) (s u : Tree) : Prop where
  core : Agree Part.Core s u
  main : Amid E ⟨none, fun _ => False, fun _ => False⟩ s u
  mem : (u.derivMem o).isSome = true
  chain : ChainLeft E ob (s.handle o).chain (u.handle o).chain
  parts : ChainAmid E ob (s.handle o).chain (u.handle o).chain
  genesis : (u.handle o).genesisHash = (s.handle o).genesisHash

theorem regained_of {E : Env} {o : Address} {ob : Option (U256 × Bytes)} {s t : Tree} (hr : Rests E o s)
    (hs : Struck E o ob s t) {last : Block} (hl : s.main.getLastBlock = .ok (some last))
    (hh : 2 ≤ s.main.chain.height.val) {d : Disk} (hd : Crash t d) :
    (openTree E d).out = .ok () ∧ Struck E o ob s (openTree E d).final ∧
    ∃ u, Tree.getDerivativeChain E o (openTree E d).final = ⟨.ok (), u, [u]⟩ ∧ Regained E o ob s u := by
  obtain ⟨h1, h2, h3⟩ := beside_of_crash hs.main hd hr.config hh
  have core := core_of_beside h2 rfl (fun _ => id) fun _ => id
  refine ⟨h1, ?_⟩
  have hrd : MainChain.readConfig d.config = .ok (s.main.chain.height, s.main.chain.difficulty) := by
    rw [hd.config, hs.main.config, hr.config]; exact MainChain.readConfig_written _ _
  obtain ⟨_, hf⟩ := openTree_pos (E := E) hrd (by omega)
  have hm : (openTree E d).final.derivMem o = none := by rw [hf]; rfl
  have hfl : (openTree E d).final.derivFiles (hexEncode o.val) = ⟨Db.open' (d.deriv (hexEncode o.val)).blocks,
      Db.open' (d.deriv (hexEncode o.val)).heightReference, (d.deriv (hexEncode o.val)).config⟩ := by rw [hf]; rfl
  have hl' : (openTree E d).final.main.getLastBlock = .ok (some last) := by rw [beside_last h2 hh]; exact hl
  obtain ⟨d1, d2, d3⟩ := hd.deriv (hexEncode o.val)
  obtain ⟨x, hx, e⟩ := hs.files
  rw [e] at d1 d2 d3
  have one : ∀ {m n : KV}, m ∈ (Db.open' n).recov → m = n := fun h => List.mem_singleton.mp h
  have parts : ChainAmid E ob (s.handle o).chain ⟨Db.open' (d.deriv (hexEncode o.val)).blocks,
      Db.open' (d.deriv (hexEncode o.val)).heightReference, (s.handle o).chain.height, (s.handle o).chain.difficulty,
      (d.deriv (hexEncode o.val)).config⟩ :=
    ⟨fun m h => by rw [one h]; exact hx.blocks _ d1, fun m h => by rw [one h]; exact hx.refs _ d2, d3.trans hx.config⟩
  generalize (openTree E d).final = v at *
  refine ⟨⟨h3, _, parts, hfl⟩, ?_⟩
  obtain ⟨c, hc⟩ : ∃ c : DerivativeChain, c = ⟨⟨Db.open' (d.deriv (hexEncode o.val)).blocks,
      Db.open' (d.deriv (hexEncode o.val)).heightReference, (s.handle o).chain.height, (s.handle o).chain.difficulty,
      (d.deriv (hexEncode o.val)).config⟩, (s.handle o).genesisHash⟩ := ⟨_, rfl⟩
  have hn : DerivativeChain.new (last.hash E) (v.derivFiles (hexEncode o.val)).blocks
      (v.derivFiles (hexEncode o.val)).heightReference (v.derivFiles (hexEncode o.val)).config = .ok c := by
    rw [hfl, hc]
    unfold DerivativeChain.new
    simp only [d3, hx.config, hr.dconfig]
    unfold DerivativeChain.saved
    rw [DerivativeChain.readConfig_written]
    rfl
  refine ⟨Tree.putHandle o c v, ?_, fun p hp => ?_, amid_put _ _ h3, by rw [Tree.putHandle_mem_self]; rfl, ?_, ?_, ?_⟩
  · unfold Tree.getDerivativeChain
    rw [Act.get_bind, hm, hl']
    simp [Outcome.ofOption, hn]
  · have := core p hp
    cases p <;> first | exact hp.elim | exact this
  · rw [Tree.handle_put_self, hc]
    exact ⟨hx.blocks _ d1, hx.refs _ d2, rfl, rfl, d3.trans hx.config⟩
  · rw [Tree.handle_put_self, hc]
    exact parts
  · rw [Tree.handle_put_self, hc]

/-- A node on which the chain is open agrees with itself. -/
theorem regained_refl {E : Env} {o : Address} {s : Tree} (ob : Option (U256 × Bytes)) (hr : Rests E o s) :
    Regained E o ob s s :=
  ⟨fun p hp => by cases p <;> first | exact hp.elim | exact rfl, hr.amid _, hr.mem,
    ⟨.inl rfl, .inl rfl, rfl, rfl, rfl⟩, hr.chain _, rfl⟩

theorem struck_regained {E : Env} {o : Address} {ob : Option (U256 × Bytes)} {s u : Tree} (h : Regained E o ob s u) :
    Struck E o ob s u := ⟨h.main, _, h.parts, rfl⟩

/-- Two nodes that have the same main chain and ledgers and the same chain of `o`. -/
structure Rejoined (E : Env) (o : Address) (s u : Tree) : Prop where
  core : Agree Part.Core s u
  chain : ChainLeft E none (s.handle o).chain (u.handle o).chain
  genesis : (u.handle o).genesisHash = (s.handle o).genesisHash

/-- Appending the block brings the two nodes together. -/
theorem regained_add {E : Env} {o : Address} {b : DerivativeBlock} {s u : Tree}
    (h : Regained E o (some (b.defaultInfo.height, b.dump)) s u) :
    (Tree.onDeriv o (DerivativeChain.addBlock E b) u).out = (Tree.onDeriv o (DerivativeChain.addBlock E b) s).out ∧
    Rejoined E o (Tree.onDeriv o (DerivativeChain.addBlock E b) s).final
      (Tree.onDeriv o (DerivativeChain.addBlock E b) u).final := by
  obtain ⟨h1, h2⟩ := chainLeft_add h.chain
  refine ⟨h1, fun p hp => ?_, ?_, ?_⟩
  · have := h.core p hp
    cases p <;> first | exact hp.elim | exact this
  · show ChainLeft E none ((Tree.putHandle o _ s).handle o).chain ((Tree.putHandle o _ u).handle o).chain
    rw [Tree.handle_put_self, Tree.handle_put_self]
    exact h2
  · show ((Tree.putHandle o _ u).handle o).genesisHash = ((Tree.putHandle o _ s).handle o).genesisHash
    rw [Tree.handle_put_self, Tree.handle_put_self]
    exact h.genesis

/-- The moments of appending a derivative block. -/
theorem struck_add {E : Env} {o : Address} {b : DerivativeBlock} {s u : Tree}
    (h : Regained E o (some (b.defaultInfo.height, b.dump)) s u) (t : Tree)
    (ht : t ∈ (Tree.onDeriv o (DerivativeChain.addBlock E b) u).trace) :
    Struck E o (some (b.defaultInfo.height, b.dump)) s t := by
  unfold Tree.onDeriv at ht
  rw [Act.zoom_run] at ht
  obtain ⟨e, he, rfl⟩ := List.mem_map.mp ht
  unfold DerivativeChain.addBlock DerivativeChain.onChain at he
  rw [Act.zoom_run] at he
  obtain ⟨x, hx, rfl⟩ := List.mem_map.mp he
  refine ⟨amid_put _ _ h.main, x, chainAmid_add h.chain h.parts x hx, ?_⟩
  unfold Tree.putHandle; simp

/-- Nothing under way: the same main chain, ledgers and derivative chain. -/
theorem alike_of_rejoined {E : Env} {o : Address} {s u : Tree} (h : Rejoined E o s u)
    (hs : (s.derivMem o).isSome = true) (hu : (u.derivMem o).isSome = true) : Agree (Part.CoreAnd o) s u := by
  have mem : ∀ t : Tree, (t.derivMem o).isSome = true → t.derivMem o =
      some ⟨(t.handle o).chain.height, (t.handle o).chain.difficulty, (t.handle o).genesisHash⟩ := by
    intro t ht
    unfold Tree.handle
    cases e : t.derivMem o with
    | none => rw [e] at ht; cases ht
    | some m => rfl
  intro p hp
  cases p with
  | derivBlocks a =>
    obtain rfl : a = o := hp
    constructor
    · exact h.chain.blocks.resolve_right fun ⟨_, q, _⟩ => by cases q
    · exact h.chain.refs.resolve_right fun ⟨_, q, _⟩ => by cases q
  | derivConfig a => obtain rfl : a = o := hp; exact h.chain.config
  | derivState a =>
    obtain rfl : a = o := hp
    show u.derivMem a = s.derivMem a
    rw [mem s hs, mem u hu, h.chain.height, h.chain.difficulty, h.genesis]
  | _ => exact h.core _ trivial

/-! ## Emitting a derivative block -/

/-- Emitting a derivative block computes the block from the last one, or from the main block the chain starts at, and
then appends it. -/
theorem emitDerivative_shape (E : Env) (pow : BytesN 32) (f : Address) (ts : UInt64) :
    ∃ F : Outcome (Option DerivativeBlock) → Outcome (Option Block) → Outcome DerivativeBlock, ∀ s : Tree,
      Tree.emitDerivative E pow f ts s = (Tree.getDerivativeChain E f >>= fun _ => Act.get >>= fun t =>
        Act.lift (F (t.handle f).getLastBlock (t.main.findByHash (t.handle f).genesisHash)) >>= fun nb =>
        Tree.onDeriv f (DerivativeChain.addBlock E nb) >>= fun _ => Pure.pure (Block.derivative nb) : Act Tree Block) s := by
  refine ⟨fun l g => l >>= fun last => (match last with
    | some block => do
      let h ← block.defaultInfo.height.add U256.one
      Outcome.ok (block.hash E, block.defaultInfo.difficulty, block.defaultInfo.timestamp, h)
    | none => do
      let found ← g
      match found with
      | none => Outcome.err .chainFindByHashE
      | some block => Outcome.ok (block.hash E, BEGINNING_DIFFICULTY, block.info.timestamp, U256.zero)) >>=
    fun (prevHash, difficulty, prevTimestamp, height) => checkPow E prevHash difficulty [] pow.val >>= fun good =>
    if !good then .err .treeWrongPow else
    recalculateDifficulty E prevTimestamp ts difficulty >>= fun difficulty =>
    .ok ⟨{ timestamp := ts, pow, previousHash := prevHash, height, difficulty, founder := f }⟩, fun s => ?_⟩
  unfold Tree.emitDerivative
  refine congrFun (congrArg _ (funext fun _ => ?_)) s
  refine congrArg _ (funext fun t => ?_)
  have tail : ∀ q : Outcome (Hash × Hash × UInt64 × U256),
      (Act.lift q >>= fun x => Act.lift (checkPow E x.1 x.2.1 [] pow.val) >>= fun good =>
        if !good then Act.lift (.err .treeWrongPow) else
        Act.lift (recalculateDifficulty E x.2.2.1 ts x.2.1) >>= fun df =>
        Tree.onDeriv f (DerivativeChain.addBlock E
          ⟨{ timestamp := ts, pow, previousHash := x.1, height := x.2.2.2, difficulty := df, founder := f }⟩) >>= fun _ =>
        Pure.pure (Block.derivative
          ⟨{ timestamp := ts, pow, previousHash := x.1, height := x.2.2.2, difficulty := df, founder := f }⟩) : Act Tree Block) =
      (Act.lift (q >>= fun x => checkPow E x.1 x.2.1 [] pow.val >>= fun good =>
        if !good then .err .treeWrongPow else
        recalculateDifficulty E x.2.2.1 ts x.2.1 >>= fun df =>
        .ok ⟨{ timestamp := ts, pow, previousHash := x.1, height := x.2.2.2, difficulty := df, founder := f }⟩) >>= fun nb =>
        Tree.onDeriv f (DerivativeChain.addBlock E nb) >>= fun _ => Pure.pure (Block.derivative nb)) := by
    intro q
    cases q with
    | err e => simp
    | panic e => simp
    | ub => simp
    | ok q =>
    simp only [Act.lift_ok_bind, Outcome.ok_bind]
    cases checkPow E q.1 q.2.1 [] pow.val with
    | err e => simp
    | panic e => simp
    | ub => simp
    | ok good =>
    cases good with
    | false => simp
    | true =>
    simp only [Act.lift_ok_bind, Outcome.ok_bind, Bool.not_true, Bool.false_eq_true, if_false]
    cases recalculateDifficulty E q.2.2.1 ts q.2.1 with
    | err e => simp
    | panic e => simp
    | ub => simp
    | ok d => simp
  cases (t.handle f).getLastBlock with
  | err e => simp
  | panic e => simp
  | ub => simp
  | ok last =>
  simp only [Act.lift_ok_bind, Outcome.ok_bind]
  cases last with
  | none => exact tail _
  | some b => exact tail _

/-! ## Property -/

/-- What has to be shown of a call. -/
theorem derivRedo_of {E : Env} {o : Address} {op : Op} {s : Tree} (ob : Option (U256 × Bytes)) (hr : Rests E o s)
    (hh : 2 ≤ s.main.chain.height.val) {last : Block} (hl : s.main.getLastBlock = .ok (some last))
    (ha : ∀ x u tr, Tree.getDerivativeChain E o x = ⟨.ok (), u, tr⟩ → Regained E o ob s u →
      (∀ t ∈ (op.run E x).trace, t ∈ tr ∨ Struck E o ob s t) ∧ (op.run E x).out = (op.run E s).out ∧
      Agree (Part.CoreAnd o) (op.run E s).final (op.run E x).final) {x : Tree} (hx : Attempted E op s x) :
    (op.run E x).out = (op.run E s).out ∧ Agree (Part.CoreAnd o) (op.run E s).final (op.run E x).final ∧
    ∀ t d, t = x ∨ t ∈ (op.run E x).trace → Crash t d → (openTree E d).out = .ok () := by
  have step : ∀ x, (Struck E o ob s x ∧ ∃ u tr, Tree.getDerivativeChain E o x = ⟨.ok (), u, tr⟩ ∧ (∀ t ∈ tr, t = u) ∧
      Regained E o ob s u) → ∀ t, t = x ∨ t ∈ (op.run E x).trace → Struck E o ob s t := by
    rintro x ⟨h1, u, tr, h2, h3, h4⟩ t (rfl | ht)
    · exact h1
    · rcases (ha x u tr h2 h4).1 t ht with h | h
      · rw [h3 t h]; exact struck_regained h4
      · exact h
  have inv : Struck E o ob s x ∧ ∃ u tr, Tree.getDerivativeChain E o x = ⟨.ok (), u, tr⟩ ∧ (∀ t ∈ tr, t = u) ∧
      Regained E o ob s u := by
    induction hx with
    | first =>
      exact ⟨struck_regained (regained_refl ob hr), s, [], getDeriv_stays hr.mem, (fun t h => by cases h), regained_refl ob hr⟩
    | again x t d _ ht hd ih =>
      obtain ⟨_, h1, u, h2, h3⟩ := regained_of hr (step x ih t ht) hl hh hd
      exact ⟨h1, u, [u], h2, fun t h => List.mem_singleton.mp h, h3⟩
  obtain ⟨h1, u, tr, h2, h3, h4⟩ := inv
  obtain ⟨_, g2, g3⟩ := ha x u tr h2 h4
  exact ⟨g2, g3, fun t d ht hd => (regained_of hr (step x ⟨h1, u, tr, h2, h3, h4⟩ t ht) hl hh hd).1⟩

/-- C176. The tree and the derivative chain of `o` have just been flushed, there are at least two main blocks and the last
one can be read. Then a block is appended to that chain, given or mined, and the process dies at whatever moment, is
started again and given the same call, and so on, any number of times. Each time the node opens again, and when the call
at last gets through it ends as the first would have ended and leaves the main chain, the ledgers and the derivative
chain of `o` as they would have been, on disk and in memory. -/
theorem C176_redo (E : Env) (o : Address) (s₀ : Tree) (op : Op)
    (hop : (∃ b, op = .derivAddBlock o b) ∨ ∃ p ts, op = .emitDerivative p o ts) (hh : 2 ≤ s₀.main.chain.height.val) (s : Tree)
    (hs : s = ((Op.derivFlush o).run E (Op.flush.run E s₀).final).final)
    (ho : ((Op.derivFlush o).run E (Op.flush.run E s₀).final).out = .ok ())
    (last : Block) (hl : s.main.getLastBlock = .ok (some last)) (x : Tree) (hx : Attempted E op s x) :
    (op.run E x).out = (op.run E s).out ∧ Agree (Part.CoreAnd o) (op.run E s).final (op.run E x).final ∧
    ∀ t d, t = x ∨ t ∈ (op.run E x).trace → Crash t d → (openTree E d).out = .ok () := by
  obtain ⟨hr, hht⟩ := rests_of hs ho
  have hh' : 2 ≤ s.main.chain.height.val := by rw [hht]; exact hh
  clear hs ho
  have stays := getDeriv_stays (E := E) hr.mem
  have mem : ∀ (x : Act DerivativeChain Unit) (t : Tree), ((Tree.onDeriv o x t).final.derivMem o).isSome = true := fun x t => by
    show ((Tree.putHandle o _ t).derivMem o).isSome = true
    rw [Tree.putHandle_mem_self]; rfl
  rcases hop with ⟨b, rfl⟩ | ⟨p, ts, rfl⟩
  · have run : ∀ x u tr, Tree.getDerivativeChain E o x = ⟨.ok (), u, tr⟩ → (Op.derivAddBlock o b).run E x =
        ⟨(Tree.onDeriv o (DerivativeChain.addBlock E b) u).out, (Tree.onDeriv o (DerivativeChain.addBlock E b) u).final,
          tr ++ (Tree.onDeriv o (DerivativeChain.addBlock E b) u).trace⟩ := by
      intro x u tr h
      show (Tree.getDerivativeChain E o >>= fun _ => Tree.onDeriv o (DerivativeChain.addBlock E b)) x = _
      rw [Act.bind_ok h]
    refine derivRedo_of (some (b.defaultInfo.height, b.dump)) hr hh' hl ?_ hx
    intro x u tr h1 h2
    rw [run x u tr h1, run s s [] stays]
    obtain ⟨g1, g2⟩ := regained_add h2
    refine ⟨fun t ht => ?_, g1, alike_of_rejoined g2 (mem _ _) (mem _ _)⟩
    rcases List.mem_append.mp ht with h | h
    · exact .inl h
    · exact .inr (struck_add h2 t h)
  · obtain ⟨F, hF⟩ := emitDerivative_shape E p o ts
    have run : ∀ x : Tree, (Op.emitDerivative p o ts).run E x = ⟨(Tree.emitDerivative E p o ts x).out >>= fun _ => .ok (),
      (Tree.emitDerivative E p o ts x).final, (Tree.emitDerivative E p o ts x).trace⟩ := fun _ => rfl
    have same : ∀ {ob u}, Regained E o ob s u → F (u.handle o).getLastBlock (u.main.findByHash (u.handle o).genesisHash) =
        F (s.handle o).getLastBlock (s.main.findByHash (s.handle o).genesisHash) := by
      intro ob u h
      rw [derivLeft_last h.chain, h.genesis, findByHash_agree (h.core .blocks trivial) (h.core .references trivial)
        (h.core .height trivial)]
    cases hl' : F (s.handle o).getLastBlock (s.main.findByHash (s.handle o).genesisHash) with
    | ok nb =>
      have two : ∀ x u tr, Tree.getDerivativeChain E o x = ⟨.ok (), u, tr⟩ →
          F (u.handle o).getLastBlock (u.main.findByHash (u.handle o).genesisHash) =
            F (s.handle o).getLastBlock (s.main.findByHash (s.handle o).genesisHash) →
          (Op.emitDerivative p o ts).run E x = ⟨(Tree.onDeriv o (DerivativeChain.addBlock E nb) u).out,
            (Tree.onDeriv o (DerivativeChain.addBlock E nb) u).final,
            tr ++ (Tree.onDeriv o (DerivativeChain.addBlock E nb) u).trace⟩ := by
        intro x u tr hx hu
        rw [run, hF, Act.bind_ok hx, Act.get_bind, hu, hl', Act.lift_ok_bind]
        generalize Tree.onDeriv o (DerivativeChain.addBlock E nb) = y
        simp only [Act.bind_def, Act.bind]
        rcases y u with ⟨out, fin, tr'⟩
        cases out with
        | ok u => simp
        | err e => rfl
        | panic e => rfl
        | ub => rfl
      refine derivRedo_of (some (nb.defaultInfo.height, nb.dump)) hr hh' hl ?_ hx
      intro x u tr h1 h2
      rw [two x u tr h1 (same h2), two s s [] stays rfl]
      obtain ⟨g1, g2⟩ := regained_add h2
      refine ⟨fun t ht => ?_, g1, alike_of_rejoined g2 (mem _ _) (mem _ _)⟩
      rcases List.mem_append.mp ht with h | h
      · exact .inl h
      · exact .inr (struck_add h2 t h)
    | err e =>
      have two : ∀ x u tr, Tree.getDerivativeChain E o x = ⟨.ok (), u, tr⟩ →
          F (u.handle o).getLastBlock (u.main.findByHash (u.handle o).genesisHash) =
            F (s.handle o).getLastBlock (s.main.findByHash (s.handle o).genesisHash) →
          (Op.emitDerivative p o ts).run E x = ⟨.err e, u, tr⟩ := by
        intro x u tr hx hu
        rw [run, hF, Act.bind_ok hx, Act.get_bind, hu, hl', Act.lift_err_bind]
        simp
      refine derivRedo_of none hr hh' hl ?_ hx
      intro x u tr h1 h2
      rw [two x u tr h1 (same h2), two s s [] stays rfl]
      exact ⟨fun t ht => .inl ht, rfl, alike_of_rejoined ⟨h2.core, h2.chain, h2.genesis⟩ hr.mem h2.mem⟩
    | panic e =>
      have two : ∀ x u tr, Tree.getDerivativeChain E o x = ⟨.ok (), u, tr⟩ →
          F (u.handle o).getLastBlock (u.main.findByHash (u.handle o).genesisHash) =
            F (s.handle o).getLastBlock (s.main.findByHash (s.handle o).genesisHash) →
          (Op.emitDerivative p o ts).run E x = ⟨.panic e, u, tr⟩ := by
        intro x u tr hx hu
        rw [run, hF, Act.bind_ok hx, Act.get_bind, hu, hl', Act.lift_panic_bind]
        simp
      refine derivRedo_of none hr hh' hl ?_ hx
      intro x u tr h1 h2
      rw [two x u tr h1 (same h2), two s s [] stays rfl]
      exact ⟨fun t ht => .inl ht, rfl, alike_of_rejoined ⟨h2.core, h2.chain, h2.genesis⟩ hr.mem h2.mem⟩
    | ub =>
      have two : ∀ x u tr, Tree.getDerivativeChain E o x = ⟨.ok (), u, tr⟩ →
          F (u.handle o).getLastBlock (u.main.findByHash (u.handle o).genesisHash) =
            F (s.handle o).getLastBlock (s.main.findByHash (s.handle o).genesisHash) →
          (Op.emitDerivative p o ts).run E x = ⟨.ub, u, tr⟩ := by
        intro x u tr hx hu
        rw [run, hF, Act.bind_ok hx, Act.get_bind, hu, hl', Act.lift_ub_bind]
        simp
      refine derivRedo_of none hr hh' hl ?_ hx
      intro x u tr h1 h2
      rw [two x u tr h1 (same h2), two s s [] stays rfl]
      exact ⟨fun t ht => .inl ht, rfl, alike_of_rejoined ⟨h2.core, h2.chain, h2.genesis⟩ hr.mem h2.mem⟩

/-! ## Nodes -/

/-- A node with two main blocks on which no derivative chain has been opened. -/
theorem derivReady (o : Address) : ∃ s last, Life zeroEnv (.idle s) ∧ s.main.chain.height.val = 2 ∧
    s.main.getLastBlock = .ok (some last) ∧ s.derivMem o = none ∧ (s.derivFiles (hexEncode o.val)).config = none := by
  obtain ⟨s, last, h1, h2, h3, _⟩ := steady_just 1 (by omega)
  refine ⟨s, last, run_life h1, h2, h3, ?_⟩
  clear h2 h3
  induction h1 with
  | fresh => rw [(openTree_fresh zeroEnv).2]; exact ⟨rfl, rfl⟩
  | call s op _ ha ih =>
    cases op with
    | emitMain p f txs ts =>
      exact ⟨(show _ = _ from (frame_rel zeroEnv (.emitMain p f txs ts) (.derivState o) (by simp [mayChange]) s).1).trans ih.1,
        (show _ = _ from (frame_rel zeroEnv (.emitMain p f txs ts) (.derivConfig o) (by simp [mayChange]) s).1).trans ih.2⟩
    | _ => exact ha.elim

/-- Opening a derivative chain for the first time. -/
theorem getDeriv_first {E : Env} {o : Address} {s : Tree} {last : Block} (h1 : s.main.getLastBlock = .ok (some last))
    (h2 : s.derivMem o = none) (h3 : (s.derivFiles (hexEncode o.val)).config = none) :
    ∃ u, Tree.getDerivativeChain E o s = ⟨.ok (), u, [u]⟩ ∧ (u.handle o).chain.height = U256.zero ∧
      (u.derivFiles (hexEncode o.val)).config = none ∧ u.main = s.main := by
  refine ⟨Tree.putHandle o ⟨⟨(s.derivFiles (hexEncode o.val)).blocks, (s.derivFiles (hexEncode o.val)).heightReference,
    U256.zero, BEGINNING_DIFFICULTY, none⟩, last.hash E⟩ s, ?_, ?_, ?_, rfl⟩
  · unfold Tree.getDerivativeChain
    rw [Act.get_bind, h2, h1]
    simp [Outcome.ofOption, h3, DerivativeChain.new, DerivativeChain.readConfig]
  · rw [Tree.handle_put_self]
  · unfold Tree.putHandle; simp

/-- A derivative block of some height. -/
def derivBlockOf (h : U256) : DerivativeBlock :=
  ⟨⟨0, BytesN.fill 32 0, BytesN.fill 32 0, h, BytesN.fill 32 0, ROOT_PUBLIC_ADDRESS⟩⟩

/-- C176. The flush of the tree alone is not enough, since it does not save the derivative chains: a derivative block that
would have been accepted is refused after the restart. -/
theorem C176_unsaved (o : Address) : ∃ (E : Env) (s₀ : Tree) (b : DerivativeBlock) (d : Disk), Life E (.idle s₀) ∧
    2 ≤ s₀.main.chain.height.val ∧ Crash (Op.flush.run E s₀).final d ∧
    ((Op.derivAddBlock o b).run E (Op.flush.run E s₀).final).out = .ok () ∧ (openTree E d).out = .ok () ∧
    ((Op.derivAddBlock o b).run E (openTree E d).final).out = .err .chainAddingBlock := by
  obtain ⟨r, last, hl, hh, hlast, hm, hc⟩ := derivReady o
  obtain ⟨v, hv, v1, v2, v3⟩ := getDeriv_first (E := zeroEnv) hlast hm hc
  have run : ∀ b x, (Op.derivAddBlock o b).run zeroEnv x =
      (Tree.getDerivativeChain zeroEnv o >>= fun _ => Tree.onDeriv o (DerivativeChain.addBlock zeroEnv b)) x := fun _ _ => rfl
  have add : ∀ (h : U256) (x : Tree), (x.handle o).chain.height = h → (hlt : h.val + 1 < U256.size) →
      (Tree.onDeriv o (DerivativeChain.addBlock zeroEnv (derivBlockOf h)) x).out = .ok () ∧
      ((Tree.onDeriv o (DerivativeChain.addBlock zeroEnv (derivBlockOf h)) x).final.handle o).chain.height = ⟨h.val + 1, hlt⟩ := by
    rintro _ x rfl hlt
    show (Chain.addBlock zeroEnv (x.handle o).chain.height _ (x.handle o).chain).out = _ ∧
      ((Tree.putHandle o ⟨(Chain.addBlock zeroEnv (x.handle o).chain.height _ (x.handle o).chain).final, _⟩ x).handle o).chain.height = _
    rw [Tree.handle_put_self, Chain.addBlock_right hlt]
    exact ⟨rfl, rfl⟩
  -- one derivative block, saved nowhere
  have e0 : ((Op.derivAddBlock o (derivBlockOf U256.zero)).run zeroEnv r).final =
      (Tree.onDeriv o (DerivativeChain.addBlock zeroEnv (derivBlockOf U256.zero)) v).final := by
    rw [run, Act.bind_ok hv]
  obtain ⟨a1, a2⟩ := add U256.zero v v1 (by decide)
  obtain ⟨w, hw⟩ : ∃ w, w = ((Op.derivAddBlock o (derivBlockOf U256.zero)).run zeroEnv r).final := ⟨_, rfl⟩
  have hlw : Life zeroEnv (.idle w) := by rw [hw]; exact .call _ _ hl
  have w1 : w.main = r.main := by
    rw [hw, e0]
    show v.main = _
    exact v3
  have w2 : (w.handle o).chain.height.val = 1 := by rw [hw, e0, a2]; rfl
  have w3 : (w.derivMem o).isSome = true := by
    rw [hw, e0]
    show ((Tree.putHandle o _ v).derivMem o).isSome = true
    rw [Tree.putHandle_mem_self]; rfl
  have w4 : (w.derivFiles (hexEncode o.val)).config = none := by
    rw [hw, e0]
    show ((Tree.putHandle o ⟨(Chain.addBlock zeroEnv _ _ (v.handle o).chain).final, _⟩ v).derivFiles _).config = none
    have : ∀ c : DerivativeChain, c.chain.config = none → ((Tree.putHandle o c v).derivFiles (hexEncode o.val)).config = none := by
      intro c hc; unfold Tree.putHandle; simpa using hc
    refine this _ ?_
    have e : U256.zero = (v.handle o).chain.height := v1.symm
    show (Chain.addBlock zeroEnv U256.zero _ (v.handle o).chain).final.config = none
    rw [e, Chain.addBlock_right (by rw [v1]; decide)]
    exact v2
  clear hw e0 a1 a2 hv v1 v2 v3
  have ef : (Op.flush.run zeroEnv w).final = w.flushed := by
    obtain ⟨tr, e, _⟩ := Tree.flush_run w
    show (Tree.flush w).final = _
    rw [e]
  have hlf : Life zeroEnv (.idle w.flushed) := by rw [← ef]; exact .call _ _ hlw
  have f1 : w.flushed.handle o = w.handle o := rfl
  obtain ⟨ho, hcore⟩ := core_of_close (E := zeroEnv) (f := w.flushed) rfl (by show 2 ≤ w.main.chain.height.val; rw [w1]; omega)
  refine ⟨zeroEnv, w, derivBlockOf U256.one, w.flushed.close, hlw, by rw [w1]; omega, by rw [ef]; exact (life_sound hlf).close,
    ?_, ho, ?_⟩
  · have hmem : (w.flushed.derivMem o).isSome = true := w3
    rw [ef, run, Act.bind_ok (getDeriv_stays hmem)]
    exact (add U256.one w.flushed (by rw [f1]; exact U256.ext w2) (by decide)).1
  · have hr : MainChain.readConfig w.flushed.close.config = .ok (w.main.chain.height, w.main.chain.difficulty) :=
      MainChain.readConfig_written _ _
    obtain ⟨_, hf⟩ := openTree_pos (E := zeroEnv) hr (by rw [w1]; omega)
    have n1 : (openTree zeroEnv w.flushed.close).final.derivMem o = none := by rw [hf]; rfl
    have n2 : ((openTree zeroEnv w.flushed.close).final.derivFiles (hexEncode o.val)).config = none := by rw [hf]; exact w4
    have n3 : (openTree zeroEnv w.flushed.close).final.main.getLastBlock = .ok (some last) := by
      rw [getLast_agree (hcore .blocks trivial) (hcore .height trivial)]
      show w.main.getLastBlock = _
      rw [w1]; exact hlast
    obtain ⟨x, hx, x1, _⟩ := getDeriv_first (E := zeroEnv) n3 n1 n2
    rw [run, Act.bind_ok hx]
    show (Chain.addBlock zeroEnv U256.one _ (x.handle o).chain).out = _
    rw [Chain.addBlock_wrong]
    rw [x1]; decide

/-- The hypotheses of `C176_redo` can be met. -/
example (o : Address) : ∃ s₀ last, 2 ≤ s₀.main.chain.height.val ∧
    ((Op.derivFlush o).run zeroEnv (Op.flush.run zeroEnv s₀).final).out = .ok () ∧
    ((Op.derivFlush o).run zeroEnv (Op.flush.run zeroEnv s₀).final).final.main.getLastBlock = .ok (some last) := by
  obtain ⟨r, last, hl, hh, hlast, hm, hc⟩ := derivReady o
  have ef : (Op.flush.run zeroEnv r).final = r.flushed := by
    obtain ⟨tr, e, _⟩ := Tree.flush_run r
    show (Tree.flush r).final = _
    rw [e]
  have hlast' : r.flushed.main.getLastBlock = .ok (some last) := hlast
  obtain ⟨v, hv, _, _, v3⟩ := getDeriv_first (E := zeroEnv) hlast' (o := o) hm hc
  have run : (Op.derivFlush o).run zeroEnv r.flushed =
      (Tree.getDerivativeChain zeroEnv o >>= fun _ => Tree.onDeriv o DerivativeChain.flush) r.flushed := rfl
  refine ⟨r, last, by omega, ?_⟩
  rw [ef, run, Act.bind_ok hv]
  refine ⟨(DerivativeChain.flush_run (v.handle o)).1, ?_⟩
  show v.main.getLastBlock = _
  rw [v3]; exact hlast'

end BCT.Props
