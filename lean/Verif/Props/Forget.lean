import Verif.Props.Damage
/-!
# C167: a node never rereads its history

Two open nodes of which only the present need be the same: the height, the last block, the balances and the derivative
chains. The older blocks, the index of the hashes, the stored transactions, the config file and the databases of the last
epoch are arbitrary (blockchaintree.rs:85-101, :326-543, chain.rs:285-413).
-/

namespace BCT.Props
open BCT

/-- The present of the main chain: its height and its last block. -/
structure PresentMain (c d : MainChain) : Prop where
  height : c.chain.height = d.chain.height
  last : c.getLastRawBlock = d.getLastRawBlock

/-- The present of a node. -/
structure Present (s t : Tree) : Prop where
  main : PresentMain s.main t.main
  files : s.derivFiles = t.derivFiles
  mem : s.derivMem = t.derivMem
  coins : s.summary.cur = t.summary.cur
  gas : s.gas.cur = t.gas.cur

/-- The only call that may read an older block: a derivative block for an owner whose derivative chain is still empty. -/
def Op.LooksBack (E : Env) (s : Tree) : Op → Prop
  | .emitDerivative _ o _ => (((Tree.getDerivativeChain E o) s).final.handle o).getLastBlock = .ok none
  | _ => False

/-- No call of the series looks back when its turn comes. -/
def NeverBack (E : Env) : List Op → Tree → Prop
  | [], _ => True
  | op :: ops, s => ¬ Op.LooksBack E s op ∧ NeverBack E ops (op.run E s).final

theorem PresentMain.block {c d : MainChain} (h : PresentMain c d) : c.getLastBlock = d.getLastBlock := by
  unfold MainChain.getLastBlock
  rw [h.last]

theorem lastRaw_put (c : MainChain) (k : U256) (v : Bytes) (hne : ∀ i, c.chain.height.sub U256.one = .ok i → k ≠ i)
    (c' : MainChain) (hh : c'.chain.height = c.chain.height)
    (hb : c'.chain.blocks = c.chain.blocks.insert k.toBE.val v) : c'.getLastRawBlock = c.getLastRawBlock := by
  unfold MainChain.getLastRawBlock MainChain.findRawByHeight Chain.findRawByHeight
  rw [hh]
  cases e : c.chain.height.sub U256.one with
  | ok i =>
    simp only [Outcome.ok_bind, hb]
    show Outcome.ok (if _ then none else (c.chain.blocks.cur.insert k.toBE.val v).get i.toBE.val) = _
    rw [KV.get_insert, if_neg fun q => hne i e (toBE_inj q)]
    rfl
  | err _ => rfl
  | panic _ => rfl
  | ub => rfl

theorem sub_one_ne (a i : U256) (h : a.sub U256.one = .ok i) : a ≠ i := by
  intro e
  unfold U256.sub at h
  split at h
  · next hle =>
    have := congrArg U256.val (Outcome.ok.inj h)
    rw [← e] at this
    have h1 : U256.one.val = 1 := rfl
    simp only [h1] at this hle
    omega
  · cases h

theorem lastRaw_new (E : Env) (c : Chain) (x : Db) (v : Bytes) (hm : c.height.val + 1 < U256.size) :
    (MainChain.mk (c.put3 E v ⟨c.height.val + 1, hm⟩) x).getLastRawBlock = .ok (some v) := by
  have hs : (⟨c.height.val + 1, hm⟩ : U256).sub U256.one = .ok c.height := by
    unfold U256.sub
    have h1 : U256.one.val = 1 := rfl
    rw [if_pos (by rw [h1]; exact Nat.le_add_left _ _)]
    rfl
  show ((⟨c.height.val + 1, hm⟩ : U256).sub U256.one >>= fun i => Outcome.ok _) = _
  rw [hs, Outcome.ok_bind]
  show Outcome.ok (if c.height.val + 1 < c.height.val then none else
    (c.blocks.cur.insert c.height.toBE.val v).get c.height.toBE.val) = _
  rw [if_neg (by omega), KV.get_insert, if_pos rfl]

theorem present_addBlock (E : Env) (b : Block) : Paired PresentMain (MainChain.addBlock E b) := by
  intro c d h
  unfold MainChain.addBlock MainChain.onChain
  rw [Act.zoom_run, Act.zoom_run]
  by_cases hb : b.info.height = c.chain.height
  · have hb' : b.info.height = d.chain.height := hb.trans h.height
    by_cases hm : c.chain.height.val + 1 < U256.size
    · have hm' : d.chain.height.val + 1 < U256.size := h.height ▸ hm
      have e1 : Chain.addBlock E b.info.height b.dump c.chain = _ :=
        (congrArg (fun q => Chain.addBlock E q b.dump c.chain) hb).trans (Chain.addBlock_right hm)
      have e2 : Chain.addBlock E b.info.height b.dump d.chain = _ :=
        (congrArg (fun q => Chain.addBlock E q b.dump d.chain) hb').trans (Chain.addBlock_right hm')
      simp only [e1, e2]
      refine ⟨trivial, U256.ext ?_, ?_⟩
      · show c.chain.height.val + 1 = d.chain.height.val + 1
        rw [h.height]
      · rw [lastRaw_new, lastRaw_new]
    · have hm' : ¬ d.chain.height.val + 1 < U256.size := h.height ▸ hm
      have e1 : Chain.addBlock E b.info.height b.dump c.chain = _ :=
        (congrArg (fun q => Chain.addBlock E q b.dump c.chain) hb).trans (Chain.addBlock_max hm)
      have e2 : Chain.addBlock E b.info.height b.dump d.chain = _ :=
        (congrArg (fun q => Chain.addBlock E q b.dump d.chain) hb').trans (Chain.addBlock_max hm')
      simp only [e1, e2]
      refine ⟨trivial, h.height, ?_⟩
      exact (lastRaw_put c c.chain.height b.dump (fun i => sub_one_ne _ i) ⟨c.chain.put2 E b.dump, c.transactions⟩ rfl rfl).trans (h.last.trans
        (lastRaw_put d d.chain.height b.dump (fun i => sub_one_ne _ i) ⟨d.chain.put2 E b.dump, d.transactions⟩ rfl rfl).symm)
  · have hb' : b.info.height ≠ d.chain.height := fun q => hb (q.trans h.height.symm)
    rw [Chain.addBlock_wrong hb, Chain.addBlock_wrong hb']
    exact ⟨rfl, h⟩

theorem present_mainStep {f : MainChain → MainChain} (h1 : ∀ c, (f c).chain.height = c.chain.height)
    (h2 : ∀ c, (f c).getLastRawBlock = c.getLastRawBlock) : Paired PresentMain (Act.step f) :=
  paired_step fun c d h => ⟨by rw [h1, h1, h.height], by rw [h2, h2, h.last]⟩

theorem present_addTransaction (E : Env) (t : Transaction) : Paired PresentMain (MainChain.addTransaction E t) :=
  present_mainStep (fun _ => rfl) fun _ => rfl

theorem present_addTransactions (E : Env) (ts : List Transaction) : Paired PresentMain (MainChain.addTransactions E ts) := by
  unfold MainChain.addTransactions
  induction ts with
  | nil => exact paired_pure _
  | cons t ts ih => exact paired_bind (present_addTransaction E t) fun _ => ih

theorem present_mainFlush : Paired PresentMain MainChain.flush := by
  unfold MainChain.flush MainChain.dumpConfig MainChain.writeConfig
  repeat' first
    | exact present_mainStep (fun _ => rfl) fun _ => rfl
    | refine paired_bind ?_ fun _ => ?_

theorem present_onMain {α : Type} {x : Act MainChain α} (hx : Paired PresentMain x) : Paired Present (Tree.onMain x) :=
  fun s t h => by
    obtain ⟨h1, h2⟩ := hx s.main t.main h.main
    exact ⟨h1, ⟨h2, h.files, h.mem, h.coins, h.gas⟩⟩

/-- A transaction on a balance database sees only its contents. -/
theorem present_transact (c : KV → Outcome KV) : Paired (fun d d' : Db => d.cur = d'.cur) (Ledger.transact c) := by
  intro d d' h
  unfold Ledger.transact
  rw [Act.get_bind, Act.get_bind, h]
  exact paired_bind (R := fun d d' : Db => d.cur = d'.cur) (paired_lift _) (fun _ => paired_step fun _ _ _ => rfl) d d' h

theorem present_onSummary (c : KV → Outcome KV) : Paired Present (Tree.onSummary (Ledger.transact c)) := fun s t h => by
  obtain ⟨h1, h2⟩ := present_transact c s.summary t.summary h.coins
  exact ⟨h1, ⟨h.main, h.files, h.mem, h2, h.gas⟩⟩

theorem present_onGas (c : KV → Outcome KV) : Paired Present (Tree.onGas (Ledger.transact c)) := fun s t h => by
  obtain ⟨h1, h2⟩ := present_transact c s.gas t.gas h.gas
  exact ⟨h1, ⟨h.main, h.files, h.mem, h.coins, h2⟩⟩

theorem Present.handle {s t : Tree} (h : Present s t) (o : Address) : s.handle o = t.handle o := by
  unfold Tree.handle
  rw [h.files, h.mem]

theorem Present.putHandle {s t : Tree} (h : Present s t) (o : Address) (c : DerivativeChain) :
    Present (Tree.putHandle o c s) (Tree.putHandle o c t) :=
  ⟨h.main, by unfold Tree.putHandle; rw [h.files], by unfold Tree.putHandle; rw [h.mem], h.coins, h.gas⟩

theorem present_onDeriv {α : Type} (o : Address) (x : Act DerivativeChain α) : Paired Present (Tree.onDeriv o x) :=
  fun s t h => by
    unfold Tree.onDeriv
    rw [Act.zoom_run, Act.zoom_run, h.handle o]
    exact ⟨rfl, h.putHandle o _⟩

theorem present_getDeriv (E : Env) (o : Address) : Paired Present (Tree.getDerivativeChain E o) := by
  unfold Tree.getDerivativeChain
  refine paired_get fun s t h => ?_
  rw [h.main.block, h.files, h.mem]
  exact paired_ite (paired_pure _) (paired_bind (paired_lift _) fun _ => paired_bind (paired_lift _) fun _ =>
    paired_bind (paired_lift _) fun c => paired_step fun _ _ h => h.putHandle o c) s t h

/-- Walks through a call: the last block, the balances and the derivative chains may be used. -/
local macro "walk_present" : tactic => `(tactic| repeat' first
  | exact paired_lift _
  | exact paired_pure _
  | exact present_onMain (present_addBlock _ _)
  | exact present_onMain (present_addTransaction _ _)
  | exact present_onMain (present_addTransactions _ _)
  | exact present_onMain present_mainFlush
  | exact present_onDeriv _ _
  | exact present_getDeriv _ _
  | exact present_onSummary _
  | exact present_onGas _
  | exact paired_step fun _ _ h => ⟨h.main, h.files, h.mem, h.coins, h.gas⟩
  | refine paired_ite ?_ ?_
  | refine paired_bind ?_ fun _ => ?_)

theorem present_flush : Paired Present Tree.flush := by
  unfold Tree.flush
  walk_present

theorem present_rotate : Paired Present Tree.rotateDbs := by
  unfold Tree.rotateDbs
  refine paired_bind present_flush fun _ => ?_
  walk_present

theorem present_sendAmount (o o' : Bytes) (a : U256) : Paired Present (Tree.sendAmount o o' a) := by
  unfold Tree.sendAmount Ledger.transfer
  walk_present

theorem present_sendTransaction (E : Env) (t : Transaction) : Paired Present (Tree.sendTransaction E t) := by
  unfold Tree.sendTransaction
  refine paired_get fun s u h => ?_
  have e1 : s.getGas t.sender = u.getGas t.sender := by unfold Tree.getGas Db.get; rw [h.gas]
  have e2 : s.getAmount t.sender = u.getAmount t.sender := by unfold Tree.getAmount Db.get; rw [h.coins]
  rw [e1, e2, h.main.block]
  refine (?_ : Paired Present _) s u h
  unfold Tree.subGas Ledger.sub Tree.sendAmount Ledger.transfer
  walk_present

theorem present_emitMain (E : Env) (p : BytesN 32) (f : Address) (txs : List Hash) (ts : UInt64) :
    Paired Present (Tree.emitMain E p f txs ts) := by
  unfold Tree.emitMain
  refine paired_get fun s u h => ?_
  have e1 : s.summarize E = u.summarize E := by unfold Tree.summarize Db.get; rw [h.coins, h.gas]
  rw [e1, h.main.block]
  refine (?_ : Paired Present _) s u h
  unfold Tree.setAmount Ledger.set
  repeat' first
    | exact present_rotate
    | exact paired_lift _
    | exact paired_pure _
    | exact present_onMain (present_addBlock _ _)
    | exact present_onSummary _
    | refine paired_ite ?_ ?_
    | refine paired_bind ?_ fun _ => ?_

/-- A derivative block for an owner whose derivative chain has one already, or whose last one cannot be read. -/
theorem present_emitDerivative (E : Env) (p : BytesN 32) (o : Address) (ts : UInt64) (s t : Tree) (h : Present s t)
    (hn : ¬ Op.LooksBack E s (.emitDerivative p o ts)) :
    (Tree.emitDerivative E p o ts s).out = (Tree.emitDerivative E p o ts t).out ∧
    Present (Tree.emitDerivative E p o ts s).final (Tree.emitDerivative E p o ts t).final := by
  obtain ⟨h1, h2⟩ := present_getDeriv E o s t h
  unfold Tree.emitDerivative
  rw [Act.bind_def]
  unfold Act.bind
  simp only [← h1]
  cases (Tree.getDerivativeChain E o s).out with
  | err e => exact ⟨rfl, h2⟩
  | panic e => exact ⟨rfl, h2⟩
  | ub => exact ⟨rfl, h2⟩
  | ok u =>
    simp only [Act.get_bind]
    have hn' : ((Tree.getDerivativeChain E o s).final.handle o).getLastBlock ≠ .ok none := hn
    generalize (Tree.getDerivativeChain E o s).final = s' at h2 hn'
    generalize (Tree.getDerivativeChain E o t).final = t' at h2
    rw [← h2.handle o]
    cases e : (s'.handle o).getLastBlock with
    | ok l =>
      cases l with
      | none => exact absurd e hn'
      | some b =>
        refine (?_ : Paired Present _) s' t' h2
        walk_present
    | err e => exact ⟨rfl, h2⟩
    | panic e => exact ⟨rfl, h2⟩
    | ub => exact ⟨rfl, h2⟩

theorem present_op (E : Env) (op : Op) (s t : Tree) (h : Present s t) (hn : ¬ Op.LooksBack E s op) :
    (op.run E s).out = (op.run E t).out ∧ Present (op.run E s).final (op.run E t).final := by
  cases op with
  | addBlock b => exact present_onMain (present_addBlock E b) s t h
  | addNewBlock b txs =>
    exact paired_bind (present_onMain (present_addBlock E b)) (fun _ => present_onMain (present_addTransactions E txs)) s t h
  | addTransaction u => exact present_onMain (present_addTransaction E u) s t h
  | addTransactions us => exact present_onMain (present_addTransactions E us) s t h
  | addAmount o a => exact present_onSummary _ s t h
  | setAmount o a => exact present_onSummary _ s t h
  | subAmount o a => exact present_onSummary _ s t h
  | sendAmount o o' a => exact present_sendAmount o o' a s t h
  | addGas o a => exact present_onGas _ s t h
  | subGas o a => exact present_onGas _ s t h
  | sendGas o o' a => exact present_onGas _ s t h
  | sendTransaction u => exact present_sendTransaction E u s t h
  | emitMain p f txs ts => exact paired_void (present_emitMain E p f txs ts) s t h
  | emitDerivative p o ts =>
    obtain ⟨h1, h2⟩ := present_emitDerivative E p o ts s t h hn
    exact ⟨by show Outcome.bind _ _ = Outcome.bind _ _; rw [h1], h2⟩
  | getDerivativeChain o => exact present_getDeriv E o s t h
  | derivAddBlock o b => exact paired_bind (present_getDeriv E o) (fun _ => present_onDeriv o _) s t h
  | derivFlush o => exact paired_bind (present_getDeriv E o) (fun _ => present_onDeriv o _) s t h
  | mainFlush => exact present_onMain present_mainFlush s t h
  | flush => exact present_flush s t h

/-! ## C167 -/

/-- C167. Whatever two nodes hold: if they have the same height, the same last block, the same balances and the same
derivative chains, every series of calls is answered, call by call, the same by both, unless a derivative block is emitted
for an owner whose derivative chain is empty; and afterwards their present is the same again. -/
theorem C167_present (E : Env) (s t : Tree) (ops : List Op) (h : Present s t) (hops : NeverBack E ops s) :
    (answers E ops s).1 = (answers E ops t).1 ∧ Present (answers E ops s).2 (answers E ops t).2 := by
  induction ops generalizing s t with
  | nil => exact ⟨rfl, h⟩
  | cons op ops ih =>
    obtain ⟨h1, h2⟩ := present_op E op s t h hops.1
    obtain ⟨i1, i2⟩ := ih _ _ h2 hops.2
    refine ⟨?_, i2⟩
    show (op.run E s).out :: _ = (op.run E t).out :: _
    rw [h1, i1]

/-- The node without its past: only the last block is kept, nothing of the index and the stored transactions. -/
def forget (s : Tree) : Tree :=
  { s with
    main :=
      { chain :=
          { s.main.chain with
            blocks := Db.open' (match s.main.getLastRawBlock with
              | .ok (some v) => KV.empty.insert (⟨s.main.chain.height.val - 1,
                  Nat.lt_of_le_of_lt (Nat.sub_le _ _) s.main.chain.height.lt⟩ : U256).toBE.val v
              | _ => KV.empty)
            heightReference := Db.open' KV.empty }
        transactions := Db.open' KV.empty }
    oldSummary := Db.open' KV.empty
    oldGas := Db.open' KV.empty }

theorem forget_present (s : Tree) : Present s (forget s) := by
  refine ⟨⟨rfl, ?_⟩, rfl, rfl, rfl, rfl⟩
  have key : ∀ r, s.main.getLastRawBlock = r → r = (forget s).main.getLastRawBlock := by
    intro r hr
    have hf : (forget s).main.getLastRawBlock = (s.main.chain.height.sub U256.one >>= fun i =>
        Outcome.ok (if s.main.chain.height.val < i.val then none else (match s.main.getLastRawBlock with
          | .ok (some v) => KV.empty.insert (⟨s.main.chain.height.val - 1,
              Nat.lt_of_le_of_lt (Nat.sub_le _ _) s.main.chain.height.lt⟩ : U256).toBE.val v
          | _ => KV.empty).get i.toBE.val)) := rfl
    rw [hf, hr]
    unfold MainChain.getLastRawBlock at hr
    rw [← hr]
    unfold U256.sub
    split
    · simp only [Outcome.ok_bind]
      rw [if_neg (Nat.not_lt.mpr (Nat.sub_le _ _))]
      cases e : s.main.chain.blocks.get (⟨s.main.chain.height.val - U256.one.val,
          Nat.lt_of_le_of_lt (Nat.sub_le _ _) s.main.chain.height.lt⟩ : U256).toBE.val with
      | none =>
        simp only [MainChain.findRawByHeight, Chain.findRawByHeight, e]
        simp
      | some v =>
        simp only [MainChain.findRawByHeight, Chain.findRawByHeight, e]
        rw [if_neg (Nat.not_lt.mpr (Nat.sub_le _ _))]
        simp only
        rw [KV.get_insert]
        exact congrArg Outcome.ok (if_pos rfl).symm
    · rfl
  exact key _ rfl

/-- C167, the node without its past: it goes on as if nothing were missing. -/
theorem C167_forget (E : Env) (s : Tree) (ops : List Op) (hops : NeverBack E ops s) :
    (answers E ops s).1 = (answers E ops (forget s)).1 ∧ Present (answers E ops s).2 (answers E ops (forget s)).2 :=
  C167_present E s _ ops (forget_present s) hops

/-- The call left out does look back: without the index, the first derivative block of an owner is refused, whatever the
proof of work. -/
theorem C167_lookback (E : Env) (s : Tree) (b : Block) (o : Address) (p : BytesN 32) (ts : UInt64)
    (hl : s.main.getLastBlock = .ok (some b)) (hm : s.derivMem o = none)
    (hc : (s.derivFiles (hexEncode o.val)).config = none) :
    Op.LooksBack E s (.emitDerivative p o ts) ∧
    ((Op.emitDerivative p o ts).run E (forget s)).out = .err .chainFindByHashE := by
  have hg : ∀ t : Tree, t.main.getLastBlock = .ok (some b) → t.derivMem o = none →
      (t.derivFiles (hexEncode o.val)).config = none →
      ∃ c : DerivativeChain, c.chain.height = U256.zero ∧ (Tree.getDerivativeChain E o t).out = .ok () ∧
        (Tree.getDerivativeChain E o t).final = Tree.putHandle o c t := by
    intro t h1 h2 h3
    unfold Tree.getDerivativeChain
    rw [Act.get_bind, h1, h2]
    simp only [h3]
    exact ⟨_, rfl, rfl, rfl⟩
  have hh : ∀ (t : Tree) (c : DerivativeChain), ((Tree.putHandle o c t).handle o).chain.height = c.chain.height := by
    intro t c
    unfold Tree.handle Tree.putHandle
    simp
  have hlast : ∀ d : DerivativeChain, d.chain.height = U256.zero → d.getLastBlock = .ok none := by
    intro d hd
    unfold DerivativeChain.getLastBlock DerivativeChain.getLastRawBlock
    rw [hd]
    rfl
  constructor
  · obtain ⟨c, hz, _, hf⟩ := hg s hl hm hc
    show ((Tree.getDerivativeChain E o s).final.handle o).getLastBlock = _
    rw [hf]
    exact hlast _ ((hh s c).trans hz)
  · have hl' : (forget s).main.getLastBlock = .ok (some b) := (forget_present s).main.block ▸ hl
    obtain ⟨c, hz, ho, hf⟩ := hg (forget s) hl' hm hc
    show ((Tree.emitDerivative E p o ts (forget s)).out >>= fun _ => Outcome.ok ()) = _
    unfold Tree.emitDerivative
    rw [Act.bind_def]
    unfold Act.bind
    simp only [ho, hf, Act.get_bind]
    rw [hlast _ ((hh _ c).trans hz)]
    rfl

/-- A series with a transaction, a deposit and two blocks; the node without its past does not have the transaction that the
other one stored before. -/
example (E : Env) (s : Tree) (x t : Transaction) (o : Address) (a : U256) (p : BytesN 32) (txs : List Hash) (ts : UInt64) :
    let s := (Tree.onMain (MainChain.addTransaction E x) s).final
    let ops : List Op := [.sendTransaction t, .addAmount o.val a, .emitMain p o txs ts, .emitMain p o [] ts, .flush]
    (answers E ops s).1 = (answers E ops (forget s)).1 ∧
    s.main.transactionExists (E.sha256 x.dump) = true ∧ (forget s).main.transactionExists (E.sha256 x.dump) = false := by
  intro s' ops
  refine ⟨(C167_forget E s' ops ⟨id, id, id, id, id, trivial⟩).1, ?_, rfl⟩
  show ((s.main.transactions.cur.insert (E.sha256 x.dump).val x.dump).get (E.sha256 x.dump).val).isSome = true
  rw [KV.get_insert, if_pos rfl]
  rfl

end BCT.Props
