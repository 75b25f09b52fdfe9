import Verif.Props.DamageEpoch
/-!
# C171: damage to the history neither spreads nor heals

Two open nodes that differ in some of the older blocks, some entries of the index and some stored transactions
(blockchaintree.rs:85-101, :326-543, chain.rs:223-436): what the calls and the lookups do on the one and on the other.
-/

namespace BCT.Props
open BCT

/-- The two main chains have the same present and differ otherwise at most in the blocks under the keys `K`, the index
entries under the hashes `H` and the stored transactions under the hashes `P`. -/
structure ScarredMain (K H P : Bytes → Prop) (c d : MainChain) : Prop where
  present : PresentMain c d
  blocks : SameOff K c.chain.blocks.cur d.chain.blocks.cur
  index : SameOff H c.chain.heightReference.cur d.chain.heightReference.cur
  pool : SameOff P c.transactions.cur d.transactions.cur

/-- The two nodes differ at most there, in the config file and in the databases of the last epoch. -/
structure Scarred (K H P : Bytes → Prop) (s t : Tree) : Prop where
  main : ScarredMain K H P s.main t.main
  files : s.derivFiles = t.derivFiles
  mem : s.derivMem = t.derivMem
  coins : s.summary.cur = t.summary.cur
  gas : s.gas.cur = t.gas.cur

/-- Neither the index entry of the hash nor the block it leads to is damaged. -/
def Clear (K H : Bytes → Prop) (c : MainChain) (h : Hash) : Prop :=
  ¬ H h.val ∧ ∀ v i, c.chain.heightReference.get h.val = some v → U256.fromBE v = .ok i → ¬ K i.toBE.val

/-- The only calls that may meet the damage: the first derivative block of an owner whose chain is anchored at a block
that is not clear of it. -/
def Op.Grazes (E : Env) (K H : Bytes → Prop) (s : Tree) : Op → Prop
  | .emitDerivative p o ts => Op.LooksBack E s (.emitDerivative p o ts) ∧
    ¬ Clear K H (Tree.getDerivativeChain E o s).final.main ((Tree.getDerivativeChain E o s).final.handle o).genesisHash
  | _ => False

/-- No call of the series meets the damage when its turn comes. -/
def NeverGrazes (E : Env) (K H : Bytes → Prop) : List Op → Tree → Prop
  | [], _ => True
  | op :: ops, s => ¬ Op.Grazes E K H s op ∧ NeverGrazes E K H ops (op.run E s).final

section
variable {K H P : Bytes → Prop}

theorem scarred_addBlock (E : Env) (b : Block) : Paired (ScarredMain K H P) (MainChain.addBlock E b) := by
  intro c d h
  obtain ⟨h1, h2⟩ := present_addBlock E b c d h.present
  suffices hs : SameOff K (MainChain.addBlock E b c).final.chain.blocks.cur (MainChain.addBlock E b d).final.chain.blocks.cur ∧
      SameOff H (MainChain.addBlock E b c).final.chain.heightReference.cur
        (MainChain.addBlock E b d).final.chain.heightReference.cur ∧
      SameOff P (MainChain.addBlock E b c).final.transactions.cur (MainChain.addBlock E b d).final.transactions.cur from
    ⟨h1, h2, hs.1, hs.2.1, hs.2.2⟩
  clear h1 h2
  have hh := h.present.height
  unfold MainChain.addBlock MainChain.onChain
  rw [Act.zoom_run, Act.zoom_run]
  by_cases hb : b.info.height = c.chain.height
  · have hb' : b.info.height = d.chain.height := hb.trans hh
    by_cases hm : c.chain.height.val + 1 < U256.size
    · have hm' : d.chain.height.val + 1 < U256.size := hh ▸ hm
      have e1 : Chain.addBlock E b.info.height b.dump c.chain = _ :=
        (congrArg (fun q => Chain.addBlock E q b.dump c.chain) hb).trans (Chain.addBlock_right hm)
      have e2 : Chain.addBlock E b.info.height b.dump d.chain = _ :=
        (congrArg (fun q => Chain.addBlock E q b.dump d.chain) hb').trans (Chain.addBlock_right hm')
      simp only [e1, e2]
      refine ⟨?_, ?_, h.pool⟩
      · show SameOff K (c.chain.blocks.cur.insert c.chain.height.toBE.val b.dump) (d.chain.blocks.cur.insert d.chain.height.toBE.val b.dump)
        rw [← hh]
        exact h.blocks.insert _ _
      · show SameOff H (c.chain.heightReference.cur.insert _ c.chain.height.toBE.val) (d.chain.heightReference.cur.insert _ d.chain.height.toBE.val)
        rw [← hh]
        exact h.index.insert _ _
    · have hm' : ¬ d.chain.height.val + 1 < U256.size := hh ▸ hm
      have e1 : Chain.addBlock E b.info.height b.dump c.chain = _ :=
        (congrArg (fun q => Chain.addBlock E q b.dump c.chain) hb).trans (Chain.addBlock_max hm)
      have e2 : Chain.addBlock E b.info.height b.dump d.chain = _ :=
        (congrArg (fun q => Chain.addBlock E q b.dump d.chain) hb').trans (Chain.addBlock_max hm')
      simp only [e1, e2]
      refine ⟨?_, ?_, h.pool⟩
      · show SameOff K (c.chain.blocks.cur.insert c.chain.height.toBE.val b.dump) (d.chain.blocks.cur.insert d.chain.height.toBE.val b.dump)
        rw [← hh]
        exact h.blocks.insert _ _
      · show SameOff H (c.chain.heightReference.cur.insert _ c.chain.height.toBE.val) (d.chain.heightReference.cur.insert _ d.chain.height.toBE.val)
        rw [← hh]
        exact h.index.insert _ _
  · have hb' : b.info.height ≠ d.chain.height := fun q => hb (q.trans hh.symm)
    rw [Chain.addBlock_wrong hb, Chain.addBlock_wrong hb']
    exact ⟨h.blocks, h.index, h.pool⟩

theorem scarred_addTransaction (E : Env) (t : Transaction) : Paired (ScarredMain K H P) (MainChain.addTransaction E t) :=
  paired_step fun _ _ h => ⟨⟨h.present.height, h.present.last⟩, h.blocks, h.index, h.pool.insert _ _⟩

theorem scarred_addTransactions (E : Env) (ts : List Transaction) :
    Paired (ScarredMain K H P) (MainChain.addTransactions E ts) := by
  unfold MainChain.addTransactions
  induction ts with
  | nil => exact paired_pure _
  | cons t ts ih => exact paired_bind (scarred_addTransaction E t) fun _ => ih

theorem scarred_mainFlush : Paired (ScarredMain K H P) MainChain.flush := by
  unfold MainChain.flush MainChain.dumpConfig MainChain.writeConfig
  repeat' first
    | refine paired_bind ?_ fun _ => ?_
    | exact paired_step fun _ _ h => ⟨⟨h.present.height, h.present.last⟩, h.blocks, h.index, h.pool⟩

theorem scarred_onMain {α : Type} {x : Act MainChain α} (hx : Paired (ScarredMain K H P) x) :
    Paired (Scarred K H P) (Tree.onMain x) := fun s t h => by
  obtain ⟨h1, h2⟩ := hx s.main t.main h.main
  exact ⟨h1, ⟨h2, h.files, h.mem, h.coins, h.gas⟩⟩

theorem scarred_onSummary (c : KV → Outcome KV) : Paired (Scarred K H P) (Tree.onSummary (Ledger.transact c)) :=
  fun s t h => by
    obtain ⟨h1, h2⟩ := present_transact c s.summary t.summary h.coins
    exact ⟨h1, ⟨h.main, h.files, h.mem, h2, h.gas⟩⟩

theorem scarred_onGas (c : KV → Outcome KV) : Paired (Scarred K H P) (Tree.onGas (Ledger.transact c)) :=
  fun s t h => by
    obtain ⟨h1, h2⟩ := present_transact c s.gas t.gas h.gas
    exact ⟨h1, ⟨h.main, h.files, h.mem, h.coins, h2⟩⟩

theorem Scarred.toPresent {s t : Tree} (h : Scarred K H P s t) : Present s t :=
  ⟨h.main.present, h.files, h.mem, h.coins, h.gas⟩

theorem Scarred.putHandle {s t : Tree} (h : Scarred K H P s t) (o : Address) (c : DerivativeChain) :
    Scarred K H P (Tree.putHandle o c s) (Tree.putHandle o c t) :=
  ⟨h.main, by unfold Tree.putHandle; rw [h.files], by unfold Tree.putHandle; rw [h.mem], h.coins, h.gas⟩

theorem scarred_onDeriv {α : Type} (o : Address) (x : Act DerivativeChain α) :
    Paired (Scarred K H P) (Tree.onDeriv o x) := fun s t h => by
  unfold Tree.onDeriv
  rw [Act.zoom_run, Act.zoom_run, h.toPresent.handle o]
  exact ⟨rfl, h.putHandle o _⟩

theorem scarred_getDeriv (E : Env) (o : Address) : Paired (Scarred K H P) (Tree.getDerivativeChain E o) := by
  unfold Tree.getDerivativeChain
  refine paired_get fun s t h => ?_
  rw [h.main.present.block, h.files, h.mem]
  exact paired_ite (paired_pure _) (paired_bind (paired_lift _) fun _ => paired_bind (paired_lift _) fun _ =>
    paired_bind (paired_lift _) fun c => paired_step fun _ _ h => h.putHandle o c) s t h

/-- Walks through a call: the last block, the balances and the derivative chains may be used. -/
local macro "walk_scarred" : tactic => `(tactic| repeat' first
  | exact paired_lift _
  | exact paired_pure _
  | exact scarred_onMain (scarred_addBlock _ _)
  | exact scarred_onMain (scarred_addTransaction _ _)
  | exact scarred_onMain (scarred_addTransactions _ _)
  | exact scarred_onMain scarred_mainFlush
  | exact scarred_onDeriv _ _
  | exact scarred_getDeriv _ _
  | exact scarred_onSummary _
  | exact scarred_onGas _
  | exact paired_step fun _ _ h => ⟨h.main, h.files, h.mem, h.coins, h.gas⟩
  | refine paired_ite ?_ ?_
  | refine paired_bind ?_ fun _ => ?_)

theorem scarred_flush : Paired (Scarred K H P) Tree.flush := by
  unfold Tree.flush
  walk_scarred

theorem scarred_rotate : Paired (Scarred K H P) Tree.rotateDbs := by
  unfold Tree.rotateDbs
  refine paired_bind scarred_flush fun _ => ?_
  walk_scarred

theorem scarred_sendAmount (o o' : Bytes) (a : U256) : Paired (Scarred K H P) (Tree.sendAmount o o' a) := by
  unfold Tree.sendAmount Ledger.transfer
  walk_scarred

theorem scarred_sendTransaction (E : Env) (t : Transaction) : Paired (Scarred K H P) (Tree.sendTransaction E t) := by
  unfold Tree.sendTransaction
  refine paired_get fun s u h => ?_
  have e1 : s.getGas t.sender = u.getGas t.sender := by unfold Tree.getGas Db.get; rw [h.gas]
  have e2 : s.getAmount t.sender = u.getAmount t.sender := by unfold Tree.getAmount Db.get; rw [h.coins]
  rw [e1, e2, h.main.present.block]
  refine (?_ : Paired (Scarred K H P) _) s u h
  unfold Tree.subGas Ledger.sub Tree.sendAmount Ledger.transfer
  walk_scarred

theorem scarred_emitMain (E : Env) (p : BytesN 32) (f : Address) (txs : List Hash) (ts : UInt64) :
    Paired (Scarred K H P) (Tree.emitMain E p f txs ts) := by
  unfold Tree.emitMain
  refine paired_get fun s u h => ?_
  have e1 : s.summarize E = u.summarize E := by unfold Tree.summarize Db.get; rw [h.coins, h.gas]
  rw [e1, h.main.present.block]
  refine (?_ : Paired (Scarred K H P) _) s u h
  unfold Tree.setAmount Ledger.set
  repeat' first
    | exact scarred_rotate
    | exact paired_lift _
    | exact paired_pure _
    | exact scarred_onMain (scarred_addBlock _ _)
    | exact scarred_onSummary _
    | refine paired_ite ?_ ?_
    | refine paired_bind ?_ fun _ => ?_

/-- Looking a block up by its height. -/
theorem ScarredMain.byHeight {c d : MainChain} (h : ScarredMain K H P c d) (i : U256) (hi : ¬ K i.toBE.val) :
    c.findRawByHeight i = d.findRawByHeight i := by
  unfold MainChain.findRawByHeight Chain.findRawByHeight
  rw [h.present.height]
  exact if_congr Iff.rfl rfl (h.blocks _ hi)

/-- Looking a block up by its hash. -/
theorem ScarredMain.byHash {c d : MainChain} (h : ScarredMain K H P c d) (q : Hash) (hq : Clear K H c q) :
    c.findRawByHash q = d.findRawByHash q := by
  unfold MainChain.findRawByHash Chain.findRawByHash
  have e : d.chain.heightReference.get q.val = c.chain.heightReference.get q.val := (h.index _ hq.1).symm
  rw [e]
  cases hv : c.chain.heightReference.get q.val with
  | none => rfl
  | some v =>
    simp only
    cases hw : U256.fromBE v with
    | ok i => exact congrArg Outcome.ok (h.byHeight i (hq.2 v i hv hw))
    | err e => rfl
    | panic e => rfl
    | ub => rfl

theorem scarred_emitDerivative (E : Env) (p : BytesN 32) (o : Address) (ts : UInt64) (s t : Tree) (h : Scarred K H P s t)
    (hn : ¬ Op.Grazes E K H s (.emitDerivative p o ts)) :
    (Tree.emitDerivative E p o ts s).out = (Tree.emitDerivative E p o ts t).out ∧
    Scarred K H P (Tree.emitDerivative E p o ts s).final (Tree.emitDerivative E p o ts t).final := by
  obtain ⟨h1, h2⟩ := scarred_getDeriv E o s t h
  unfold Tree.emitDerivative
  rw [Act.bind_def]
  unfold Act.bind
  simp only [← h1]
  cases (Tree.getDerivativeChain E o s).out with
  | err e => exact ⟨rfl, h2⟩
  | panic e => exact ⟨rfl, h2⟩
  | ub => exact ⟨rfl, h2⟩
  | ok u =>
    simp only [Act.get_bind]
    have hn' : ((Tree.getDerivativeChain E o s).final.handle o).getLastBlock = .ok none →
        Clear K H (Tree.getDerivativeChain E o s).final.main
          ((Tree.getDerivativeChain E o s).final.handle o).genesisHash :=
      fun e => Classical.byContradiction fun q => hn ⟨e, q⟩
    generalize (Tree.getDerivativeChain E o s).final = s' at h2 hn'
    generalize (Tree.getDerivativeChain E o t).final = t' at h2
    rw [← h2.toPresent.handle o]
    cases e : (s'.handle o).getLastBlock with
    | ok l =>
      cases l with
      | none =>
        have ef : s'.main.findByHash (s'.handle o).genesisHash = t'.main.findByHash (s'.handle o).genesisHash := by
          unfold MainChain.findByHash
          rw [h2.main.byHash _ (hn' e)]
        simp only [ef]
        refine (?_ : Paired (Scarred K H P) _) s' t' h2
        walk_scarred
      | some b =>
        refine (?_ : Paired (Scarred K H P) _) s' t' h2
        walk_scarred
    | err e => exact ⟨rfl, h2⟩
    | panic e => exact ⟨rfl, h2⟩
    | ub => exact ⟨rfl, h2⟩

theorem scarred_op (E : Env) (op : Op) (s t : Tree) (h : Scarred K H P s t) (hn : ¬ Op.Grazes E K H s op) :
    (op.run E s).out = (op.run E t).out ∧ Scarred K H P (op.run E s).final (op.run E t).final := by
  cases op with
  | addBlock b => exact scarred_onMain (scarred_addBlock E b) s t h
  | addNewBlock b txs =>
    exact paired_bind (scarred_onMain (scarred_addBlock E b)) (fun _ => scarred_onMain (scarred_addTransactions E txs)) s t h
  | addTransaction u => exact scarred_onMain (scarred_addTransaction E u) s t h
  | addTransactions us => exact scarred_onMain (scarred_addTransactions E us) s t h
  | addAmount o a => exact scarred_onSummary _ s t h
  | setAmount o a => exact scarred_onSummary _ s t h
  | subAmount o a => exact scarred_onSummary _ s t h
  | sendAmount o o' a => exact scarred_sendAmount o o' a s t h
  | addGas o a => exact scarred_onGas _ s t h
  | subGas o a => exact scarred_onGas _ s t h
  | sendGas o o' a => exact scarred_onGas _ s t h
  | sendTransaction u => exact scarred_sendTransaction E u s t h
  | emitMain p f txs ts => exact paired_void (scarred_emitMain E p f txs ts) s t h
  | emitDerivative p o ts =>
    obtain ⟨h1, h2⟩ := scarred_emitDerivative E p o ts s t h hn
    exact ⟨by show Outcome.bind _ _ = Outcome.bind _ _; rw [h1], h2⟩
  | getDerivativeChain o => exact scarred_getDeriv E o s t h
  | derivAddBlock o b => exact paired_bind (scarred_getDeriv E o) (fun _ => scarred_onDeriv o _) s t h
  | derivFlush o => exact paired_bind (scarred_getDeriv E o) (fun _ => scarred_onDeriv o _) s t h
  | mainFlush => exact scarred_onMain scarred_mainFlush s t h
  | flush => exact scarred_flush s t h

end

/-! ## C171 -/

/-- C171, damage does not spread. Two nodes that differ only in the blocks under the keys `K`, the index entries under the
hashes `H` and the stored transactions under the hashes `P`, none of it their last block: every series of calls is
answered the same by both, unless a first derivative block is anchored at a damaged place; and afterwards every lookup
that does not lead to a damaged place finds the same in both. -/
theorem C171_spread (E : Env) (K H P : Bytes → Prop) (s t : Tree) (ops : List Op) (h : Scarred K H P s t)
    (hops : NeverGrazes E K H ops s) :
    (answers E ops s).1 = (answers E ops t).1 ∧ Scarred K H P (answers E ops s).2 (answers E ops t).2 ∧
    (∀ i : U256, ¬ K i.toBE.val → (answers E ops s).2.main.findByHeight i = (answers E ops t).2.main.findByHeight i) ∧
    (∀ q : Hash, Clear K H (answers E ops s).2.main q →
      (answers E ops s).2.main.findByHash q = (answers E ops t).2.main.findByHash q) ∧
    (∀ q : Hash, ¬ P q.val →
      (answers E ops s).2.main.getTransaction E q = (answers E ops t).2.main.getTransaction E q) := by
  have key : (answers E ops s).1 = (answers E ops t).1 ∧ Scarred K H P (answers E ops s).2 (answers E ops t).2 := by
    induction ops generalizing s t with
    | nil => exact ⟨rfl, h⟩
    | cons op ops ih =>
      obtain ⟨h1, h2⟩ := scarred_op E op s t h hops.1
      obtain ⟨i1, i2⟩ := ih _ _ h2 hops.2
      refine ⟨?_, i2⟩
      show (op.run E s).out :: _ = (op.run E t).out :: _
      rw [h1, i1]
  refine ⟨key.1, key.2, fun i hi => ?_, fun q hq => ?_, fun q hq => ?_⟩
  · unfold MainChain.findByHeight
    rw [key.2.main.byHeight i hi]
  · unfold MainChain.findByHash
    rw [key.2.main.byHash q hq]
  · have e : (answers E ops s).2.main.getTransactionRaw q = (answers E ops t).2.main.getTransactionRaw q :=
      key.2.main.pool _ hq
    unfold MainChain.getTransaction
    rw [e]

/-- The blocks below the height of `s` are those of `t`. -/
def Bedrock (s t : Tree) : Prop := s.main.chain.height.val ≤ t.main.chain.height.val ∧
  ∀ i : U256, i.val < s.main.chain.height.val →
    t.main.chain.blocks.get i.toBE.val = s.main.chain.blocks.get i.toBE.val

theorem bedrock_preord : Act.PreOrd Bedrock where
  refl _ := ⟨Nat.le_refl _, fun _ _ => rfl⟩
  trans h1 h2 := ⟨Nat.le_trans h1.1 h2.1, fun i hi => (h2.2 i (Nat.lt_of_lt_of_le hi h1.1)).trans (h1.2 i hi)⟩

theorem bedrock_main {s t : Tree} (h : MainSame s t) : Bedrock s t :=
  ⟨by rw [h.2.2], fun i _ => by
    show t.main.chain.blocks.cur.get _ = s.main.chain.blocks.cur.get _
    rw [h.1]⟩

theorem bedrock_prims (E : Env) : Prims E (fun _ => True) (fun {α} (x : Act Tree α) => Act.Rel Bedrock x) := by
  have key : ∀ {α : Type} {x : Act Tree α}, Act.Rel MainSame x → Act.Rel Bedrock x := fun h => h.mono fun _ _ => bedrock_main
  have hput : ∀ (c : Chain) (v : Bytes) (i : U256), i.val < c.height.val →
      (c.blocks.insert c.height.toBE.val v).get i.toBE.val = c.blocks.get i.toBE.val := fun c v i hi => by
    show (c.blocks.cur.insert _ _).get _ = c.blocks.cur.get _
    rw [KV.get_insert, if_neg fun e => Nat.ne_of_gt hi (congrArg U256.val (toBE_inj e))]
  refine ⟨fun b _ => ?_, fun t => ?_, ?_, fun _ _ => key (Tree.onSummary_mainSame _),
    fun _ _ => key (Tree.onSummary_mainSame _), fun _ _ => key (Tree.onSummary_mainSame _),
    fun _ _ _ _ => key (Tree.onSummary_mainSame _), fun _ _ => key (Tree.onGas_mainSame _),
    fun _ _ => key (Tree.onGas_mainSame _), fun _ _ _ => key (Tree.onGas_mainSame _), key Tree.flush_mainSame,
    key Tree.rotate_mainSame, fun _ => key (Tree.getDeriv_mainSame _ _), fun _ _ => key (Tree.onDeriv_mainSame _ _),
    fun _ => key (Tree.onDeriv_mainSame _ _)⟩
  · intro s
    unfold Tree.onMain MainChain.addBlock MainChain.onChain
    rw [Act.zoom_run, Act.zoom_run]
    by_cases hb : b.info.height = s.main.chain.height
    · by_cases hm : s.main.chain.height.val + 1 < U256.size
      · have e : Chain.addBlock E b.info.height b.dump s.main.chain = _ :=
          (congrArg (fun q => Chain.addBlock E q b.dump s.main.chain) hb).trans (Chain.addBlock_right hm)
        simp only [e]
        refine ⟨⟨Nat.le_succ _, fun i hi => hput _ _ i hi⟩, fun t ht => ?_⟩
        simp only [List.map_cons, List.map_nil, List.mem_cons, List.not_mem_nil, or_false] at ht
        rcases ht with rfl | rfl | rfl
        · exact ⟨Nat.le_refl _, fun i hi => hput _ _ i hi⟩
        · exact ⟨Nat.le_refl _, fun i hi => hput _ _ i hi⟩
        · exact ⟨Nat.le_succ _, fun i hi => hput _ _ i hi⟩
      · have e : Chain.addBlock E b.info.height b.dump s.main.chain = _ :=
          (congrArg (fun q => Chain.addBlock E q b.dump s.main.chain) hb).trans (Chain.addBlock_max hm)
        simp only [e]
        refine ⟨⟨Nat.le_refl _, fun i hi => hput _ _ i hi⟩, fun t ht => ?_⟩
        simp only [List.map_cons, List.map_nil, List.mem_cons, List.not_mem_nil, or_false] at ht
        rcases ht with rfl | rfl
        · exact ⟨Nat.le_refl _, fun i hi => hput _ _ i hi⟩
        · exact ⟨Nat.le_refl _, fun i hi => hput _ _ i hi⟩
    · rw [Chain.addBlock_wrong hb]
      exact ⟨bedrock_preord.refl _, by simp⟩
  · refine key (Act.rel_zoom (R := fun a b : MainChain => Chain.Same a.chain b.chain) ?_ (fun _ _ h => h))
    exact Act.rel_step fun _ => Chain.same_preord.refl _
  · exact key (Act.rel_zoom MainChain.flush_same fun _ _ h => h)

/-- C171, damage does not heal. Whatever a node holds below its height, readable or not, it holds there after every series
of calls. -/
theorem C171_heal (E : Env) (s : Tree) (ops : List Op) (i : U256) (hi : i.val < s.main.chain.height.val) :
    (answers E ops s).2.main.findRawByHeight i = s.main.chain.blocks.get i.toBE.val := by
  have key : Bedrock s (answers E ops s).2 := by
    induction ops generalizing s with
    | nil => exact bedrock_preord.refl _
    | cons op ops ih =>
      have h1 : Bedrock s (op.run E s).final :=
        (Op.sat (bedrock_prims E) (Act.rel_closed bedrock_preord) op (by cases op <;> simp [Op.Adds]) s).1
      exact bedrock_preord.trans h1 (ih _ (Nat.lt_of_lt_of_le hi h1.1))
  unfold MainChain.findRawByHeight Chain.findRawByHeight
  rw [if_neg (Nat.not_lt.mpr (Nat.le_of_lt (Nat.lt_of_lt_of_le hi key.1)))]
  exact key.2 i hi

/-- One older block emptied: the node goes on as before, finds every other block, and never again this one. -/
theorem C171_emptied (E : Env) (s : Tree) (i : U256) (ops : List Op) (hi : i.val + 1 < s.main.chain.height.val) :
    let t : Tree := { s with main := { s.main with chain := { s.main.chain with
      blocks := s.main.chain.blocks.insert i.toBE.val [] } } }
    Scarred (· = i.toBE.val) (fun _ => False) (fun _ => False) s t ∧
    (answers E ops t).2.main.findByHeight i = .err .chainFindByHeight ∧
    (NeverGrazes E (· = i.toBE.val) (fun _ => False) ops s → (answers E ops s).1 = (answers E ops t).1 ∧
      ∀ j, j ≠ i → (answers E ops s).2.main.findByHeight j = (answers E ops t).2.main.findByHeight j) := by
  intro t
  have hget : ∀ k, t.main.chain.blocks.get k = if i.toBE.val = k then some [] else s.main.chain.blocks.get k :=
    fun k => KV.get_insert ..
  have hsc : Scarred (· = i.toBE.val) (fun _ => False) (fun _ => False) s t := by
    refine ⟨⟨⟨rfl, ?_⟩, fun k hk => ?_, fun _ _ => rfl, fun _ _ => rfl⟩, rfl, rfl, rfl, rfl⟩
    · refine (lastRaw_put s.main i [] (fun j hj e => ?_) t.main rfl rfl).symm
      unfold U256.sub at hj
      split at hj
      · have hv := congrArg U256.val (Outcome.ok.inj hj)
        rw [← e] at hv
        have h1 : U256.one.val = 1 := rfl
        simp only [h1] at hv
        omega
      · cases hj
    · exact ((hget k).trans (if_neg fun e => hk e.symm)).symm
  refine ⟨hsc, ?_, fun hg => ?_⟩
  · unfold MainChain.findByHeight
    rw [C171_heal E t ops i (Nat.lt_of_succ_lt hi), hget, if_pos rfl]
    rfl
  · obtain ⟨h1, _, h3, _⟩ := C171_spread E _ _ _ s t ops hsc hg
    exact ⟨h1, fun j hj => h3 j fun e => hj (toBE_inj e)⟩

/-- A series with blocks of both kinds and a transaction, on a node whose genesis block was emptied. -/
example (E : Env) (s : Tree) (hi : 1 < s.main.chain.height.val) (x : Transaction) (o : Address) (p : BytesN 32) (txs : List Hash)
    (ts : UInt64) :
    let t : Tree := { s with main := { s.main with chain := { s.main.chain with
      blocks := s.main.chain.blocks.insert U256.zero.toBE.val [] } } }
    let ops : List Op := [.sendTransaction x, .emitMain p o txs ts, .emitMain p o [] ts, .getDerivativeChain o, .flush]
    (answers E ops s).1 = (answers E ops t).1 := by
  intro t ops
  exact ((C171_emptied E s U256.zero ops hi).2.2 ⟨id, id, id, id, id, trivial⟩).1

end BCT.Props
