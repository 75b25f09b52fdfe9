import Verif.Props.Unsafe
import Verif.Props.Crash
import Verif.Lemmas.NodeSpec
/-!
# C164: panics

For each public call (`Op`, blockchaintree.rs and chain.rs) the exact condition under which it panics, on every node
that any calls, kills and restarts can lead to (`Life`). `UpShelved` is the invariant that makes stored blocks readable.
-/

namespace BCT.Props
open BCT

/-! ## Panics and sequencing -/

/-- The call ends in a panic. -/
def Panicked {α : Type} (o : Outcome α) : Prop := ∃ p, o = .panic p

section
variable {σ τ α β : Type}

@[simp] theorem panicked_ok (a : α) : ¬ Panicked (Outcome.ok a) := fun ⟨_, h⟩ => by cases h
@[simp] theorem panicked_err (e : Err) : ¬ Panicked (Outcome.err e : Outcome α) := fun ⟨_, h⟩ => by cases h
@[simp] theorem panicked_ub : ¬ Panicked (Outcome.ub : Outcome α) := fun ⟨_, h⟩ => by cases h
@[simp] theorem panicked_panic (p : Panic) : Panicked (Outcome.panic p : Outcome α) := ⟨p, rfl⟩

theorem panicked_bind (x : Outcome α) (f : α → Outcome β) :
    Panicked (x >>= f) ↔ Panicked x ∨ ∃ a, x = .ok a ∧ Panicked (f a) := by
  cases x <;> simp

theorem panicked_mapErr (x : Outcome α) (e : Err) : Panicked (x.mapErr e) ↔ Panicked x := by
  cases x <;> simp [Outcome.mapErr]

theorem panicked_ofOption (x : Option α) : Panicked (Outcome.ofOption x) ↔ x = none := by
  cases x <;> simp

theorem panicked_seq (x : Act σ α) (f : α → Act σ β) (s : σ) :
    Panicked ((x >>= f) s).out ↔ Panicked (x s).out ∨ ∃ a, (x s).out = .ok a ∧ Panicked (f a (x s).final).out := by
  rw [Act.bind_def]
  unfold Act.bind
  cases h : (x s).out <;> simp

theorem panicked_lift (o : Outcome α) (f : α → Act σ β) (s : σ) :
    Panicked ((Act.lift o >>= f) s).out ↔ Panicked o ∨ ∃ a, o = .ok a ∧ Panicked (f a s).out := by
  rw [panicked_seq]; rfl

theorem panicked_void (x : Act σ α) (s : σ) : Panicked (x.void s).out ↔ Panicked (x s).out := by
  show Panicked ((x s).out >>= fun _ => Outcome.ok ()) ↔ _
  rw [panicked_bind]; simp

theorem panicked_zoom (part : τ → σ) (put : σ → τ → τ) (x : Act σ α) (t : τ) :
    Panicked (x.zoom part put t).out ↔ Panicked (x (part t)).out := Iff.rfl

theorem panicked_pure (a : α) (s : σ) : ¬ Panicked ((Pure.pure a : Act σ α) s).out := by simp

end

theorem panicked_add (a b : U256) : Panicked (a.add b) ↔ ¬ a.val + b.val < U256.size := by
  unfold U256.add; split <;> simp_all

theorem panicked_mulNat (a : U256) (n : Nat) : Panicked (a.mulNat n) ↔ ¬ a.val * n < U256.size := by
  unfold U256.mulNat; split <;> simp_all

/-! ## What is stored -/

/-- Every entry is a block filed under its height; at height zero it is not a transaction block. -/
def MainKept (m : KV) : Prop := ∀ k v, m.get k = some v → ∃ b : Block, v = b.dump ∧ k = b.info.height.toBE.val ∧
  (b.info.height.val ≠ 0 ∨ ∀ t, b ≠ .transaction t)

/-- Every entry is a derivative block filed under its height. -/
def DerivKept (m : KV) : Prop := ∀ k v, m.get k = some v →
  ∃ b : DerivativeBlock, v = b.dump ∧ k = b.defaultInfo.height.toBE.val

/-- Every entry is a height. -/
def RefsKept (m : KV) : Prop := ∀ k v, m.get k = some v → ∃ q : U256, v = q.toBE.val

/-- What the chains of a node and of its directory hold. -/
structure Shelved (t : Tree) : Prop where
  main : t.main.chain.blocks.All MainKept
  refs : t.main.chain.heightReference.All RefsKept
  deriv : ∀ n, (t.derivFiles n).blocks.All DerivKept
  derivRefs : ∀ n, (t.derivFiles n).heightReference.All RefsKept

/-- The same of a node that is open. -/
structure UpShelved (t : Tree) : Prop where
  shelved : Shelved t
  pos : 1 ≤ t.main.chain.height.val

theorem MainKept.insert {m : KV} (h : MainKept m) {b : Block} (hb : b.info.height.val ≠ 0 ∨ ∀ t, b ≠ .transaction t) :
    MainKept (m.insert b.info.height.toBE.val b.dump) := by
  intro k v hv
  rw [KV.get_insert] at hv
  split at hv
  · rename_i e
    cases hv
    exact ⟨b, rfl, e.symm, hb⟩
  · exact h k v hv

theorem DerivKept.insert {m : KV} (h : DerivKept m) (b : DerivativeBlock) :
    DerivKept (m.insert b.defaultInfo.height.toBE.val b.dump) := by
  intro k v hv
  rw [KV.get_insert] at hv
  split at hv
  · rename_i e
    cases hv
    exact ⟨b, rfl, e.symm⟩
  · exact h k v hv

theorem RefsKept.insert {m : KV} (h : RefsKept m) (k : Bytes) (q : U256) : RefsKept (m.insert k q.toBE.val) := by
  intro k' v hv
  rw [KV.get_insert] at hv
  split at hv
  · cases hv; exact ⟨q, rfl⟩
  · exact h k' v hv

/-- Of the main chain alone. -/
def MainUp (c : Chain) : Prop := c.blocks.All MainKept ∧ c.heightReference.All RefsKept ∧ 1 ≤ c.height.val

theorem up_onMain {α : Type} {x : Act MainChain α} (hx : Act.Rel (fun m m' : MainChain => MainUp m.chain → MainUp m'.chain) x) :
    Act.Rel (fun s t => UpShelved s → UpShelved t) (Tree.onMain x) := Act.rel_zoom hx fun _ _ h1 h => by
  obtain ⟨a, b, c⟩ := h1 ⟨h.shelved.main, h.shelved.refs, h.pos⟩
  exact ⟨⟨a, b, h.shelved.deriv, h.shelved.derivRefs⟩, c⟩

theorem up_beside {x : Act Db Unit} {put : Db → Tree → Tree} {part : Tree → Db}
    (h : ∀ d t, (put d t).main = t.main ∧ (put d t).derivFiles = t.derivFiles) :
    Act.Rel (fun s t => UpShelved s → UpShelved t) (x.zoom part put) := Act.rel_zoom (Act.rel_true x) fun t d _ hu => by
  obtain ⟨h1, h2⟩ := h d t
  exact ⟨⟨by rw [h1]; exact hu.shelved.main, by rw [h1]; exact hu.shelved.refs, by rw [h2]; exact hu.shelved.deriv,
    by rw [h2]; exact hu.shelved.derivRefs⟩, by rw [h1]; exact hu.pos⟩

theorem up_same {t t' : Tree} (h1 : t'.main = t.main) (h2 : t'.derivFiles = t.derivFiles) (hu : UpShelved t) : UpShelved t' :=
  ⟨⟨by rw [h1]; exact hu.shelved.main, by rw [h1]; exact hu.shelved.refs, by rw [h2]; exact hu.shelved.deriv,
    by rw [h2]; exact hu.shelved.derivRefs⟩, by rw [h1]; exact hu.pos⟩

/-- Of one derivative chain alone. -/
def DerivUp (c : Chain) : Prop := c.blocks.All DerivKept ∧ c.heightReference.All RefsKept

theorem UpShelved.putHandle {t : Tree} (h : UpShelved t) (o : Address) {c : DerivativeChain} (hc : DerivUp c.chain) :
    UpShelved (Tree.putHandle o c t) := by
  refine ⟨⟨h.shelved.main, h.shelved.refs, fun n => ?_, fun n => ?_⟩, h.pos⟩
  · show Db.All DerivKept (if n = hexEncode o.val then _ else t.derivFiles n).blocks
    split
    · exact hc.1
    · exact h.shelved.deriv n
  · show Db.All RefsKept (if n = hexEncode o.val then _ else t.derivFiles n).heightReference
    split
    · exact hc.2
    · exact h.shelved.derivRefs n

theorem up_onDeriv {α : Type} (o : Address) {x : Act DerivativeChain α}
    (hx : Act.Rel (fun m m' : DerivativeChain => DerivUp m.chain → DerivUp m'.chain) x) :
    Act.Rel (fun s t => UpShelved s → UpShelved t) (Tree.onDeriv o x) :=
  Act.rel_zoom hx fun _ _ h1 h => h.putHandle o (h1 ⟨h.shelved.deriv _, h.shelved.derivRefs _⟩)

theorem mainUp_add (E : Env) (b : Block) :
    Act.Rel (fun c c' : Chain => MainUp c → MainUp c') (Chain.addBlock E b.info.height b.dump) := by
  have blocks : ∀ c : Chain, b.info.height = c.height → MainUp c →
      (c.blocks.insert c.height.toBE.val b.dump).All MainKept := fun c e h => by
    rw [← e]
    exact h.1.commit (h.1.1.insert (.inl (by rw [e]; have := h.2.2; omega)))
  have refs : ∀ c : Chain, MainUp c → ∀ k, (c.heightReference.insert k c.height.toBE.val).All RefsKept :=
    fun c h k => h.2.1.commit (h.2.1.1.insert _ _)
  exact Chain.addBlock_rel E (fun _ h => h) _ _ (fun c e h => ⟨blocks c e h, h.2.1, h.2.2⟩)
    (fun c e h => ⟨blocks c e h, refs c h _, h.2.2⟩)
    (fun c _ e h => ⟨blocks c e h, refs c h _, by simp only [Chain.put3]; omega⟩)

theorem derivUp_add (E : Env) (b : DerivativeBlock) :
    Act.Rel (fun c c' : Chain => DerivUp c → DerivUp c') (Chain.addBlock E b.defaultInfo.height b.dump) := by
  have blocks : ∀ c : Chain, b.defaultInfo.height = c.height → DerivUp c →
      (c.blocks.insert c.height.toBE.val b.dump).All DerivKept := fun c e h => by
    rw [← e]
    exact h.1.commit (h.1.1.insert _)
  have refs : ∀ c : Chain, DerivUp c → ∀ k, (c.heightReference.insert k c.height.toBE.val).All RefsKept :=
    fun c h k => h.2.commit (h.2.1.insert _ _)
  exact Chain.addBlock_rel E (fun _ h => h) _ _ (fun c e h => ⟨blocks c e h, h.2⟩)
    (fun c e h => ⟨blocks c e h, refs c h _⟩) (fun c _ e h => ⟨blocks c e h, refs c h _⟩)

theorem up_mainFlush : Act.Rel (fun s t => UpShelved s → UpShelved t) (Tree.onMain MainChain.flush) :=
  up_onMain (MainChain.flush_rel (Act.inv_preord _) (fun _ _ h => h) (fun _ h => ⟨h.1.flush, h.2⟩)
    (fun _ h => ⟨h.1, h.2.1.flush, h.2.2⟩) (fun _ h => h))

theorem up_flush : Act.Rel (fun s t => UpShelved s → UpShelved t) Tree.flush :=
  Tree.flush_rel (Act.inv_preord _) up_mainFlush (fun t h => up_same (t := t) rfl rfl h) (fun t h => up_same (t := t) rfl rfl h)
    (fun t h => up_same (t := t) rfl rfl h) (fun t h => up_same (t := t) rfl rfl h)

theorem up_prims (E : Env) :
    Prims E (fun _ => True) (fun {α} (x : Act Tree α) => Act.Rel (fun s t => UpShelved s → UpShelved t) x) where
  addBlock b _ := up_onMain (MainChain.addBlock_rel (mainUp_add E b) fun _ _ h => h)
  addTransaction _ := up_onMain (Act.rel_step fun _ h => h)
  mainFlush := up_mainFlush
  addAmount _ _ := up_beside fun _ _ => ⟨rfl, rfl⟩
  setAmount _ _ := up_beside fun _ _ => ⟨rfl, rfl⟩
  subAmount _ _ := up_beside fun _ _ => ⟨rfl, rfl⟩
  sendAmount _ _ _ _ := up_beside fun _ _ => ⟨rfl, rfl⟩
  addGas _ _ := up_beside fun _ _ => ⟨rfl, rfl⟩
  subGas _ _ := up_beside fun _ _ => ⟨rfl, rfl⟩
  sendGas _ _ _ := up_beside fun _ _ => ⟨rfl, rfl⟩
  flush := up_flush
  rotate := Tree.rotate_rel (Act.inv_preord _) up_flush (fun t _ h => up_same (t := t) rfl rfl h) (fun t _ h => up_same (t := t) rfl rfl h)
  getDeriv o := Tree.getDeriv_rel (fun _ h => h) E o fun t c _ hb hh _ h =>
    h.putHandle o ⟨by rw [hb]; exact h.shelved.deriv _, by rw [hh]; exact h.shelved.derivRefs _⟩
  derivAdd o b := up_onDeriv o (DerivativeChain.addBlock_rel (derivUp_add E b) fun _ _ h => h)
  derivFlush o := up_onDeriv o (by
    have C := Act.rel_closed (Act.inv_preord fun m : DerivativeChain => DerivUp m.chain)
    exact C.bind (C.bind (Act.rel_step fun _ h => h) fun _ => C.bind (Act.rel_step fun _ h => h) fun _ =>
      C.bind (Act.rel_step fun _ h => h) fun _ => Act.rel_step fun _ h => h) fun _ =>
        C.bind (Act.rel_step fun _ h => ⟨h.1.flush, h.2⟩) fun _ => Act.rel_step fun _ h => ⟨h.1, h.2.flush⟩)

theorem up_op (E : Env) (op : Op) : Act.Rel (fun s t => UpShelved s → UpShelved t) (op.run E) :=
  Op.sat (up_prims E) (Act.rel_closed (Act.inv_preord _)) op op.adds_true

theorem shelved_new (E : Env) : Act.Rel (fun s t => Shelved s → Shelved t) (Tree.new E) := by
  refine Tree.new_rel (Act.inv_preord _) (fun _ h => ⟨h.main, h.refs, h.deriv, h.derivRefs⟩)
    (fun _ _ _ h => ⟨h.main, h.refs, h.deriv, h.derivRefs⟩) ?_ ?_
  · refine Act.rel_zoom (R := fun m m' : MainChain => (m.chain.blocks.All MainKept ∧ m.chain.heightReference.All RefsKept) →
      (m'.chain.blocks.All MainKept ∧ m'.chain.heightReference.All RefsKept)) ?_
      fun _ _ h1 h => ⟨(h1 ⟨h.main, h.refs⟩).1, (h1 ⟨h.main, h.refs⟩).2, h.deriv, h.derivRefs⟩
    have blocks : ∀ c : Chain, (genesis E).info.height = c.height → (c.blocks.All MainKept) →
        (c.blocks.insert c.height.toBE.val (genesis E).dump).All MainKept := fun c e h => by
      rw [← e]
      exact h.commit (h.1.insert (.inr fun t ht => by cases ht))
    refine MainChain.addBlock_rel (R := fun c c' : Chain => (c.blocks.All MainKept ∧ c.heightReference.All RefsKept) →
      (c'.blocks.All MainKept ∧ c'.heightReference.All RefsKept)) ?_ fun _ _ h => h
    exact Chain.addBlock_rel E (fun _ h => h) _ _ (fun c e h => ⟨blocks c e h.1, h.2⟩)
      (fun c e h => ⟨blocks c e h.1, h.2.commit (h.2.1.insert _ _)⟩)
      (fun c _ e h => ⟨blocks c e h.1, h.2.commit (h.2.1.insert _ _)⟩)
  · exact Act.rel_zoom (Act.rel_true _) fun _ _ _ h => ⟨h.main, h.refs, h.deriv, h.derivRefs⟩

/-- What a directory holds. -/
structure DiskShelved (d : Disk) : Prop where
  main : MainKept d.blocks
  refs : RefsKept d.heightReference
  deriv : ∀ n, DerivKept (d.deriv n).blocks
  derivRefs : ∀ n, RefsKept (d.deriv n).heightReference

theorem DiskShelved.boot {d : Disk} (h : DiskShelved d) : Shelved d.boot :=
  ⟨Db.all_open h.main, Db.all_open h.refs, fun n => Db.all_open (h.deriv n), fun n => Db.all_open (h.derivRefs n)⟩

theorem Shelved.crash {t : Tree} {d : Disk} (h : Shelved t) (hd : Crash t d) : DiskShelved d :=
  ⟨h.main.2 _ hd.blocks, h.refs.2 _ hd.heightReference, fun n => (h.deriv n).2 _ (hd.deriv n).1,
    fun n => (h.derivRefs n).2 _ (hd.deriv n).2.1⟩

theorem life_shelved {E : Env} {m : Moment} (h : Life E m) :
    match m with
    | .idle t => UpShelved t
    | .busy t => Shelved t
    | .down d => DiskShelved d := by
  induction h with
  | start =>
    refine ⟨?_, ?_, ?_, ?_⟩
    · intro _ _ h; cases h
    · intro _ _ h; cases h
    · intro _ _ _ h; cases h
    · intro _ _ _ h; cases h
  | opening d t _ ht ih => exact (shelved_new E d.boot).2 t ht ih.boot
  | opened d hd ho ih => exact ⟨(shelved_new E d.boot).1 ih.boot, life_opened_height ho⟩
  | running s t op _ ht ih => exact ((up_op E op s).2 t ht ih).shelved
  | call s op _ ih => exact (up_op E op s).1 ih
  | crashIdle s d _ hd ih => exact ih.shelved.crash hd
  | crashBusy s d _ hd ih => exact ih.crash hd

/-! ## Reading -/

/-- A stored block is read as it was written, or as an error. -/
theorem decode_kept {b : Block} (hb : b.info.height.val ≠ 0 ∨ ∀ t, b ≠ .transaction t) :
    MainChain.decode (some b.dump) = .ok (some b) ∨ ∃ e, MainChain.decode (some b.dump) = .err e := by
  have good : ∀ b : Block, deserializeMainChainBlock b.dump = .ok b → MainChain.decode (some b.dump) = .ok (some b) := by
    intro b h
    unfold MainChain.decode
    simp only [h, Outcome.mapErr_ok, Outcome.ok_bind]
  cases b with
  | transaction t => exact .inl (good _ (deserialize_transaction t (hb.resolve_right fun h => h t rfl)))
  | summarize t => exact .inl (good _ (deserialize_summarize t))
  | derivative t =>
    obtain ⟨e, he⟩ := deserialize_foreign Headers.derivativeBlock.toU8 (t.dump.drop 1) (by decide) (by decide)
    have : (Block.derivative t).dump = Headers.derivativeBlock.toU8 :: t.dump.drop 1 := by
      show t.dump = _
      rw [DerivativeBlock.dump_eq]; rfl
    unfold MainChain.decode
    simp only [this, he]
    exact .inr ⟨_, rfl⟩

theorem MainKept.read {m : KV} (h : MainKept m) (k : Bytes) : ¬ Panicked (MainChain.decode (m.get k)) ∧
    ∀ b, MainChain.decode (m.get k) = .ok (some b) → k = b.info.height.toBE.val := by
  cases hv : m.get k with
  | none => exact ⟨by simp [MainChain.decode], fun b hb => by cases hb⟩
  | some v =>
    obtain ⟨b, rfl, hk, h0⟩ := h k v hv
    rcases decode_kept h0 with e | ⟨x, e⟩
    · rw [e]; exact ⟨by simp, fun b' hb => by cases hb; exact hk⟩
    · rw [e]; exact ⟨by simp, fun b' hb => by cases hb⟩

theorem derivDecode_kept (b : DerivativeBlock) : DerivativeChain.decode (some b.dump) = .ok (some b) := by
  have h := DerivativeBlock.parse_dump b
  unfold DerivativeChain.decode
  have e : sliceFrom b.dump 1 = .ok (b.dump.drop 1) := by
    unfold sliceFrom
    rw [if_pos (by rw [DerivativeBlock.dump_eq]; simp)]
  simp only [e, Outcome.ok_bind, h, Outcome.mapErr_ok]

theorem DerivKept.read {m : KV} (h : DerivKept m) (k : Bytes) : ¬ Panicked (DerivativeChain.decode (m.get k)) ∧
    ∀ b, DerivativeChain.decode (m.get k) = .ok (some b) → k = b.defaultInfo.height.toBE.val := by
  cases hv : m.get k with
  | none => exact ⟨by simp [DerivativeChain.decode], fun b hb => by cases hb⟩
  | some v =>
    obtain ⟨b, rfl, hk⟩ := h k v hv
    rw [derivDecode_kept b]
    exact ⟨by simp, fun b' hb => by cases hb; exact hk⟩

theorem findRaw_cases (c : Chain) (q : U256) : c.findRawByHeight q = none ∨ c.findRawByHeight q = c.blocks.cur.get q.toBE.val := by
  unfold Chain.findRawByHeight
  split
  · exact .inl rfl
  · exact .inr rfl

theorem findRawByHash_kept {c : Chain} (h : c.heightReference.All RefsKept) (x : Hash) :
    ∃ r, c.findRawByHash x = .ok r ∧ (r = none ∨ ∃ q : U256, r = c.blocks.cur.get q.toBE.val) := by
  unfold Chain.findRawByHash
  cases hv : c.heightReference.get x.val with
  | none => exact ⟨none, rfl, .inl rfl⟩
  | some v =>
    obtain ⟨q, rfl⟩ := h.1 _ v hv
    simp only [fromBE_toBE, Outcome.ok_bind]
    rcases findRaw_cases c q with e | e
    · exact ⟨_, rfl, .inl e⟩
    · exact ⟨_, rfl, .inr ⟨q, e⟩⟩

/-- The main chain can be read without a panic. -/
theorem UpShelved.reads {s : Tree} (h : UpShelved s) :
    (¬ Panicked s.main.getLastBlock ∧
      ∀ b, s.main.getLastBlock = .ok (some b) → b.info.height.val + 1 = s.main.chain.height.val) ∧
    (∀ q, ¬ Panicked (s.main.findByHeight q)) ∧ (∀ x, ¬ Panicked (s.main.findByHash x)) ∧
    (∀ x, ¬ Panicked (s.main.findRawByHash x)) ∧ ¬ Panicked s.main.getLastRawBlock := by
  have hp := h.pos
  obtain ⟨i, hi, hv⟩ : ∃ i : U256, s.main.chain.height.sub U256.one = .ok i ∧ i.val + 1 = s.main.chain.height.val := by
    unfold U256.sub
    refine ⟨⟨s.main.chain.height.val - 1, by have := s.main.chain.height.lt; omega⟩, ?_, by simp; omega⟩
    rw [if_pos (show U256.one.val ≤ s.main.chain.height.val from hp)]
    rfl
  have read := fun k => h.shelved.main.1.read k
  refine ⟨?_, fun q => ?_, fun x => ?_, fun x => ?_, ?_⟩
  · unfold MainChain.getLastBlock MainChain.getLastRawBlock MainChain.findRawByHeight
    rw [hi, Outcome.ok_bind, Outcome.ok_bind]
    rcases findRaw_cases s.main.chain i with e | e
    · rw [e]; exact ⟨by simp [MainChain.decode], fun b hb => by cases hb⟩
    · rw [e]
      refine ⟨(read _).1, fun b hb => ?_⟩
      rw [← toBE_inj ((read _).2 b hb)]; exact hv
  · unfold MainChain.findByHeight MainChain.findRawByHeight
    rcases findRaw_cases s.main.chain q with e | e
    · rw [e]; simp [MainChain.decode]
    · rw [e]; exact (read _).1
  · unfold MainChain.findByHash MainChain.findRawByHash
    obtain ⟨r, e, hr⟩ := findRawByHash_kept h.shelved.refs x
    rw [e, Outcome.ok_bind]
    rcases hr with rfl | ⟨q, rfl⟩
    · simp [MainChain.decode]
    · exact (read _).1
  · obtain ⟨r, e, -⟩ := findRawByHash_kept h.shelved.refs x
    unfold MainChain.findRawByHash
    rw [e]; simp
  · unfold MainChain.getLastRawBlock
    rw [hi]; simp

/-- So can the derivative chains. -/
theorem UpShelved.derivReads {s : Tree} (h : UpShelved s) (o : Address) :
    (¬ Panicked (s.handle o).getLastBlock ∧
      ∀ b, (s.handle o).getLastBlock = .ok (some b) → b.defaultInfo.height.val + 1 = (s.handle o).chain.height.val) ∧
    (∀ q, ¬ Panicked ((s.handle o).findByHeight q)) ∧ (∀ x, ¬ Panicked ((s.handle o).findByHash x)) ∧
    (∀ x, ¬ Panicked ((s.handle o).chain.findRawByHash x)) ∧ ¬ Panicked (s.handle o).getLastRawBlock := by
  have hk : (s.handle o).chain.blocks.All DerivKept := h.shelved.deriv _
  have hr : (s.handle o).chain.heightReference.All RefsKept := h.shelved.derivRefs _
  generalize s.handle o = c at hk hr
  have read := fun k => hk.1.read k
  have last : (c.getLastRawBlock = .ok none) ∨ ∃ i : U256, c.getLastRawBlock = .ok (c.chain.blocks.cur.get i.toBE.val) ∧
      i.val + 1 = c.chain.height.val := by
    unfold DerivativeChain.getLastRawBlock
    split
    · exact .inl rfl
    · rename_i h0
      have e : c.chain.height.sub U256.one = .ok ⟨c.chain.height.val - 1, by have := c.chain.height.lt; omega⟩ := by
        unfold U256.sub
        rw [if_pos (show U256.one.val ≤ c.chain.height.val by show 1 ≤ _; omega)]
        rfl
      rw [e, Outcome.ok_bind]
      rcases findRaw_cases c.chain ⟨c.chain.height.val - 1, by have := c.chain.height.lt; omega⟩ with e | e
      · rw [e]; exact .inl rfl
      · rw [e]; exact .inr ⟨_, rfl, by simp; omega⟩
  refine ⟨?_, fun q => ?_, fun x => ?_, fun x => ?_, ?_⟩
  · unfold DerivativeChain.getLastBlock
    rcases last with e | ⟨i, e, hv⟩
    · rw [e, Outcome.ok_bind]; exact ⟨by simp [DerivativeChain.decode], fun b hb => by cases hb⟩
    · rw [e, Outcome.ok_bind]
      refine ⟨(read _).1, fun b hb => ?_⟩
      rw [← toBE_inj ((read _).2 b hb)]; exact hv
  · unfold DerivativeChain.findByHeight
    rcases findRaw_cases c.chain q with e | e
    · rw [e]; simp [DerivativeChain.decode]
    · rw [e]; exact (read _).1
  · unfold DerivativeChain.findByHash
    obtain ⟨r, e, hr⟩ := findRawByHash_kept hr x
    rw [e, Outcome.ok_bind]
    rcases hr with rfl | ⟨q, rfl⟩
    · simp [DerivativeChain.decode]
    · exact (read _).1
  · obtain ⟨r, e, -⟩ := findRawByHash_kept hr x
    rw [e]; simp
  · rcases last with e | ⟨i, e, -⟩ <;> rw [e] <;> simp

/-! ## The rules -/

/-- The clock and the difficulty: in a debug build a block dated before the last one, and a block dated more than
`TIME_PER_BLOCK` after a last one whose difficulty begins with `0xFF`. -/
def OutOfTime (E : Env) (last : BasicInfo) (ts : UInt64) : Prop :=
  E.overflowChecks = true ∧ (ts.toNat < last.timestamp.toNat ∨
    last.difficulty.val.head? = some 0xFF ∧ last.timestamp.toNat + 600 < ts.toNat)

theorem easier_panic (E : Env) (d : Hash) : Panicked (easier E d) ↔ E.overflowChecks = true ∧ d.val.head? = some 0xFF := by
  obtain ⟨x, xs, hd⟩ : ∃ x xs, d.val = x :: xs := by
    cases h : d.val with
    | nil => have := d.property; rw [h] at this; cases this
    | cons x xs => exact ⟨x, xs, rfl⟩
  have hlt := firstNonZero_lt d
  have hm : ∀ i f, i < 32 → ¬ Panicked (modifyUnchecked d i f) := fun i f h => by
    unfold modifyUnchecked; rw [if_pos h]; simp
  by_cases hx : x = 0xFF
  · subst hx
    have h0 : firstNonZero d.val = 0 := by rw [hd]; exact firstNonZero_cons_ne _ _ (by decide)
    unfold easier
    simp only [h0]
    simp only [hd, List.getD_cons_zero, List.head?_cons, and_true]
    rw [if_neg (by decide), if_pos trivial, if_pos trivial]
    cases E.overflowChecks <;> simp
  · have : ¬ (d.val.head? = some 0xFF) := by rw [hd]; simpa using hx
    simp only [this, and_false, iff_false]
    unfold easier
    simp only
    split
    · simp
    · split
      · rename_i hv
        split
        · rename_i h0
          rw [h0, hd] at hv
          exact absurd hv hx
        · exact hm _ _ (by omega)
      · exact hm _ _ hlt

theorem harder_no_panic (d : Hash) : ¬ Panicked (harder d) := by
  unfold harder modifyUnchecked
  rw [if_pos (firstNonZero_lt d)]
  simp

theorem recalculate_panic (E : Env) (i : BasicInfo) (ts : UInt64) :
    Panicked (recalculateDifficulty E i.timestamp ts i.difficulty) ↔ OutOfTime E i ts := by
  unfold OutOfTime
  rw [recalculate_eq]
  unfold u64Sub
  have e1 : (ts < i.timestamp) ↔ ts.toNat < i.timestamp.toNat := UInt64.lt_iff_toNat_lt
  split
  · rename_i h
    simp [h.1, e1.mp h.2]
  · rename_i h
    rw [Outcome.ok_bind]
    by_cases hE : E.overflowChecks = true
    · have hle : i.timestamp ≤ ts := UInt64.not_lt.mp fun hh => h ⟨hE, hh⟩
      have h2 : ¬ ts.toNat < i.timestamp.toNat := fun hh => h ⟨hE, e1.mpr hh⟩
      have hd := toNat_sub_inorder i.timestamp ts hle
      have h6 : (600 : UInt64).toNat = 600 := rfl
      simp only [hE, h2, true_and, false_or]
      unfold stepBy
      split
      · rename_i h3
        have h3 := UInt64.lt_iff_toNat_lt.mp h3
        simp only [harder_no_panic, false_iff]
        rintro ⟨-, h4⟩
        omega
      · split
        · rename_i h3
          have h3 := UInt64.lt_iff_toNat_lt.mp h3
          rw [easier_panic]
          simp only [hE, true_and]
          exact ⟨fun h => ⟨h, by omega⟩, fun h => h.1⟩
        · rename_i h3
          simp only [panicked_ok, false_iff]
          rintro ⟨-, h4⟩
          exact h3 (UInt64.lt_iff_toNat_lt.mpr (by omega))
    · simp only [Bool.eq_false_iff.mpr hE, Bool.false_eq_true, false_and, iff_false]
      unfold stepBy
      split
      · exact harder_no_panic _
      · split
        · rw [easier_panic]; simp [hE]
        · simp

theorem recalculate_ends (E : Env) (i : BasicInfo) (ts : UInt64) :
    (∃ d, recalculateDifficulty E i.timestamp ts i.difficulty = .ok d) ↔ ¬ OutOfTime E i ts ∧ ¬ AtRisk E i ts := by
  have h1 := recalculate_panic E i ts
  have h2 := recalculate_ub E i.timestamp ts i.difficulty
  have h3 : ∀ e, recalculateDifficulty E i.timestamp ts i.difficulty ≠ .err e := by
    intro e h
    rw [recalculate_eq] at h
    unfold u64Sub at h
    split at h
    · cases h
    · rw [Outcome.ok_bind] at h
      unfold stepBy harder easier modifyUnchecked at h
      simp only at h
      split at h
      · split at h <;> cases h
      · split at h
        · split at h
          · cases h
          · split at h
            · split at h
              · split at h <;> cases h
              · split at h <;> cases h
            · split at h <;> cases h
        · cases h
  unfold AtRisk
  rw [← h1, ← h2]
  cases h : recalculateDifficulty E i.timestamp ts i.difficulty with
  | ok d => simp
  | err e => exact absurd h (h3 e)
  | panic p => simp
  | ub => simp

/-! ## The calls -/

/-- The node has no last block, though its height says that it should. -/
def NoLast (s : Tree) : Prop := s.main.getLastBlock = .ok none

/-- The chain of an owner is opened by this call, and the node has no last block to begin it with. -/
def NoStart (s : Tree) (o : Address) : Prop := s.derivMem o = none ∧ NoLast s

/-- The calls that panic, on a node with balances `f` in coins and `g` in gas. -/
def Op.Panics (E : Env) (s : Tree) (f g : Spec.Accounts) : Op → Prop
  | .addBlock b => b.info.height = s.main.getHeight ∧ s.main.getHeight.val + 1 = 2 ^ 256
  | .addNewBlock b _ => b.info.height = s.main.getHeight ∧ s.main.getHeight.val + 1 = 2 ^ 256
  | .addTransaction _ => False
  | .addTransactions _ => False
  | .addAmount o a => 2 ^ 256 ≤ f o + a.val
  | .setAmount _ _ => False
  | .subAmount o a => f o < a.val
  | .sendAmount o o' a => o ≠ o' ∧ (f o < a.val ∨ 2 ^ 256 ≤ f o' + a.val)
  | .addGas o a => 2 ^ 256 ≤ g o + a.val
  | .subGas o a => g o < a.val
  | .sendGas o o' a => g o < a.val ∨ 2 ^ 256 ≤ g o' + a.val
  | .sendTransaction t => 2 ^ 256 ≤ 625000000000 * t.getDumpSize ∨ 625000000000 * t.getDumpSize ≤ g t.sender.val ∧
      (NoLast s ∨ ∃ b, s.main.getLastBlock = .ok (some b) ∧
        (2 ^ 256 ≤ Spec.fee b.info.difficulty + t.amount.val ∨
          Spec.fee b.info.difficulty + t.amount.val ≤ f t.sender.val ∧ t.sender ≠ t.receiver ∧
          2 ^ 256 ≤ f t.receiver.val + t.amount.val))
  | .emitMain p _ txs ts => NoLast s ∨ ∃ b, s.main.getLastBlock = .ok (some b) ∧
      Spec.enoughWork E (E.sha256 b.dump) b.info.difficulty txs p = true ∧
      (OutOfTime E b.info ts ∨ ¬ OutOfTime E b.info ts ∧ ¬ AtRisk E b.info ts ∧ s.main.getHeight.val + 1 = 2 ^ 256 ∧
        (s.main.getHeight.val % 1000000 = 0 ↔ txs = []))
  | .emitDerivative p o ts => NoStart s o ∨ (Tree.getDerivativeChain E o s).out = .ok () ∧
      let c := (Tree.getDerivativeChain E o s).final.handle o
      ((∃ b, c.getLastBlock = .ok (some b) ∧
          Spec.enoughWork E (E.sha256 b.dump) b.defaultInfo.difficulty [] p = true ∧
          (OutOfTime E b.defaultInfo ts ∨ ¬ OutOfTime E b.defaultInfo ts ∧ ¬ AtRisk E b.defaultInfo ts ∧
            c.chain.height.val + 1 = 2 ^ 256)) ∨
        c.getLastBlock = .ok none ∧ ∃ b, s.main.findByHash c.genesisHash = .ok (some b) ∧
          Spec.enoughWork E (E.sha256 b.dump) BEGINNING_DIFFICULTY [] p = true ∧
          E.overflowChecks = true ∧ ts.toNat < b.info.timestamp.toNat)
  | .getDerivativeChain o => NoStart s o
  | .derivAddBlock o b => NoStart s o ∨ (Tree.getDerivativeChain E o s).out = .ok () ∧
      let c := (Tree.getDerivativeChain E o s).final.handle o
      b.defaultInfo.height = c.chain.height ∧ c.chain.height.val + 1 = 2 ^ 256
  | .derivFlush o => NoStart s o
  | .mainFlush => False
  | .flush => False

theorem size_full (h : U256) : ¬ h.val + 1 < U256.size ↔ h.val + 1 = 2 ^ 256 := by
  have := h.lt
  have e : U256.size = 2 ^ 256 := rfl
  omega

theorem size_over (n : Nat) : ¬ n < U256.size ↔ 2 ^ 256 ≤ n := by
  have e : U256.size = 2 ^ 256 := rfl
  omega

theorem chainAdd_panics (E : Env) (h : U256) (d : Bytes) (c : Chain) :
    Panicked (Chain.addBlock E h d c).out ↔ h = c.height ∧ c.height.val + 1 = 2 ^ 256 := by
  rw [← size_full]
  by_cases hb : h = c.height
  · subst hb
    by_cases hm : c.height.val + 1 < U256.size
    · rw [Chain.addBlock_right hm]; simp [hm]
    · rw [Chain.addBlock_max hm]; simp [hm]
  · rw [Chain.addBlock_wrong hb]; simp [hb]

theorem mainAdd_panics (E : Env) (b : Block) (s : Tree) :
    Panicked (Tree.onMain (MainChain.addBlock E b) s).out ↔
      b.info.height = s.main.getHeight ∧ s.main.getHeight.val + 1 = 2 ^ 256 := chainAdd_panics E _ _ _

theorem derivAdd_panics (E : Env) (o : Address) (b : DerivativeBlock) (s : Tree) :
    Panicked (Tree.onDeriv o (DerivativeChain.addBlock E b) s).out ↔
      b.defaultInfo.height = (s.handle o).chain.height ∧ (s.handle o).chain.height.val + 1 = 2 ^ 256 := chainAdd_panics E _ _ _

/-- Calls that never panic, in any state. -/
def Unruffled {σ α : Type} (x : Act σ α) : Prop := ∀ s, ¬ Panicked (x s).out

section
variable {σ τ α β : Type}
theorem calm_step (f : σ → σ) : Unruffled (Act.step f) := fun s => by simp
theorem calm_pure (a : α) : Unruffled (Pure.pure a : Act σ α) := fun s => by simp
theorem calm_bind {x : Act σ α} {f : α → Act σ β} (hx : Unruffled x) (hf : ∀ a, Unruffled (f a)) : Unruffled (x >>= f) := fun s h => by
  rcases (panicked_seq x f s).mp h with h | ⟨a, _, h⟩
  · exact hx s h
  · exact hf a _ h
theorem calm_zoom {part : τ → σ} {put : σ → τ → τ} {x : Act σ α} (hx : Unruffled x) : Unruffled (x.zoom part put) := fun t => hx (part t)
theorem calm_forEach {l : List β} {f : β → Act σ Unit} (h : ∀ b, Unruffled (f b)) : Unruffled (Act.forEach l f) := by
  induction l with
  | nil => exact calm_pure ()
  | cons b l ih => exact calm_bind (h b) fun _ => ih
end

theorem calm_mainFlush : Unruffled (Tree.onMain MainChain.flush) := calm_zoom
  (calm_bind (calm_bind (calm_step _) fun _ => calm_bind (calm_step _) fun _ => calm_step _) fun _ =>
    calm_bind (calm_step _) fun _ => calm_bind (calm_step _) fun _ => calm_step _)

theorem calm_derivFlush (o : Address) : Unruffled (Tree.onDeriv o DerivativeChain.flush) := calm_zoom
  (calm_bind (calm_bind (calm_step _) fun _ => calm_bind (calm_step _) fun _ => calm_bind (calm_step _) fun _ => calm_step _)
    fun _ => calm_bind (calm_step _) fun _ => calm_step _)

theorem calm_flush : Unruffled Tree.flush := calm_bind calm_mainFlush fun _ => calm_bind (calm_step _) fun _ =>
  calm_bind (calm_step _) fun _ => calm_bind (calm_step _) fun _ => calm_step _

theorem calm_rotate : Unruffled Tree.rotateDbs := calm_bind calm_flush fun _ => calm_bind (calm_step _) fun _ =>
  calm_bind (calm_step _) fun _ => calm_bind (calm_step _) fun _ => calm_step _

theorem calm_addTransactions (E : Env) (ts : List Transaction) : Unruffled (Tree.onMain (MainChain.addTransactions E ts)) :=
  calm_zoom (calm_forEach fun _ => calm_step _)

theorem calm_set (o : Bytes) (a : U256) : Unruffled (Ledger.set o a) := fun d => by
  unfold Ledger.set Ledger.transact Ledger.setClosure
  simp [Act.get_bind]

theorem getDeriv_panics (E : Env) {s : Tree} (hs : UpShelved s) (o : Address) :
    Panicked (Tree.getDerivativeChain E o s).out ↔ NoStart s o := by
  unfold Tree.getDerivativeChain NoStart NoLast
  rw [Act.get_bind]
  cases hm : s.derivMem o with
  | some m => simp
  | none =>
    simp only [Option.isSome_none, Bool.false_eq_true, if_false, true_and]
    rw [panicked_lift]
    simp only [hs.reads.1.1, false_or]
    constructor
    · rintro ⟨l, hl, h⟩
      cases l with
      | none => exact hl
      | some b =>
        rw [panicked_lift, panicked_ofOption] at h
        rcases h with h | ⟨b', hb, h⟩
        · cases h
        · rw [panicked_lift] at h
          exfalso
          rcases h with h | ⟨_, _, h⟩
          · unfold DerivativeChain.new at h
            rw [panicked_bind] at h
            rcases h with h | ⟨_, _, h⟩
            · unfold DerivativeChain.readConfig at h
              split at h
              · simp at h
              · rename_i file _
                split at h
                · split at h
                  · split at h
                    · have : U256.fromBE (file.take 32) = .ok ⟨beNat (file.take 32), beNat_lt_size _ (by rw [List.length_take]; omega)⟩ := by
                        unfold U256.fromBE; rw [dif_pos (by rw [List.length_take]; omega)]
                      rw [this] at h
                      simp at h
                    · simp at h
                  · simp at h
                · simp at h
            · simp at h
          · simp at h
    · intro h
      exact ⟨none, h, by rw [panicked_lift]; simp⟩

theorem sendTx_panics (E : Env) {s : Tree} (hu : UpShelved s) (hs : StoreInv E s) (t : Transaction) :
    Panicked (Tree.sendTransaction E t s).out ↔
      Op.Panics E s (fun k => (s.summary.cur.amt k).val) (fun k => (s.gas.cur.amt k).val) (.sendTransaction t) := by
  have hgas : s.getGas t.sender = .ok (s.gas.cur.amt t.sender.val) := hs.gas.1.balance _
  have hcoin : s.getAmount t.sender = .ok (s.summary.cur.amt t.sender.val) := hs.summary.1.balance _
  have hp : BYTE_GAS_PRICE.val = 625000000000 := rfl
  show _ ↔ (2 ^ 256 ≤ 625000000000 * t.getDumpSize ∨ 625000000000 * t.getDumpSize ≤ (s.gas.cur.amt t.sender.val).val ∧
      (NoLast s ∨ ∃ b, s.main.getLastBlock = .ok (some b) ∧
        (2 ^ 256 ≤ Spec.fee b.info.difficulty + t.amount.val ∨
          Spec.fee b.info.difficulty + t.amount.val ≤ (s.summary.cur.amt t.sender.val).val ∧ t.sender ≠ t.receiver ∧
          2 ^ 256 ≤ (s.summary.cur.amt t.receiver.val).val + t.amount.val)))
  by_cases hmul : gasCost t < U256.size
  · have h0 : ¬ 2 ^ 256 ≤ 625000000000 * t.getDumpSize := by rw [← size_over]; exact fun h => h hmul
    simp only [h0, false_or]
    by_cases hg : (s.gas.cur.amt t.sender.val).val < gasCost t
    · have h1 : ¬ 625000000000 * t.getDumpSize ≤ (s.gas.cur.amt t.sender.val).val := Nat.not_le.mpr hg
      simp only [h1, false_and, iff_false]
      have hm : BYTE_GAS_PRICE.mulNat t.getDumpSize = .ok ⟨gasCost t, hmul⟩ := by
        unfold U256.mulNat; exact dif_pos hmul
      unfold Tree.sendTransaction
      simp only [Act.get_bind, hgas, hcoin, hm, Act.lift_ok_bind]
      rw [if_pos hg]
      simp [Act.lift]
    · have h1 : 625000000000 * t.getDumpSize ≤ (s.gas.cur.amt t.sender.val).val := Nat.not_lt.mp hg
      simp only [h1, true_and]
      have hm : BYTE_GAS_PRICE.mulNat t.getDumpSize = .ok ⟨gasCost t, hmul⟩ := by
        unfold U256.mulNat; exact dif_pos hmul
      have hrun : Tree.sendTransaction E t s = (do
          let last ← Act.lift s.main.getLastBlock
          let lastBlock ← Act.lift (Outcome.ofOption last)
          let fee ← Act.lift (recalculateFee lastBlock.info.difficulty)
          let needed ← Act.lift (fee.add t.amount)
          if (s.summary.cur.amt t.sender.val).val < needed.val then Act.lift (.err .treeNewTransaction)
          else Tree.sendChecked E t ⟨gasCost t, hmul⟩ : Act Tree Unit) s := by
        unfold Tree.sendTransaction
        simp only [Act.get_bind, hgas, hcoin, hm, Act.lift_ok_bind]
        rw [if_neg hg]
        rfl
      rw [hrun]
      clear hrun
      cases hl : s.main.getLastBlock with
      | panic p => exact absurd ⟨p, hl⟩ hu.reads.1.1
      | ub => exact absurd hl (ne_ub_last _)
      | err e => simp [NoLast, hl]
      | ok l =>
        cases l with
        | none => simp [NoLast, hl]
        | some b =>
          simp only [Act.lift_ok_bind, Outcome.ofOption_some, fee_spec, NoLast, hl]
          have e : (∃ b', (Outcome.ok (some b) : Outcome (Option Block)) = .ok (some b') ∧
              (2 ^ 256 ≤ Spec.fee b'.info.difficulty + t.amount.val ∨
                Spec.fee b'.info.difficulty + t.amount.val ≤ (s.summary.cur.amt t.sender.val).val ∧ t.sender ≠ t.receiver ∧
                2 ^ 256 ≤ (s.summary.cur.amt t.receiver.val).val + t.amount.val)) ↔
              (2 ^ 256 ≤ Spec.fee b.info.difficulty + t.amount.val ∨
                Spec.fee b.info.difficulty + t.amount.val ≤ (s.summary.cur.amt t.sender.val).val ∧ t.sender ≠ t.receiver ∧
                2 ^ 256 ≤ (s.summary.cur.amt t.receiver.val).val + t.amount.val) := by
            constructor
            · rintro ⟨b', h, hh⟩; cases h; exact hh
            · exact fun h => ⟨b, rfl, h⟩
          rw [e]
          simp only [Outcome.ok.injEq, reduceCtorEq, false_or]
          rw [panicked_lift, panicked_add, size_over]
          by_cases hadd : Spec.fee b.info.difficulty + t.amount.val < U256.size
          · have h2 : ¬ 2 ^ 256 ≤ Spec.fee b.info.difficulty + t.amount.val := by rw [← size_over]; exact fun h => h hadd
            simp only [h2, false_or]
            have ha : (⟨Spec.fee b.info.difficulty, fee_lt _⟩ : U256).add t.amount = .ok ⟨_, hadd⟩ := by
              unfold U256.add; exact dif_pos hadd
            simp only [ha, Outcome.ok.injEq, exists_eq_left']
            by_cases hc : (s.summary.cur.amt t.sender.val).val < Spec.fee b.info.difficulty + t.amount.val
            · rw [if_pos hc]
              have : ¬ Spec.fee b.info.difficulty + t.amount.val ≤ (s.summary.cur.amt t.sender.val).val := Nat.not_le.mpr hc
              simp [Act.lift, this]
            · rw [if_neg hc]
              have h3 : Spec.fee b.info.difficulty + t.amount.val ≤ (s.summary.cur.amt t.sender.val).val := Nat.not_lt.mp hc
              simp only [h3, true_and]
              rcases sendChecked_run E s t hs.summary.1 hs.gas.1 hmul (Nat.not_lt.mp hg) (by omega) with ⟨h, h1, _, _⟩ | ⟨h1, h2, h3⟩
              · rw [h1]
                simp only [panicked_ok, false_iff]
                rintro ⟨ha, hb⟩
                rw [← size_over] at hb
                exact h.elim ha hb
              · rw [h3]
                simp only [panicked_panic, true_iff]
                exact ⟨h1, (size_over _).mp h2⟩
          · simp [(size_over _).mp hadd]
  · have h0 : 2 ^ 256 ≤ 625000000000 * t.getDumpSize := (size_over _).mp hmul
    simp only [h0, true_or, iff_true]
    have hm : BYTE_GAS_PRICE.mulNat t.getDumpSize = .panic .overflow := by
      unfold U256.mulNat; exact dif_neg hmul
    unfold Tree.sendTransaction
    simp [Act.get_bind, hgas, hcoin, hm]

theorem calm_mainBlock (E : Env) (t : Tree) (fee : U256) (h : U256) (i : BasicInfo) (txs : List Hash) :
    Unruffled ((if h.val % BLOCKS_PER_EPOCH = 0 then
        (if !txs.isEmpty then Act.lift (.err .treeSummarizeBlockWrongTransactionsAmount)
        else do
          let merkleTreeRoot ← Act.lift (t.summarize E)
          Tree.rotateDbs
          Tree.setAmount ROOT_PUBLIC_ADDRESS.val COINS_PER_CYCLE
          pure (Block.summarize ⟨i, merkleTreeRoot⟩))
      else
        (if txs.isEmpty then Act.lift (.err .treeCreateMainChainBlock)
        else do
          let root ← Act.lift (merkleRoot E txs)
          pure (Block.transaction ⟨fee, root, i, txs⟩)) : Act Tree Block)) := by
  have root : ∀ l, Unruffled (Act.lift (σ := Tree) (merkleRoot E l)) := fun l s => by rw [merkleRoot_eq]; simp [Act.lift]
  split
  · split
    · intro s; simp [Act.lift]
    · exact calm_bind (root _) fun _ => calm_bind calm_rotate fun _ => calm_bind (calm_zoom (calm_set _ _)) fun _ => calm_pure _
  · split
    · intro s; simp [Act.lift]
    · exact calm_bind (root _) fun _ => calm_pure _

/-- What the middle part of `emmit_new_main_block` hands on: a block with the given header, on a chain of the same
height, exactly if the transactions are those the height asks for. -/
theorem mainBlock_ends (E : Env) (t s : Tree) (fee : U256) (h : U256) (i : BasicInfo) (txs : List Hash) :
    let x : Act Tree Block := (if h.val % BLOCKS_PER_EPOCH = 0 then
        (if !txs.isEmpty then Act.lift (.err .treeSummarizeBlockWrongTransactionsAmount)
        else do
          let merkleTreeRoot ← Act.lift (t.summarize E)
          Tree.rotateDbs
          Tree.setAmount ROOT_PUBLIC_ADDRESS.val COINS_PER_CYCLE
          pure (Block.summarize ⟨i, merkleTreeRoot⟩))
      else
        (if txs.isEmpty then Act.lift (.err .treeCreateMainChainBlock)
        else do
          let root ← Act.lift (merkleRoot E txs)
          pure (Block.transaction ⟨fee, root, i, txs⟩)))
    ((∃ b, (x s).out = .ok b) ↔ (h.val % 1000000 = 0 ↔ txs = [])) ∧
    (∀ b, (x s).out = .ok b → b.info = i) ∧ (∀ b, (x s).out = .ok b → (x s).final.main.chain.height = s.main.chain.height) := by
  intro x
  have hB : BLOCKS_PER_EPOCH = 1000000 := rfl
  by_cases h0 : h.val % BLOCKS_PER_EPOCH = 0
  · cases txs with
    | cons a l =>
      have hx : x = Act.lift (.err .treeSummarizeBlockWrongTransactionsAmount) := by
        show ite _ _ _ = _
        rw [if_pos h0]; rfl
      rw [hx, ← hB]
      simp [Act.lift, h0]
    | nil =>
      have hx : x = (do
          let merkleTreeRoot ← Act.lift (t.summarize E)
          Tree.rotateDbs
          Tree.setAmount ROOT_PUBLIC_ADDRESS.val COINS_PER_CYCLE
          pure (Block.summarize ⟨i, merkleTreeRoot⟩)) := by
        show ite _ _ _ = _
        rw [if_pos h0]; rfl
      obtain ⟨r, hr⟩ : ∃ r, t.summarize E = .ok r := ⟨_, merkleRoot_eq _ _⟩
      have ho : (x s).out = .ok (Block.summarize ⟨i, r⟩) ∧ (x s).final.main.chain.height = s.main.chain.height := by
        rw [hx, hr, Act.lift_ok_bind]
        exact ⟨rfl, rfl⟩
      rw [ho.1, ho.2, ← hB]
      refine ⟨by simp [h0], fun b e => ?_, fun _ _ => rfl⟩
      cases e; rfl
  · cases txs with
    | nil =>
      have hx : x = Act.lift (.err .treeCreateMainChainBlock) := by
        show ite _ _ _ = _
        rw [if_neg h0]; rfl
      rw [hx, ← hB]
      simp [Act.lift, h0]
    | cons a l =>
      have hx : x = (do
          let root ← Act.lift (merkleRoot E (a :: l))
          pure (Block.transaction ⟨fee, root, i, a :: l⟩)) := by
        show ite _ _ _ = _
        rw [if_neg h0]; rfl
      have ho : (x s).out = .ok (Block.transaction ⟨fee, merkleRootT E (a :: l), i, a :: l⟩) ∧
          (x s).final.main.chain.height = s.main.chain.height := by
        rw [hx, merkleRoot_eq, Act.lift_ok_bind]
        exact ⟨rfl, rfl⟩
      rw [ho.1, ho.2, ← hB]
      refine ⟨by simp [h0], fun b e => ?_, fun _ _ => rfl⟩
      cases e; rfl

theorem add_one {i h : U256} (e : i.val + 1 = h.val) : i.add U256.one = .ok h := by
  have : i.val + U256.one.val < U256.size := by
    have := h.lt
    have h1 : U256.one.val = 1 := rfl
    omega
  unfold U256.add
  rw [dif_pos this]
  congr 1
  cases h
  simp only at e
  subst e
  rfl

theorem emitMain_panics (E : Env) {s : Tree} (hu : UpShelved s) (p : BytesN 32) (f : Address) (txs : List Hash) (ts : UInt64)
    (c g : Spec.Accounts) :
    Panicked (Tree.emitMain E p f txs ts s).out ↔ Op.Panics E s c g (.emitMain p f txs ts) := by
  show _ ↔ (NoLast s ∨ ∃ b, s.main.getLastBlock = .ok (some b) ∧
      Spec.enoughWork E (E.sha256 b.dump) b.info.difficulty txs p = true ∧
      (OutOfTime E b.info ts ∨ ¬ OutOfTime E b.info ts ∧ ¬ AtRisk E b.info ts ∧ s.main.getHeight.val + 1 = 2 ^ 256 ∧
        (s.main.getHeight.val % 1000000 = 0 ↔ txs = [])))
  unfold Tree.emitMain NoLast
  rw [Act.get_bind]
  obtain ⟨⟨hnp, hh⟩, -⟩ := hu.reads
  cases hl : s.main.getLastBlock with
  | panic q => exact absurd ⟨q, hl⟩ hnp
  | ub => exact absurd hl (ne_ub_last _)
  | err e => simp
  | ok l =>
    cases l with
    | none => simp
    | some b =>
      have hb := hh b hl
      simp only [Act.lift_ok_bind, Outcome.ofOption_some, checkPow_spec]
      simp only [Outcome.ok.injEq, Option.some.injEq, reduceCtorEq, false_or, exists_eq_left']
      have hash : b.hash E = E.sha256 b.dump := rfl
      rw [hash]
      by_cases hw : Spec.enoughWork E (E.sha256 b.dump) b.info.difficulty txs p = true
      · simp only [hw, Bool.not_true, Bool.false_eq_true, if_false, true_and]
        rw [panicked_lift, recalculate_panic]
        refine or_congr Iff.rfl ?_
        have ends := recalculate_ends E b.info ts
        constructor
        · rintro ⟨d, hd, h⟩
          have nd := ends.mp ⟨d, hd⟩
          refine ⟨nd.1, nd.2, ?_⟩
          simp only [fee_spec, Act.lift_ok_bind, add_one hb] at h
          rw [panicked_seq] at h
          rcases h with h | ⟨nb, hnb, h⟩
          · exact absurd h (calm_mainBlock E s _ _ _ _ s)
          · have m := mainBlock_ends E s s ⟨Spec.fee d, fee_lt d⟩ s.main.chain.height
              { timestamp := ts, pow := p, previousHash := E.sha256 b.dump, height := s.main.chain.height, difficulty := d, founder := f } txs
            have k := m.1.mp ⟨nb, hnb⟩
            rw [panicked_seq, mainAdd_panics] at h
            rcases h with h | ⟨_, _, h⟩
            · have := m.2.2 nb hnb
              refine ⟨?_, k⟩
              have h2 := h.2
              rw [show MainChain.getHeight _ = _ from this] at h2
              exact h2
            · exact absurd h (panicked_pure _ _)
        · rintro ⟨n1, n2, hfull, k⟩
          obtain ⟨d, hd⟩ := ends.mpr ⟨n1, n2⟩
          refine ⟨d, hd, ?_⟩
          simp only [fee_spec, Act.lift_ok_bind, add_one hb]
          have m := mainBlock_ends E s s ⟨Spec.fee d, fee_lt d⟩ s.main.chain.height
            { timestamp := ts, pow := p, previousHash := E.sha256 b.dump, height := s.main.chain.height, difficulty := d, founder := f } txs
          obtain ⟨nb, hnb⟩ := m.1.mpr k
          rw [panicked_seq]
          refine .inr ⟨nb, hnb, ?_⟩
          rw [panicked_seq, mainAdd_panics]
          have e1 := m.2.1 nb hnb
          have e2 := m.2.2 nb hnb
          refine .inl ⟨?_, ?_⟩
          · rw [e1]; exact e2.symm
          · rw [show MainChain.getHeight _ = _ from e2]; exact hfull
      · simp [hw, Act.lift]

theorem getDeriv_sameMain (E : Env) (o : Address) (s : Tree) : (Tree.getDerivativeChain E o s).final.main = s.main := by
  rcases Tree.getDeriv_cases E o s with ⟨_, h⟩ | ⟨_, ⟨out, _, h⟩ | ⟨b, c, _, _, h⟩⟩ <;> rw [h] <;> rfl

theorem up_openDeriv (E : Env) (o : Address) {s : Tree} (hu : UpShelved s) : UpShelved (Tree.getDerivativeChain E o s).final :=
  (up_op E (.getDerivativeChain o) s).1 hu

theorem derivTail_panics (E : Env) (t : Tree) (o : Address) (i : BasicInfo) (ph : Hash) (d : Hash) (pts ts : UInt64) (h : U256)
    (p : BytesN 32) (hi : i.timestamp = pts ∧ i.difficulty = d) :
    Panicked ((do
      let good ← Act.lift (checkPow E ph d [] p.val)
      if !good then Act.lift (.err .treeWrongPow)
      else do
        let difficulty ← Act.lift (recalculateDifficulty E pts ts d)
        let block : DerivativeBlock :=
          ⟨{ timestamp := ts, pow := p, previousHash := ph, height := h, difficulty, founder := o }⟩
        Tree.onDeriv o (DerivativeChain.addBlock E block)
        pure (Block.derivative block) : Act Tree Block) t).out ↔
    Spec.enoughWork E ph d [] p = true ∧ (OutOfTime E i ts ∨ ¬ OutOfTime E i ts ∧ ¬ AtRisk E i ts ∧
      h = (t.handle o).chain.height ∧ (t.handle o).chain.height.val + 1 = 2 ^ 256) := by
  obtain ⟨rfl, rfl⟩ := hi
  rw [checkPow_spec, Act.lift_ok_bind]
  by_cases hw : Spec.enoughWork E ph i.difficulty [] p = true
  · simp only [hw, Bool.not_true, Bool.false_eq_true, if_false, true_and]
    rw [panicked_lift, recalculate_panic]
    refine or_congr Iff.rfl ?_
    have ends := recalculate_ends E i ts
    have tail : ∀ b : DerivativeBlock, Panicked ((Tree.onDeriv o (DerivativeChain.addBlock E b) >>= fun _ =>
        (pure (Block.derivative b) : Act Tree Block)) t).out ↔
        b.defaultInfo.height = (t.handle o).chain.height ∧ (t.handle o).chain.height.val + 1 = 2 ^ 256 := by
      intro b
      rw [panicked_seq, derivAdd_panics]
      exact ⟨fun h => h.elim id fun ⟨_, _, h⟩ => absurd h (panicked_pure _ _), .inl⟩
    constructor
    · rintro ⟨d, hd, hp⟩
      exact ⟨(ends.mp ⟨d, hd⟩).1, (ends.mp ⟨d, hd⟩).2, (tail _).mp hp⟩
    · rintro ⟨n1, n2, hp⟩
      obtain ⟨d, hd⟩ := ends.mpr ⟨n1, n2⟩
      exact ⟨d, hd, (tail _).mpr hp⟩
  · simp [hw, Act.lift]

theorem emitDerivative_panics (E : Env) {s : Tree} (hu : UpShelved s) (p : BytesN 32) (o : Address) (ts : UInt64)
    (f g : Spec.Accounts) :
    Panicked (Tree.emitDerivative E p o ts s).out ↔ Op.Panics E s f g (.emitDerivative p o ts) := by
  have hbegin : BEGINNING_DIFFICULTY.val.head? ≠ some 0xFF := by decide
  show _ ↔ (NoStart s o ∨ (Tree.getDerivativeChain E o s).out = .ok () ∧
      ((∃ b, ((Tree.getDerivativeChain E o s).final.handle o).getLastBlock = .ok (some b) ∧
          Spec.enoughWork E (E.sha256 b.dump) b.defaultInfo.difficulty [] p = true ∧
          (OutOfTime E b.defaultInfo ts ∨ ¬ OutOfTime E b.defaultInfo ts ∧ ¬ AtRisk E b.defaultInfo ts ∧
            ((Tree.getDerivativeChain E o s).final.handle o).chain.height.val + 1 = 2 ^ 256)) ∨
        ((Tree.getDerivativeChain E o s).final.handle o).getLastBlock = .ok none ∧
          ∃ b, s.main.findByHash ((Tree.getDerivativeChain E o s).final.handle o).genesisHash = .ok (some b) ∧
          Spec.enoughWork E (E.sha256 b.dump) BEGINNING_DIFFICULTY [] p = true ∧
          E.overflowChecks = true ∧ ts.toNat < b.info.timestamp.toNat))
  unfold Tree.emitDerivative
  rw [panicked_seq, getDeriv_panics E hu]
  refine or_congr Iff.rfl ?_
  have hu' := up_openDeriv E o hu
  have hmain := getDeriv_sameMain E o s
  generalize (Tree.getDerivativeChain E o s).final = t at hu' hmain ⊢
  generalize (Tree.getDerivativeChain E o s).out = r
  constructor
  · rintro ⟨⟨⟩, h0, h⟩
    refine ⟨h0, ?_⟩
    rw [Act.get_bind, panicked_lift] at h
    obtain ⟨⟨hnp, hh⟩, -⟩ := hu'.derivReads o
    rcases h with h | ⟨l, hl, h⟩
    · exact absurd h hnp
    · rw [hl]
      cases l with
      | some b =>
        simp only [add_one (hh b hl), Outcome.ok_bind, Act.lift_ok_bind] at h
        obtain ⟨hw, h⟩ := (derivTail_panics E t o b.defaultInfo _ _ _ ts _ p ⟨rfl, rfl⟩).mp h
        exact .inl ⟨b, rfl, hw, h.imp id fun h => ⟨h.1, h.2.1, h.2.2.2⟩⟩
      | none =>
        rw [panicked_lift, panicked_bind] at h
        rcases h with (h | ⟨q, _, h⟩) | ⟨q, hq, h⟩
        · exact absurd h (hu'.reads.2.2.1 _)
        · cases q <;> simp at h
        · rw [hmain] at hq
          cases hf : s.main.findByHash (t.handle o).genesisHash with
          | panic e => rw [hf] at hq; cases hq
          | ub => rw [hf] at hq; cases hq
          | err e => rw [hf] at hq; cases hq
          | ok v =>
            rw [hf] at hq
            cases v with
            | none => cases hq
            | some b =>
              cases hq
              have k := (derivTail_panics E t o { b.info with difficulty := BEGINNING_DIFFICULTY } _ _ _ ts _ p ⟨rfl, rfl⟩).mp h
              refine .inr ⟨rfl, b, rfl, k.1, ?_⟩
              rcases k.2 with k | ⟨-, -, k1, k2⟩
              · exact ⟨k.1, k.2.resolve_right fun h => hbegin h.1⟩
              · rw [← k1] at k2
                exact absurd k2 (by decide)
  · rintro ⟨h0, h⟩
    refine ⟨(), h0, ?_⟩
    rw [Act.get_bind, panicked_lift]
    obtain ⟨⟨hnp, hh⟩, -⟩ := hu'.derivReads o
    right
    rcases h with ⟨b, hl, hw, h⟩ | ⟨hl, b, hf, hw, hE, hts⟩
    · refine ⟨_, hl, ?_⟩
      simp only [add_one (hh b hl), Outcome.ok_bind, Act.lift_ok_bind]
      exact (derivTail_panics E t o b.defaultInfo _ _ _ ts _ p ⟨rfl, rfl⟩).mpr
        ⟨hw, h.imp id fun h => ⟨h.1, h.2.1, rfl, h.2.2⟩⟩
    · refine ⟨_, hl, ?_⟩
      simp only [hmain, hf, Outcome.ok_bind, Act.lift_ok_bind]
      exact (derivTail_panics E t o { b.info with difficulty := BEGINNING_DIFFICULTY } _ _ _ ts _ p ⟨rfl, rfl⟩).mpr
        ⟨hw, .inl ⟨hE, .inl hts⟩⟩

theorem add_panics {d : Db} (hd : d.cur.Dec) (o : Bytes) (a : U256) :
    Panicked (Ledger.add o a d).out ↔ 2 ^ 256 ≤ (d.cur.amt o).val + a.val := by
  rw [← size_over]
  rcases Ledger.add_run hd o a with ⟨h, e⟩ | ⟨h, e⟩ <;> rw [e] <;> simp [h]

theorem sub_panics {d : Db} (hd : d.cur.Dec) (o : Bytes) (a : U256) :
    Panicked (Ledger.sub o a d).out ↔ (d.cur.amt o).val < a.val := by
  rcases Ledger.sub_run hd o a with ⟨h, e⟩ | ⟨h, e⟩ <;> rw [e] <;> simp [h]

theorem transfer_panics {d : Db} (hd : d.cur.Dec) (o o' : Bytes) (a : U256) :
    Panicked (Ledger.transfer o o' a d).out ↔ (d.cur.amt o).val < a.val ∨ 2 ^ 256 ≤ (d.cur.amt o').val + a.val := by
  rw [← size_over]
  rcases Ledger.transfer_run hd o o' a with ⟨h, h', e⟩ | ⟨h, e⟩ | ⟨h, h', e⟩ <;> rw [e]
  · simp only [panicked_ok, false_iff]
    rintro (h1 | h1)
    · omega
    · exact h1 h'
  · simp [h]
  · simp [h']

theorem op_panics (E : Env) {s : Tree} (hu : UpShelved s) (hs : StoreInv E s) (op : Op) :
    Panicked (op.run E s).out ↔
      Op.Panics E s (fun k => (s.summary.cur.amt k).val) (fun k => (s.gas.cur.amt k).val) op := by
  have no : ∀ {x : Act Tree Unit}, Unruffled x → (Panicked (x s).out ↔ False) := fun h => iff_false_intro (h s)
  cases op with
  | addBlock b => exact mainAdd_panics E b s
  | addNewBlock b txs =>
    show Panicked ((Tree.onMain (MainChain.addBlock E b) >>= fun _ => Tree.onMain (MainChain.addTransactions E txs)) s).out ↔ _
    rw [panicked_seq, mainAdd_panics]
    exact ⟨fun h => h.elim id fun ⟨_, _, h⟩ => absurd h (calm_addTransactions E txs _), .inl⟩
  | addTransaction t => exact no (calm_zoom (calm_step _))
  | addTransactions ts => exact no (calm_addTransactions E ts)
  | addAmount o a => exact add_panics hs.summary.1 o a
  | setAmount o a => exact no (calm_zoom (calm_set o a))
  | subAmount o a => exact sub_panics hs.summary.1 o a
  | sendAmount o o' a =>
    show Panicked (Tree.sendAmount o o' a s).out ↔ o ≠ o' ∧ _
    unfold Tree.sendAmount
    by_cases h : o = o'
    · rw [if_pos h]; simp [h]
    · rw [if_neg h]
      simp only [ne_eq, h, not_false_eq_true, true_and]
      exact transfer_panics hs.summary.1 o o' a
  | addGas o a => exact add_panics hs.gas.1 o a
  | subGas o a => exact sub_panics hs.gas.1 o a
  | sendGas o o' a => exact transfer_panics hs.gas.1 o o' a
  | sendTransaction t => exact sendTx_panics E hu hs t
  | emitMain p f txs ts => exact (panicked_void _ _).trans (emitMain_panics E hu p f txs ts _ _)
  | emitDerivative p o ts => exact (panicked_void _ _).trans (emitDerivative_panics E hu p o ts _ _)
  | getDerivativeChain o => exact getDeriv_panics E hu o
  | derivAddBlock o b =>
    show Panicked ((Tree.getDerivativeChain E o >>= fun _ => Tree.onDeriv o (DerivativeChain.addBlock E b)) s).out ↔ _
    rw [panicked_seq, getDeriv_panics E hu]
    refine or_congr Iff.rfl ⟨fun ⟨_, h0, h⟩ => ⟨h0, (derivAdd_panics E o b _).mp h⟩,
      fun ⟨h0, h⟩ => ⟨(), h0, (derivAdd_panics E o b _).mpr h⟩⟩
  | derivFlush o =>
    show Panicked ((Tree.getDerivativeChain E o >>= fun _ => Tree.onDeriv o DerivativeChain.flush) s).out ↔ _
    rw [panicked_seq, getDeriv_panics E hu]
    exact ⟨fun h => h.elim id fun ⟨_, _, h⟩ => absurd h (calm_derivFlush o _), .inl⟩
  | mainFlush => exact no calm_mainFlush
  | flush => exact no calm_flush

/-- A node that has just been opened has no derivative chain open. -/
theorem opened_closed (E : Env) (d : Disk) (o : Address) : (openTree E d).final.derivMem o = none := by
  have h := (Tree.new_rel (E := E) (R := fun s t : Tree => (∀ o, s.derivMem o = none) → ∀ o, t.derivMem o = none)
    (Act.inv_preord _) (fun _ _ _ => rfl) (fun _ _ _ h => h)
    (Act.rel_zoom (Act.rel_true _) fun _ _ _ h => h) (Act.rel_zoom (Act.rel_true _) fun _ _ _ h => h) d.boot).1
  exact h (fun _ => rfl) o

theorem open_calm (E : Env) (d : Disk) : ¬ Panicked (openTree E d).out := by
  rcases openTree_cases d with hc | ⟨h, df, hc, hp⟩ | ⟨df, hc⟩
  · rw [openTree_torn (E := E) hc]; simp
  · rw [(openTree_pos (E := E) hc hp).1]; simp
  · rw [(openTree_zero (E := E) hc).1]; simp

/-! ## C164 -/

/-- C164 at full strength: no call panics on a node, whatever happened to it before. -/
def C164_full : Prop := ∀ (E : Env) (s : Tree) (op : Op), Life E (.idle s) → ¬ Panicked (op.run E s).out

/-- C164, exactly: the calls that panic on a node that may have been killed at any moment before. Missing: the calls
listed do panic (`C164_refuted`). -/
theorem C164_calls_partial (E : Env) (s : Tree) (f g : Spec.Accounts) (op : Op) (hl : Life E (.idle s))
    (hf : Shows s.summary f) (hg : Shows s.gas g) : Panicked (op.run E s).out ↔ Op.Panics E s f g op := by
  rw [shows_eq hf, shows_eq hg]
  exact op_panics E (life_shelved hl) (life_storeInv hl) op

/-- C164 for the calls that only read: none of them panics on such a node. -/
theorem C164_reads_partial (E : Env) (s : Tree) (hl : Life E (.idle s)) :
    (∀ o, ¬ Panicked (s.getAmount o)) ∧ (∀ o, ¬ Panicked (s.getGas o)) ∧ ¬ Panicked (s.summarize E) ∧
    ¬ Panicked s.main.getLastBlock ∧ ¬ Panicked s.main.getLastRawBlock ∧ (∀ q, ¬ Panicked (s.main.findByHeight q)) ∧
    (∀ x, ¬ Panicked (s.main.findByHash x)) ∧ (∀ x, ¬ Panicked (s.main.findRawByHash x)) ∧
    (∀ x, ¬ Panicked (s.main.getTransaction E x)) ∧
    ∀ o, ¬ Panicked (s.handle o).getLastBlock ∧ ¬ Panicked (s.handle o).getLastRawBlock ∧
      (∀ q, ¬ Panicked ((s.handle o).findByHeight q)) ∧ (∀ x, ¬ Panicked ((s.handle o).findByHash x)) ∧
      ∀ x, ¬ Panicked ((s.handle o).chain.findRawByHash x) := by
  have hs : StoreInv E s := life_storeInv hl
  have hu : UpShelved s := life_shelved hl
  obtain ⟨⟨r1, -⟩, r2, r3, r4, r5⟩ := hu.reads
  refine ⟨fun o => ?_, fun o => ?_, ?_, r1, r5, r2, r3, r4, fun x => ?_, fun o => ?_⟩
  · rw [show s.getAmount o = .ok _ from hs.summary.1.balance _]; simp
  · rw [show s.getGas o = .ok _ from hs.gas.1.balance _]; simp
  · rw [show s.summarize E = .ok _ from merkleRoot_eq _ _]; simp
  · cases hx : s.main.getTransactionRaw x with
    | none => unfold MainChain.getTransaction; rw [hx]; simp
    | some v =>
      obtain ⟨-, t, rfl⟩ := hs.txs.1 _ _ hx
      rw [getTransaction_dump hx]; simp
  · obtain ⟨⟨d1, -⟩, d2, d3, d4, d5⟩ := hu.derivReads o
    exact ⟨d1, d5, d2, d3, d4⟩

/-- C164 is false. On every node a withdrawal above the balance panics, which the code means to be an error; and there
is a node, killed while it was flushing and opened again without complaint, on which every emission of a main block
and every first use of a derivative chain panics. -/
theorem C164_refuted :
    (∀ (E : Env) (s : Tree) (f : Spec.Accounts) (o : Bytes) (a : U256), Life E (.idle s) → Shows s.summary f →
      f o < a.val → Panicked ((Op.subAmount o a).run E s).out) ∧
    (∀ E : Env, ∃ s, Life E (.idle s) ∧ (∀ p f txs ts, Panicked ((Op.emitMain p f txs ts).run E s).out) ∧
      (∀ p o ts, Panicked ((Op.emitDerivative p o ts).run E s).out) ∧
      ∀ o, Panicked ((Op.getDerivativeChain o).run E s).out) ∧ ¬ C164_full := by
  have one : ∀ (E : Env) (s : Tree) (f : Spec.Accounts) (o : Bytes) (a : U256), Life E (.idle s) → Shows s.summary f →
      f o < a.val → Panicked ((Op.subAmount o a).run E s).out := fun E s f o a hl hf h =>
    (C164_calls_partial E s f _ _ hl hf (shows_amt (life_storeInv hl : StoreInv E s).gas.1)).mpr h
  have two : ∀ E : Env, ∃ s, Life E (.idle s) ∧ (∀ p f txs ts, Panicked ((Op.emitMain p f txs ts).run E s).out) ∧
      (∀ p o ts, Panicked ((Op.emitDerivative p o ts).run E s).out) ∧
      ∀ o, Panicked ((Op.getDerivativeChain o).run E s).out := by
    intro E
    obtain ⟨t, d, -, hb, hc, ho, -, hn⟩ := C65_refuted.1 E
    have hl : Life E (.idle (openTree E d).final) := .opened _ (.crashBusy _ _ hb hc) ho
    have hs : StoreInv E (openTree E d).final := life_storeInv hl
    have hm : ∀ o, (openTree E d).final.derivMem o = none := opened_closed E d
    have key := fun op => C164_calls_partial E _ _ _ op hl (shows_amt hs.summary.1) (shows_amt hs.gas.1)
    exact ⟨_, hl, fun p f txs ts => (key _).mpr (.inl hn), fun p o ts => (key _).mpr (.inl ⟨hm o, hn⟩),
      fun o => (key _).mpr ⟨hm o, hn⟩⟩
  refine ⟨one, two, fun h => ?_⟩
  obtain ⟨s, hl, _, _, h3⟩ := two zeroEnv
  exact h zeroEnv s (.getDerivativeChain ROOT_PUBLIC_ADDRESS) hl (h3 _)

/-- C164 for opening: it does not panic, whatever the directory holds. -/
theorem C164_open_partial (E : Env) (d : Disk) : ¬ Panicked (openTree E d).out := open_calm E d

/-- C164 for a node that was never killed: it has its last block, so only the clock can make an emission panic. -/
theorem C164_run_partial (E : Env) (s : Tree) (hr : Run E s) (hm : s.main.getHeight.val + 1 < U256.size) :
    (∀ p f txs ts, Panicked ((Op.emitMain p f txs ts).run E s).out ↔ ∃ b, s.main.getLastBlock = .ok (some b) ∧
      Spec.enoughWork E (E.sha256 b.dump) b.info.difficulty txs p = true ∧ OutOfTime E b.info ts) ∧
    ∀ o, ¬ Panicked ((Op.getDerivativeChain o).run E s).out := by
  have hl : Life E (.idle s) := run_life hr
  have hs : StoreInv E s := life_storeInv hl
  have hu : UpShelved s := life_shelved hl
  have key := fun op => C164_calls_partial E s _ _ op hl (shows_amt hs.summary.1) (shows_amt hs.gas.1)
  have hno : ¬ NoLast s := by
    intro hn
    have hp := hu.pos
    obtain ⟨i, hi, hv⟩ : ∃ i : U256, s.main.chain.height.sub U256.one = .ok i ∧ i.val + 1 = s.main.chain.height.val := by
      unfold U256.sub
      refine ⟨⟨s.main.chain.height.val - 1, by have := s.main.chain.height.lt; omega⟩, ?_, by simp; omega⟩
      rw [if_pos (show U256.one.val ≤ s.main.chain.height.val from hp)]
      rfl
    have hsome := ((C32_contiguous E s hr hm i).1).mpr (by unfold MainChain.getHeight; omega)
    obtain ⟨raw, hraw⟩ := Option.isSome_iff_exists.mp hsome
    unfold NoLast MainChain.getLastBlock MainChain.getLastRawBlock at hn
    rw [hi, Outcome.ok_bind, Outcome.ok_bind, hraw] at hn
    unfold MainChain.decode at hn
    simp only at hn
    cases hd : deserializeMainChainBlock raw <;> rw [hd] at hn <;> cases hn
  refine ⟨fun p f txs ts => (key _).trans ⟨?_, ?_⟩, fun o h => hno ((key _).mp h).2⟩
  · rintro (h | ⟨b, h1, h2, h3 | ⟨_, _, h3, _⟩⟩)
    · exact absurd h hno
    · exact ⟨b, h1, h2, h3⟩
    · exact absurd h3 (by rw [← size_full]; exact fun h => h hm)
  · rintro ⟨b, h1, h2, h3⟩
    exact .inr ⟨b, h1, h2, .inl h3⟩

/-! ### The hypotheses are met -/

/-- A new node whose calls panic and do not: nobody but the root account has coins. -/
example (E : Env) : Life E (.idle (openTree E Disk.empty).final) ∧
    Panicked ((Op.subAmount [] U256.one).run E (openTree E Disk.empty).final).out ∧
    ¬ Panicked ((Op.subAmount [] U256.zero).run E (openTree E Disk.empty).final).out ∧
    ¬ Panicked ((Op.addBlock nextBlock).run E (openTree E Disk.empty).final).out := by
  have hl := life_fresh E
  have hs : StoreInv E (openTree E Disk.empty).final := life_storeInv hl
  have key := fun op => C164_calls_partial E _ _ _ op hl (shows_amt hs.summary.1) (shows_amt hs.gas.1)
  have h0 : ((openTree E Disk.empty).final.summary.cur.amt []).val = 0 := by rw [(openTree_fresh E).2]; rfl
  refine ⟨hl, (key _).mpr ?_, fun h => ?_, fun h => ?_⟩
  · show ((openTree E Disk.empty).final.summary.cur.amt []).val < U256.one.val
    rw [h0]; decide
  · exact absurd ((key _).mp h) (Nat.not_lt_zero _)
  · have := ((key _).mp h).2
    rw [(openTree_fresh E).2] at this
    exact absurd (show 1 + 1 = 2 ^ 256 from this) (by decide)

/-- A clock that is wrong by a second: both a debug and a release build. -/
example (i : BasicInfo) (hi : i.timestamp = 5) : OutOfTime { zeroEnv with overflowChecks := true } i 4 ∧
    ¬ OutOfTime { zeroEnv with overflowChecks := false } i 4 := by
  refine ⟨⟨rfl, .inl ?_⟩, fun h => absurd h.1 (by simp)⟩
  rw [hi]; decide

end BCT.Props
