import Verif.Props.ForgetDeriv
/-!
# C170: the summary of an epoch does not look into the balances it commits to

The call C166 leaves out: a main block without transactions, on two nodes that differ in the balances of some accounts
(blockchaintree.rs:336-367, :415-482, :545-600).
-/

namespace BCT.Props
open BCT

/-- The two nodes differ as `DifferAt` allows, and in the main chain only in the newest block and in the index
of the blocks by hash. -/
structure DifferNew (K G : Bytes → Prop) (s t : Tree) : Prop where
  rest : DifferAt K G { s with main := t.main } t
  pool : s.main.transactions = t.main.transactions
  height : s.main.chain.height = t.main.chain.height
  difficulty : s.main.chain.difficulty = t.main.chain.difficulty
  config : s.main.chain.config = t.main.chain.config
  old : ∀ i : U256, i.val + 1 < s.main.chain.height.val →
    s.main.chain.blocks.get i.toBE.val = t.main.chain.blocks.get i.toBE.val

/-- Started on states related by `R` the two actions end alike, with results related by `V`, in states related by `S`. -/
def Abreast {σ α : Type} (R S : σ → σ → Prop) (V : α → α → Prop) (x y : Act σ α) : Prop :=
  ∀ s t, R s t → Outcome.Alike V (x s).out (y t).out ∧ S (x s).final (y t).final

section
variable {σ α β : Type} {R S : σ → σ → Prop} {V : α → α → Prop}

theorem abreast_bind (hRS : ∀ s t, R s t → S s t) {z : Act σ β} {f g : β → Act σ α} (hz : Paired R z)
    (hf : ∀ b, Abreast R S V (f b) (g b)) : Abreast R S V (z >>= f) (z >>= g) := by
  intro s t h
  obtain ⟨h1, h2⟩ := hz s t h
  rw [Act.bind_def, Act.bind_def]
  unfold Act.bind
  simp only [← h1]
  cases (z s).out with
  | ok a => exact hf a _ _ h2
  | err a => exact ⟨rfl, hRS _ _ h2⟩
  | panic a => exact ⟨rfl, hRS _ _ h2⟩
  | ub => exact ⟨trivial, hRS _ _ h2⟩

theorem abreast_err (hRS : ∀ s t, R s t → S s t) (e : Err) :
    Abreast R S V (Act.lift (.err e)) (Act.lift (.err e)) := fun _ _ h => ⟨rfl, hRS _ _ h⟩

theorem abreast_ite {p : Prop} [Decidable p] {x y x' y' : Act σ α} (hx : Abreast R S V x x') (hy : Abreast R S V y y') :
    Abreast R S V (if p then x else y) (if p then x' else y') := by
  split <;> assumption

end

section
variable {K G : Bytes → Prop}

theorem DifferAt.new {s t : Tree} (h : DifferAt K G s t) : DifferNew K G s t :=
  ⟨⟨rfl, h.files, h.mem, h.coins, h.gas⟩, by rw [h.main], by rw [h.main], by rw [h.main], by rw [h.main],
    fun _ _ => by rw [h.main]⟩

theorem DifferNew.mono {K' G' : Bytes → Prop} {s t : Tree} (h : DifferNew K G s t) (hK : ∀ k, K k → K' k)
    (hG : ∀ k, G k → G' k) : DifferNew K' G' s t :=
  ⟨⟨rfl, h.rest.files, h.rest.mem, fun k hk => h.rest.coins k fun q => hk (hK k q),
    fun k hk => h.rest.gas k fun q => hk (hG k q)⟩, h.pool, h.height, h.difficulty, h.config, h.old⟩

theorem paired_rotate : Paired (DifferAt K G) Tree.rotateDbs := by
  unfold Tree.rotateDbs
  repeat' first
    | exact paired_flush
    | exact paired_step fun _ _ h => ⟨h.main, h.files, h.mem, h.coins, h.gas⟩
    | refine paired_bind ?_ fun _ => ?_

/-- Adding two blocks of the same height. -/
theorem abreast_addBlock (E : Env) (b b' : Block) (V : Block → Block → Prop) (hv : V b b')
    (hb : b.info.height = b'.info.height) : Abreast (DifferAt K G) (DifferNew K G) V
      (Tree.onMain (MainChain.addBlock E b) >>= fun _ => pure b)
      (Tree.onMain (MainChain.addBlock E b') >>= fun _ => pure b') := by
  intro s t h
  have hm := h.main
  have key : (Tree.onMain (MainChain.addBlock E b) s).out = (Tree.onMain (MainChain.addBlock E b') t).out ∧
      DifferNew K G (Tree.onMain (MainChain.addBlock E b) s).final (Tree.onMain (MainChain.addBlock E b') t).final := by
    have hold : ∀ (c : Chain) (d d' : Bytes) (i : U256), i.val < c.height.val →
        (c.blocks.insert c.height.toBE.val d).get i.toBE.val = (c.blocks.insert c.height.toBE.val d').get i.toBE.val := by
      intro c d d' i hi
      have hne : c.height.toBE.val ≠ i.toBE.val := fun e => by
        have := toBE_inj e
        rw [this] at hi
        exact Nat.lt_irrefl _ hi
      show (c.blocks.cur.insert _ _).get _ = (c.blocks.cur.insert _ _).get _
      rw [KV.get_insert, KV.get_insert, if_neg fun e => hne e, if_neg fun e => hne e]
    unfold Tree.onMain MainChain.addBlock MainChain.onChain
    rw [Act.zoom_run, Act.zoom_run, Act.zoom_run, Act.zoom_run, ← hb, ← hm]
    by_cases e : b.info.height = s.main.chain.height
    · rw [e]
      by_cases hx : s.main.chain.height.val + 1 < U256.size
      · rw [Chain.addBlock_right hx, Chain.addBlock_right hx]
        exact ⟨rfl, ⟨rfl, h.files, h.mem, h.coins, h.gas⟩, rfl, rfl, rfl, rfl,
          fun i hi => hold _ _ _ i (Nat.lt_of_succ_lt_succ hi)⟩
      · rw [Chain.addBlock_max hx, Chain.addBlock_max hx]
        exact ⟨rfl, ⟨rfl, h.files, h.mem, h.coins, h.gas⟩, rfl, rfl, rfl, rfl,
          fun i hi => hold _ _ _ i (Nat.lt_of_succ_lt hi)⟩
    · rw [Chain.addBlock_wrong e, Chain.addBlock_wrong e]
      exact ⟨rfl, ⟨rfl, h.files, h.mem, h.coins, h.gas⟩, rfl, rfl, rfl, rfl, fun _ _ => rfl⟩
  obtain ⟨k1, k2⟩ := key
  rw [Act.bind_def, Act.bind_def]
  unfold Act.bind
  simp only [← k1]
  cases (Tree.onMain (MainChain.addBlock E b) s).out with
  | ok a => exact ⟨hv, k2⟩
  | err a => exact ⟨rfl, k2⟩
  | panic a => exact ⟨rfl, k2⟩
  | ub => exact ⟨trivial, k2⟩

end

/-- The root over all accounts of the coin database, in the order of the addresses: for each the hash of its address, its
coin entry and its gas entry (nothing without one), byte by byte as stored. -/
def rawRoot (E : Env) (coins gas : KV) (r : Hash) : Prop :=
  ∃ l : List (Bytes × Bytes), Sorted l ∧ (∀ k v, (k, v) ∈ l ↔ coins.get k = some v) ∧
    IsMerkleRoot E (l.map fun e => E.sha256 (e.1 ++ [124] ++ e.2 ++ [124] ++ (gas.get e.1).getD [])) r

theorem rawRoot_of {E : Env} {s : Tree} {r : Hash} (h : s.summarize E = .ok r) : rawRoot E s.summary.cur s.gas.cur r :=
  ⟨s.summary.cur.entries, s.summary.cur.sorted, fun _ _ => KV.mem_entries, (merkleRoot_iff ..).mp h⟩

/-- Two summary blocks that differ at most in their roots, which are those of the two nodes' entries. -/
def SumPair (E : Env) (s t : Tree) (b b' : Block) : Prop := ∃ i r r', b = .summarize ⟨i, r⟩ ∧ b' = .summarize ⟨i, r'⟩ ∧
  rawRoot E s.summary.cur s.gas.cur r ∧ rawRoot E t.summary.cur t.gas.cur r'

/-- C170. Whatever the entries of some accounts are replaced with: a main block without transactions is accepted, refused
or panics just as without the damage. An accepted one has the same header and commits to the damaged bytes as they are.
The older blocks, the pool, the height, the derivative chains and the undamaged entries stay the same in both; the index
of the blocks by hash and the databases of the last epoch are not compared. -/
theorem C170_unseen (E : Env) (K G : Bytes → Prop) (s t : Tree) (p : BytesN 32) (f : Address) (ts : UInt64)
    (h : DifferAt K G s t) :
    Outcome.Alike (SumPair E s t) (Tree.emitMain E p f [] ts s).out (Tree.emitMain E p f [] ts t).out ∧
    DifferNew K G (Tree.emitMain E p f [] ts s).final (Tree.emitMain E p f [] ts t).final := by
  have hs : s.summarize E = .ok (merkleRootT E (s.summaryLeaves.map E.sha256)) := summarize_eq E s
  have ht : t.summarize E = .ok (merkleRootT E (t.summaryLeaves.map E.sha256)) := summarize_eq E t
  unfold Tree.emitMain
  rw [Act.get_bind, Act.get_bind, h.main, hs, ht]
  refine (?_ : Abreast (DifferAt K G) (DifferNew K G) (SumPair E s t) _ _) s t h
  refine abreast_bind (fun _ _ h => h.new) (paired_lift _) fun _ => ?_
  refine abreast_bind (fun _ _ h => h.new) (paired_lift _) fun last => ?_
  refine abreast_bind (fun _ _ h => h.new) (paired_lift _) fun _ => ?_
  refine abreast_ite (abreast_err (fun _ _ h => h.new) _) ?_
  refine abreast_bind (fun _ _ h => h.new) (paired_lift _) fun _ => ?_
  refine abreast_bind (fun _ _ h => h.new) (paired_lift _) fun _ => ?_
  refine abreast_bind (fun _ _ h => h.new) (paired_lift _) fun height => ?_
  by_cases he : height.val % BLOCKS_PER_EPOCH = 0
  · simp only [if_pos he, List.isEmpty_nil, Bool.not_true, Bool.false_eq_true, if_false, Act.lift_ok_bind, Act.bind_assoc', Act.pure_bind']
    refine abreast_bind (fun _ _ h => h.new) paired_rotate fun _ => ?_
    refine abreast_bind (fun _ _ h => h.new) (paired_onSummary (paired_setClosure _ _ _)) fun _ => ?_
    exact abreast_addBlock E _ _ _ ⟨_, _, _, rfl, rfl, rawRoot_of hs, rawRoot_of ht⟩ rfl
  · simp only [if_neg he, List.isEmpty_nil, if_true]
    exact fun s t h => ⟨rfl, h.new⟩

/-- What an accepted main block without transactions leaves, whatever the databases held: the entries are copied to the
databases of the last epoch as they are, and of the current ones only the root account's coins are written. -/
theorem C170_carried (E : Env) (t : Tree) (p : BytesN 32) (f : Address) (ts : UInt64) (b : Block)
    (h : (Tree.emitMain E p f [] ts t).out = .ok b) : let u := (Tree.emitMain E p f [] ts t).final
    u.oldSummary.cur = t.summary.cur ∧ u.oldGas.cur = t.gas.cur ∧ u.gas.cur = t.gas.cur ∧
    u.getAmount ROOT_PUBLIC_ADDRESS = .ok COINS_PER_CYCLE ∧
    ∀ o : Address, o ≠ ROOT_PUBLIC_ADDRESS → u.getAmount o = t.getAmount o := by
  rw [emitMain_checks] at h ⊢
  cases hc : emitChecks E t p f [] ts with
  | ok r =>
    rw [hc, Act.lift_ok_bind] at h
    rw [Act.lift_ok_bind]
    by_cases he : r.1.height.val % BLOCKS_PER_EPOCH = 0
    · have hfin : ∀ x : Tree, ∃ m, ((Tree.onMain (MainChain.addBlock E (newSumBlock E t r)) >>= fun _ =>
          pure (newSumBlock E t r)) x).final = { x with main := m } := by
        intro x
        rw [Act.bind_def]
        unfold Act.bind Tree.onMain
        rw [Act.zoom_run]
        cases (MainChain.addBlock E (newSumBlock E t r) x.main).out <;> exact ⟨_, rfl⟩
      obtain ⟨m, hm⟩ := hfin t.rotated
      rw [emitRest_sum he]
      simp only [hm]
      have hget : ∀ o : Address, ({ t.rotated with main := m } : Tree).getAmount o =
          Ledger.balance ((t.summary.cur.insert ROOT_PUBLIC_ADDRESS.val (Ledger.encode COINS_PER_CYCLE)).get o.val) :=
        fun _ => rfl
      refine ⟨rfl, rfl, rfl, ?_, fun o ho => ?_⟩
      · rw [hget, KV.get_insert, if_pos rfl, Ledger.balance_encode]
      · rw [hget, KV.get_insert, if_neg fun e => ho (Subtype.ext e.symm)]
        rfl
    · rw [emitRest_no_txs he] at h
      cases h
  | err e => rw [hc] at h; cases h
  | panic e => rw [hc] at h; cases h
  | ub => rw [hc] at h; cases h

/-- One epoch after the start, with the coins of an account unreadable: the summary block is accepted all the same, the
balance still cannot be read, and the unreadable bytes are what the block commits to. -/
theorem C170_accepted (o : Address) (ho : o ≠ ROOT_PUBLIC_ADDRESS) : ∃ (s : Tree) (i : BasicInfo) (r : Hash), Run zeroEnv s ∧
    let t : Tree := { s with summary := s.summary.insert o.val [32] }
    let x := Tree.emitMain zeroEnv (BytesN.fill 32 0) ROOT_PUBLIC_ADDRESS [] (1597924800 + 600 * 1000000) t
    x.out = .ok (.summarize ⟨i, r⟩) ∧ rawRoot zeroEnv t.summary.cur t.gas.cur r ∧ t.summary.cur.get o.val = some [32] ∧
    x.final.getAmount o = .panic .unwrap := by
  obtain ⟨s, last, h1, h2, h3, h4, _⟩ := steady 999999 (by omega)
  have hm : s.main.getHeight.val + 1 < U256.size := by
    have : U256.size > 20000000 := by decide
    have : s.main.getHeight.val = 999999 + 1 := h2
    omega
  have hle : last.info.timestamp ≤ 1597924800 + 600 * 1000000 := by
    rw [UInt64.le_iff_toNat_le, h4]; decide
  have hx := (C40_exact_partial zeroEnv s last (BytesN.fill 32 0) ROOT_PUBLIC_ADDRESS []
    (1597924800 + 600 * 1000000) h1 hm h3 (.inl hle)).2 ((checkPow_iff ..).mp (checkPow_zero ..))
  have hh : s.main.getHeight.val = 1000000 := h2
  obtain ⟨b, hb, _⟩ := hx.2.2 (by rw [hh]; simp)
  obtain ⟨d1, d2, _⟩ := C166_damaged zeroEnv s o U256.zero
  have hu := (C170_unseen zeroEnv _ _ s _ (BytesN.fill 32 0) ROOT_PUBLIC_ADDRESS (1597924800 + 600 * 1000000) d1).1
  rw [hb] at hu
  generalize hy : (Tree.emitMain zeroEnv (BytesN.fill 32 0) ROOT_PUBLIC_ADDRESS [] (1597924800 + 600 * 1000000)
    { s with summary := s.summary.insert o.val [32] }).out = y at hu
  cases y with
  | ok b' =>
    obtain ⟨i, _, r, _, rfl, _, hr⟩ := hu
    refine ⟨s, i, r, runWith_run h1, hy, hr, ?_, ?_⟩
    · show (s.summary.cur.insert o.val [32]).get o.val = _
      rw [KV.get_insert, if_pos rfl]
    · rw [(C170_carried zeroEnv _ _ _ _ _ hy).2.2.2.2 o ho]
      exact d2
  | err e => exact hu.elim
  | panic e => exact hu.elim
  | ub => exact hu.elim

end BCT.Props
