import Verif.Lemmas.Pool
import Verif.Props.Tx
/-!
# C67 – C70, C79: the order on transactions, the pool, header bytes
-/

namespace BCT.Props
open BCT

/-! ## C67 -/

/-- C67: on either byte order of the machine, `cmp` is a total order on (timestamp, hash): it says `Greater`
exactly when the left transaction is the earlier one or, at equal timestamps, has the smaller hash; `Less` is the
mirror image; `Equal` means same timestamp and hash; and the operator `<=` the heap uses is total, transitive,
reflexive and antisymmetric up to timestamp and hash. -/
theorem C67_total_order (little : Bool) :
    (∀ a b : Transaction, a.cmp little b = .gt ↔
      Spec.GoesBefore little a.timestamp.toNat a.hash.val b.timestamp.toNat b.hash.val) ∧
    (∀ a b : Transaction, b.cmp little a = (a.cmp little b).swap) ∧
    (∀ a b : Transaction, a.cmp little b = .eq ↔ a.timestamp = b.timestamp ∧ a.hash = b.hash) ∧
    (∀ a b : Transaction, a.timestamp < b.timestamp → a.cmp little b = .gt) ∧
    (∀ a b : Transaction, a.partialCmp little b = some (a.cmp little b)) ∧
    (∀ a b : Transaction, a.leOp little b = true ↔ a.cmp little b ≠ .gt) ∧
    (∀ a : Transaction, a.leOp little a = true) ∧
    (∀ a b : Transaction, a.leOp little b = true → b.leOp little a = true →
      a.timestamp = b.timestamp ∧ a.hash = b.hash) ∧
    (∀ a b c : Transaction, a.leOp little b = true → b.leOp little c = true → a.leOp little c = true) ∧
    (∀ a b : Transaction, a.leOp little b = true ∨ b.leOp little a = true) := by
  have T := Transaction.totalLe little
  refine ⟨fun a b => Transaction.cmp_gt_iff little a b, fun a b => ?_, fun a b => Transaction.cmp_eq_iff little a b,
    fun a b h => ?_, fun _ _ => rfl, fun a b => ?_, fun a => T.refl a, fun a b h h' => ?_,
    fun a b c => T.trans a b c, fun a b => T.total a b⟩
  · cases h : a.cmp little b with
    | lt => exact (Transaction.cmp_gt_iff little b a).mpr ((Transaction.cmp_lt_iff little a b).mp h)
    | gt => exact (Transaction.cmp_lt_iff little b a).mpr ((Transaction.cmp_gt_iff little a b).mp h)
    | eq =>
      obtain ⟨ht, hh⟩ := (Transaction.cmp_eq_iff little a b).mp h
      exact (Transaction.cmp_eq_iff little b a).mpr ⟨ht.symm, hh.symm⟩
  · exact (Transaction.cmp_gt_iff little a b).mpr (.inl h)
  · rw [Transaction.leOp_iff, Ne, Transaction.cmp_gt_iff]
  · rw [Transaction.leOp_iff] at h h'
    rcases TxBefore.total little a b with h'' | h'' | h''
    · exact absurd h'' h
    · exact absurd h'' h'
    · exact h''

/-- The tie-break is not vacuous, and depends on the byte order of the machine: of these two hashes a little-endian
machine releases one first, a big-endian machine the other. -/
example :
    let a : Transaction := { exTx with hash := ⟨[1, 0] ++ List.replicate 30 0, rfl⟩ }
    let b : Transaction := { exTx with hash := ⟨[0, 1] ++ List.replicate 30 0, rfl⟩ }
    a.cmp true b = .gt ∧ a.cmp false b = .lt ∧ a.hash ≠ b.hash := by
  refine ⟨by decide, by decide, by decide⟩

/-! ## C68 -/

/-- C68 at full strength, for transactions whose hash is the digest of their dump, and for blocks. -/
def C68_full : Prop :=
  (∀ (E : Env) (little : Bool) (a b : Transaction), HashConsistent E a → HashConsistent E b →
    (a.eqOp b = true ↔ a.cmp little b = .eq)) ∧
  (∀ a b : Block, a.eqOp b = true ↔ a.cmp b = .eq)

/-- The "digest" that repeats the last byte 32 times. -/
def lastByteEnv : Env := ⟨fun b => BytesN.fill 32 (b.getLastD 0), true⟩

/-- C68 is false of the code: any two transactions with one timestamp and different hashes are `==` and do not
compare as `Equal`. -/
theorem C68_refuted :
    (∀ (little : Bool) (a b : Transaction), a.timestamp = b.timestamp → a.hash ≠ b.hash →
      a.eqOp b = true ∧ a.cmp little b ≠ .eq) ∧ ¬ C68_full := by
  have key : ∀ (little : Bool) (a b : Transaction), a.timestamp = b.timestamp → a.hash ≠ b.hash →
      a.eqOp b = true ∧ a.cmp little b ≠ .eq := by
    intro little a b ht hh
    refine ⟨by simp [Transaction.eqOp, ht], fun h => hh ((Transaction.cmp_eq_iff little a b).mp h).2⟩
  refine ⟨key, fun h => ?_⟩
  have hc : ∀ t : Transaction, HashConsistent lastByteEnv { t with hash := lastByteEnv.sha256 t.dump } := fun t => rfl
  have hne : lastByteEnv.sha256 exTx.dump ≠ lastByteEnv.sha256 { exTx with data := some [4] }.dump := by
    intro he
    have h1 : exTx.dump.getLastD 0 = 3 := by decide +kernel
    have h2 : ({ exTx with data := some [4] } : Transaction).dump.getLastD 0 = 4 := by decide +kernel
    have he' := congrArg (fun x => x.val.head?) he
    simp only [lastByteEnv, h1, h2] at he'
    revert he'
    decide
  have gen : ∀ t u : Transaction, t.timestamp = u.timestamp →
      lastByteEnv.sha256 t.dump ≠ lastByteEnv.sha256 u.dump → False := by
    intro t u ht hne
    obtain ⟨h1, h2⟩ := key true { t with hash := lastByteEnv.sha256 t.dump }
      { u with hash := lastByteEnv.sha256 u.dump } ht hne
    exact h2 ((h.1 lastByteEnv true _ _ (hc t) (hc u)).mp h1)
  exact gen exTx { exTx with data := some [4] } rfl hne

/-- C68 for blocks, and for transactions of different timestamps or of one hash; for all transactions `Equal`
implies `==` (missing: different transactions of one timestamp, where it is false). `<=` never disagrees with
`cmp`. -/
theorem C68_consistency_partial :
    (∀ a b : Block, (a.eqOp b = true ↔ a.cmp b = .eq) ∧ a.partialCmp b = some (a.cmp b)) ∧
    (∀ (little : Bool) (a b : Transaction), a.cmp little b = .eq → a.eqOp b = true) ∧
    (∀ (little : Bool) (a b : Transaction), (a.timestamp ≠ b.timestamp ∨ a.hash = b.hash) →
      (a.eqOp b = true ↔ a.cmp little b = .eq)) := by
  refine ⟨fun a b => ⟨?_, rfl⟩, fun little a b h => ?_, fun little a b h => ?_⟩
  · simp only [Block.eqOp, Block.cmp, beq_iff_eq, Nat.compare_eq_eq, UInt64.toNat_inj]
  · simp [Transaction.eqOp, ((Transaction.cmp_eq_iff little a b).mp h).1]
  · rw [Transaction.cmp_eq_iff]
    simp only [Transaction.eqOp, beq_iff_eq]
    rcases h with h | h
    · exact ⟨fun h' => absurd h' h, fun h' => h'.1⟩
    · exact ⟨fun h' => ⟨h', h⟩, fun h' => h'.1⟩

example : ∃ a b : Transaction, a.timestamp ≠ b.timestamp ∧ a.hash = b.hash :=
  ⟨exTx, { exTx with timestamp := 5 }, by decide, rfl⟩

/-! ## C69 -/

/-- Histories of a pool. `held` is what an outside observer knows: a transaction is in from the `push` that
returned `true` until the `pop` that returned it. -/
inductive PoolRun (little : Bool) : TxPool → List Transaction → Prop where
  | new : PoolRun little TxPool.new []
  | withCapacity (c : Nat) : PoolRun little (TxPool.withCapacity c) []
  | push {p held} (t : Transaction) : PoolRun little p held →
      PoolRun little (p.push little t).2 (if (p.push little t).1 = true then t :: held else held)
  | pop {p held} : PoolRun little p held →
      PoolRun little (p.pop little).2 (match (p.pop little).1 with | some (_, t) => held.erase t | none => held)

/-- What is true of the pool in every history. -/
structure PoolInv (little : Bool) (p : TxPool) (held : List Transaction) : Prop where
  heap : Heap.IsHeapA (Transaction.leOp little) p.pool
  perm : p.pool.toList.Perm held
  nodup : (held.map Transaction.hash).Nodup
  hashes : ∀ h, h ∈ p.hashes ↔ h ∈ held.map Transaction.hash

theorem PoolInv.pop_some {little : Bool} {p : TxPool} {held : List Transaction} (I : PoolInv little p held)
    {r : Hash × Transaction} (h : (p.pop little).1 = some r) :
    r.1 = r.2.hash ∧ r.2 ∈ held ∧ (∀ u ∈ held, ¬ TxBefore little u r.2) ∧
      PoolInv little (p.pop little).2 (held.erase r.2) := by
  unfold TxPool.pop at h ⊢
  cases hp : Heap.pop (Transaction.leOp little) p.pool with
  | none => rw [hp] at h; cases h
  | some q =>
    obtain ⟨t, a'⟩ := q
    rw [hp] at h
    dsimp only at h ⊢
    cases h
    have T := Transaction.totalLe little
    have hperm := Heap.pop_perm hp
    have hmem : t ∈ held := I.perm.subset (hperm.symm.subset (List.mem_cons_self ..))
    have hp' : (t :: a'.toList).Perm (t :: held.erase t) :=
      (hperm.symm.trans I.perm).trans (List.perm_cons_erase hmem)
    have hnd : ((t :: held.erase t).map Transaction.hash).Nodup :=
      ((List.perm_cons_erase hmem).map _).nodup_iff.mp I.nodup
    refine ⟨rfl, hmem, fun u hu => ?_, Heap.pop_heap T I.heap hp, (List.perm_cons t).mp hp', ?_, fun h => ?_⟩
    · have := Heap.pop_max T I.heap hp u (I.perm.symm.subset hu)
      rwa [Transaction.leOp_iff] at this
    · exact (List.nodup_cons.mp hnd).2
    · have hh : h ∈ held.map Transaction.hash ↔ h ∈ (t :: held.erase t).map Transaction.hash :=
        ((List.perm_cons_erase hmem).map _).mem_iff
      rw [Finset.mem_erase, I.hashes, hh, List.map_cons, List.mem_cons]
      constructor
      · rintro ⟨hne, h' | h'⟩
        · exact absurd h' hne
        · exact h'
      · intro h'
        refine ⟨fun he => ?_, .inr h'⟩
        subst he
        exact (List.nodup_cons.mp hnd).1 h'

theorem PoolInv.pop_none {little : Bool} {p : TxPool} {held : List Transaction} (I : PoolInv little p held) :
    (p.pop little).1 = none ↔ held = [] := by
  unfold TxPool.pop
  cases hp : Heap.pop (Transaction.leOp little) p.pool with
  | none =>
    simp only [true_iff]
    have := Heap.pop_none.mp hp
    have hp := I.perm
    rw [this] at hp
    exact hp.symm.eq_nil
  | some q =>
    simp only [reduceCtorEq, false_iff]
    rintro rfl
    have := I.perm.eq_nil
    have : p.pool = #[] := by
      rcases p with ⟨⟨l⟩, s⟩
      simpa using this
    rw [Heap.pop_none.mpr this] at hp
    cases hp

theorem PoolInv.pop_none_state {little : Bool} {p : TxPool} (h : (p.pop little).1 = none) :
    (p.pop little).2 = p := by
  unfold TxPool.pop at h ⊢
  cases hp : Heap.pop (Transaction.leOp little) p.pool with
  | none => rfl
  | some q => rw [hp] at h; cases h

theorem poolRun_inv {little : Bool} {p : TxPool} {held : List Transaction} (h : PoolRun little p held) :
    PoolInv little p held := by
  have T := Transaction.totalLe little
  induction h with
  | new => exact ⟨Heap.isHeapA_empty, List.Perm.refl _, List.nodup_nil, fun h => by simp [TxPool.new]⟩
  | withCapacity c =>
    exact ⟨Heap.isHeapA_empty, List.Perm.refl _, List.nodup_nil, fun h => by simp [TxPool.withCapacity]⟩
  | @push p held t _ I =>
    unfold TxPool.push
    by_cases ht : t.hash ∈ p.hashes
    · rw [if_pos ht]
      simpa using I
    · rw [if_neg ht]
      simp only [if_true]
      refine ⟨Heap.push_heap T _ _ I.heap, (Heap.push_perm _ _).trans (I.perm.cons t), ?_, fun h => ?_⟩
      · rw [List.map_cons, List.nodup_cons]
        exact ⟨fun h => ht ((I.hashes _).mpr h), I.nodup⟩
      · rw [Finset.mem_insert, I.hashes, List.map_cons, List.mem_cons]
  | @pop p held _ I =>
    cases hp : (p.pop little).1 with
    | none =>
      dsimp only
      rw [PoolInv.pop_none_state hp]
      exact I
    | some r => exact (I.pop_some hp).2.2.2

/-- C69. In every history: no two held transactions have one hash; `len`, `is_empty`, `transaction_exists` and the
iterator tell what is held; `push` returns `false` exactly if the hash is held already, and then changes nothing;
`pop` returns `None` exactly if nothing is held, and else a held transaction with its hash. -/
theorem C69_pool_set (little : Bool) (p : TxPool) (held : List Transaction) (h : PoolRun little p held) :
    (held.map Transaction.hash).Nodup ∧ p.len = held.length ∧ (p.isEmpty = true ↔ held = []) ∧
    p.transactionsIter.Perm held ∧
    (∀ k, p.transactionExists k = true ↔ ∃ t ∈ held, t.hash = k) ∧
    (∀ t, ((p.push little t).1 = false ↔ ∃ u ∈ held, u.hash = t.hash) ∧
      ((p.push little t).1 = false → (p.push little t).2 = p)) ∧
    ((p.pop little).1 = none ↔ held = []) ∧
    (∀ k t, (p.pop little).1 = some (k, t) → k = t.hash ∧ t ∈ held) := by
  have I := poolRun_inv h
  have hlen : p.len = held.length := by
    have : p.hashes = (held.map Transaction.hash).toFinset := by
      ext k; rw [I.hashes, List.mem_toFinset]
    unfold TxPool.len
    rw [this, List.toFinset_card_of_nodup I.nodup, List.length_map]
  refine ⟨I.nodup, hlen, ?_, I.perm, fun k => ?_, fun t => ⟨?_, ?_⟩, I.pop_none, fun k t hp => ?_⟩
  · simp only [TxPool.isEmpty, hlen, beq_iff_eq, List.length_eq_zero_iff]
  · simp only [TxPool.transactionExists, decide_eq_true_eq, I.hashes, List.mem_map]
  · unfold TxPool.push
    have := I.hashes t.hash
    rw [List.mem_map] at this
    rw [← this]
    by_cases ht : t.hash ∈ p.hashes
    · simp [ht]
    · simp [ht]
  · unfold TxPool.push
    by_cases ht : t.hash ∈ p.hashes
    · simp [ht]
    · simp [ht]
  · exact ⟨(I.pop_some hp).1, (I.pop_some hp).2.1⟩

/-- Three transactions of two timestamps. -/
def poolTx (time : UInt64) (h : UInt8) : Transaction := { exTx with timestamp := time, hash := BytesN.fill 32 h }

/-- A pool that took three transactions, refused one of them offered again, and gave one out. -/
def examplePool : TxPool :=
  let p := (TxPool.new.push true (poolTx 9 1)).2
  let p := (p.push true (poolTx 7 2)).2
  let p := (p.push true (poolTx 7 3)).2
  let p := (p.push true (poolTx 7 2)).2
  (p.pop true).2

example : ∃ held, PoolRun true examplePool held ∧ held.length = 2 :=
  ⟨_, .pop (.push (poolTx 7 2) (.push (poolTx 7 3) (.push (poolTx 7 2) (.push (poolTx 9 1) .new)))), by decide +kernel⟩

/-! ## C70 -/

/-- Popping until nothing is left returns the list. -/
inductive Drains (little : Bool) : TxPool → List Transaction → Prop where
  | done {p} : (p.pop little).1 = none → Drains little p []
  | next {p k t l} : (p.pop little).1 = some (k, t) → Drains little (p.pop little).2 l → Drains little p (t :: l)

theorem PoolInv.drains {little : Bool} {p : TxPool} {held : List Transaction} (I : PoolInv little p held) :
    ∃ l, Drains little p l := by
  induction hn : held.length generalizing p held with
  | zero => exact ⟨[], .done (I.pop_none.mpr (List.length_eq_zero_iff.mp hn))⟩
  | succ n ih =>
    cases hp : (p.pop little).1 with
    | none =>
      rw [I.pop_none.mp hp] at hn
      cases hn
    | some r =>
      obtain ⟨-, hm, -, I'⟩ := I.pop_some hp
      obtain ⟨l, hl⟩ := ih I' (by rw [List.length_erase_of_mem hm]; omega)
      exact ⟨_, .next hp hl⟩

theorem Drains.sorted {little : Bool} {p : TxPool} {l : List Transaction} (h : Drains little p l) :
    ∀ {held : List Transaction}, PoolInv little p held → l.Perm held ∧ l.Pairwise (TxBefore little) := by
  induction h with
  | done hp =>
    intro held I
    rw [I.pop_none.mp hp]
    exact ⟨List.Perm.refl _, List.Pairwise.nil⟩
  | @next p k t l hp _ ih =>
    intro held I
    obtain ⟨-, hm, hmax, I'⟩ := I.pop_some hp
    obtain ⟨hperm, hpw⟩ := ih I'
    have hperm' : (t :: l).Perm held := (hperm.cons t).trans (List.perm_cons_erase hm).symm
    refine ⟨hperm', List.pairwise_cons.mpr ⟨fun u hu => ?_, hpw⟩⟩
    have hnd : ((t :: l).map Transaction.hash).Nodup := (hperm'.map _).nodup_iff.mpr I.nodup
    rcases TxBefore.total little t u with h | h | h
    · exact h
    · exact absurd h (hmax u (hperm'.subset (List.mem_cons_of_mem _ hu)))
    · exfalso
      rw [List.map_cons, List.nodup_cons] at hnd
      exact hnd.1 (h.2 ▸ List.mem_map_of_mem hu)

/-- C70. In every history: `pop` returns a held transaction no held one goes before, so none is older; and popping
until empty ends and returns every held transaction exactly once, by timestamp and then by hash. -/
theorem C70_oldest_first (little : Bool) (p : TxPool) (held : List Transaction) (h : PoolRun little p held) :
    (∀ k t, (p.pop little).1 = some (k, t) → t ∈ held ∧
      (∀ u ∈ held, t.timestamp ≤ u.timestamp) ∧
      (∀ u ∈ held, u ≠ t →
        Spec.GoesBefore little t.timestamp.toNat t.hash.val u.timestamp.toNat u.hash.val)) ∧
    (∃ l, Drains little p l) ∧
    (∀ l, Drains little p l → l.Perm held ∧ l.Pairwise (fun t u =>
      Spec.GoesBefore little t.timestamp.toNat t.hash.val u.timestamp.toNat u.hash.val)) := by
  have I := poolRun_inv h
  refine ⟨fun k t hp => ?_, I.drains, fun l hl => hl.sorted I⟩
  obtain ⟨-, hm, hmax, -⟩ := I.pop_some hp
  refine ⟨hm, fun u hu => ?_, fun u hu hne => ?_⟩
  · have := hmax u hu
    rw [UInt64.le_iff_toNat_le]
    by_contra hlt
    exact this (.inl (by dsimp only; omega))
  · rcases TxBefore.total little t u with h | h | h
    · exact h
    · exact absurd h (hmax u hu)
    · exact absurd (List.inj_on_of_nodup_map I.nodup hm hu h.2).symm hne

/-- Of two transactions of one time the one with the smaller hash leaves first, then the other, then the younger. -/
example : ∃ held, PoolRun true examplePool held ∧ Drains true examplePool [poolTx 7 3, poolTx 9 1] :=
  ⟨_, .pop (.push (poolTx 7 2) (.push (poolTx 7 3) (.push (poolTx 7 2) (.push (poolTx 9 1) .new)))),
    .next (k := BytesN.fill 32 3) (by decide +kernel)
      (.next (k := BytesN.fill 32 1) (by decide +kernel) (.done (by decide +kernel)))⟩

/-! ## C79 -/

/-- C79 at full strength. -/
def C79_full : Prop :=
  (∀ h : Headers, Headers.fromU8 h.toU8 = .ok h) ∧
  (∀ (b : UInt8) (h : Headers), Headers.fromU8 b = .ok h → h.toU8 = b) ∧
  (∀ b : UInt8, (∀ h : Headers, h.toU8 ≠ b) → Headers.fromU8 b = .err .headerUnknown)

/-- C79 is false of the code: the value of `GenesisBlock`, 5, is rejected. -/
theorem C79_refuted :
    Headers.fromU8 Headers.genesisBlock.toU8 = .err .headerUnknown ∧ ¬ C79_full := by
  refine ⟨rfl, fun h => ?_⟩
  have := h.1 .genesisBlock
  cases this

/-- C79 for every header but `GenesisBlock` (missing: that one); what is accepted is decoded correctly, and every
byte that is no header's value is rejected. -/
theorem C79_headers_partial :
    (∀ h : Headers, h ≠ .genesisBlock → Headers.fromU8 h.toU8 = .ok h) ∧
    (∀ (b : UInt8) (h : Headers), Headers.fromU8 b = .ok h → h.toU8 = b) ∧
    (∀ b : UInt8, (∀ h : Headers, h.toU8 ≠ b) → Headers.fromU8 b = .err .headerUnknown) ∧
    (∀ h k : Headers, h.toU8 = k.toU8 → h = k) := by
  refine ⟨?_, ?_, ?_, ?_⟩
  · intro h hne; cases h <;> first | rfl | exact absurd rfl hne
  · intro b h hb
    unfold Headers.fromU8 at hb
    repeat' split at hb
    all_goals first | (cases hb; done) | (have := Outcome.ok.inj hb; subst this; subst_vars; rfl)
  · intro b hb
    unfold Headers.fromU8
    rw [if_neg (fun h => hb .transaction h.symm), if_neg (fun h => hb .token h.symm),
      if_neg (fun h => hb .transactionBlock h.symm), if_neg (fun h => hb .derivativeBlock h.symm),
      if_neg (fun h => hb .summarizeBlock h.symm)]
  · intro h k hk
    cases h <;> cases k <;> first | rfl | (exfalso; revert hk; decide)

example : Headers.summarizeBlock ≠ .genesisBlock ∧ ∀ h : Headers, h.toU8 ≠ 6 :=
  ⟨by decide, fun h => by cases h <;> decide⟩

end BCT.Props
