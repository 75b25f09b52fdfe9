import Verif.Lemmas.Difficulty
import Verif.Props.Merkle
/-!
# C21 – C26: leading zeros, proof of work, difficulty, fee (tools.rs)
-/

namespace BCT.Props
open BCT

/-! ## C21 -/

/-- C21. Leading zeros plus bit length of the big-endian value is the number of bits. -/
theorem C21_leading_zeros (b : Bytes) :
    ∃ k, Spec.IsBitLength (Spec.value b) k ∧ countLeadingZeros b + k = 8 * b.length :=
  clz_bitLength b

example : countLeadingZeros [0, 0, 0x1f, 0xff] = 19 := by decide +kernel
example : Spec.IsBitLength (Spec.value [0, 0, 0x1f, 0xff]) 13 := by
  refine ⟨by decide +kernel, fun j hj => ?_⟩
  rcases Nat.lt_or_ge 12 j with h | h
  · exact h
  · have := Nat.pow_le_pow_right (n := 2) (by decide) h
    have h2 : Spec.value [0, 0, 0x1f, 0xff] = 8191 := by decide +kernel
    omega

/-! ## C22 -/

/-- C22. `check_pow` is total and accepts exactly the digests that need at most as many bits as the
difficulty; the digest is that of hash, Merkle root and nonce. -/
theorem C22_check_pow (E : Env) (hash difficulty : Hash) (txs : List Hash) (pow : Bytes) :
    ∃ p kd kr, Spec.IsNextPower txs.length p ∧
      Spec.IsBitLength (Spec.value difficulty.val) kd ∧
      Spec.IsBitLength (Spec.value (E.sha256 (hash.val ++
        (Spec.perfectRoot (specParent E) specPad p (Spec.padTo specPad (2 ^ p) txs)).val ++ pow)).val) kr ∧
      checkPow E hash difficulty txs pow = .ok (decide (kr ≤ kd)) := by
  obtain ⟨t, p, _, hp, _, hr, _⟩ := C17_merkle_root E txs
  obtain ⟨kd, hd, hd2⟩ := clz_bitLength difficulty.val
  obtain ⟨kr, hk, hk2⟩ := clz_bitLength (E.sha256 (hash.val ++
        (Spec.perfectRoot (specParent E) specPad p (Spec.padTo specPad (2 ^ p) txs)).val ++ pow)).val
  refine ⟨p, kd, kr, hp, hd, hk, ?_⟩
  unfold checkPow
  rw [hr, Outcome.ok_bind]
  simp only [Outcome.pure_eq, Outcome.ok.injEq]
  rw [difficulty.property] at hd2
  rw [(E.sha256 _).property] at hk2
  congr 1
  apply propext
  omega

/-- C22. A harder difficulty accepts no more than an easier one. -/
theorem C22_monotone (E : Env) (hash d1 d2 : Hash) (txs : List Hash) (pow : Bytes)
    (hd : countLeadingZeros d1.val ≤ countLeadingZeros d2.val)
    (h : checkPow E hash d2 txs pow = .ok true) : checkPow E hash d1 txs pow = .ok true := by
  unfold checkPow at *
  rw [merkleRoot_eq, Outcome.ok_bind] at *
  simp only [Outcome.pure_eq, Outcome.ok.injEq, decide_eq_true_eq] at *
  omega

/-- With a constant digest `0…01` the difficulty of 255 zero bits is met and that of 256 is not. -/
example : let E : Env := ⟨fun _ => ⟨List.replicate 31 0 ++ [1], rfl⟩, true⟩
    checkPow E (BytesN.fill 32 0) ⟨List.replicate 31 0 ++ [1], rfl⟩ [] [] = .ok true ∧
    checkPow E (BytesN.fill 32 0) (BytesN.fill 32 0) [] [] = .ok false := by
  intro E
  unfold checkPow
  rw [C17_empty_root]
  constructor <;> rfl

/-! ## C23 -/

/-- The difficulties of a chain: `prev` is the timestamp of the last block, `d` its difficulty, `ts` the
timestamps of the following blocks. -/
def runDifficulty (E : Env) : UInt64 → Hash → List UInt64 → Outcome (UInt64 × Hash)
  | prev, d, [] => .ok (prev, d)
  | prev, d, t :: ts => do
    let d' ← recalculateDifficulty E prev t d
    runDifficulty E t d' ts

/-- Timestamps that never go backwards. -/
def InOrder : UInt64 → List UInt64 → Prop
  | _, [] => True
  | prev, t :: ts => prev ≤ t ∧ InOrder t ts

/-- One recalculation moves the number of leading zero bits as described: one up (at most to 256) for a
fast block, one down (at least to 1) for a slow one, unchanged difficulty at exactly 600 s. -/
def MovesOneBit (E : Env) (d : Hash) : Prop := ∀ prev t : UInt64, prev ≤ t →
  ∃ d', recalculateDifficulty E prev t d = .ok d' ∧
    (t.toNat - prev.toNat < 600 → countLeadingZeros d'.val = min (countLeadingZeros d.val + 1) 256) ∧
    (t.toNat - prev.toNat > 600 → countLeadingZeros d'.val = max (countLeadingZeros d.val - 1) 1) ∧
    (t.toNat - prev.toNat = 600 → d' = d)

/-- C23 at full strength. -/
def C23_full : Prop := ∀ (E : Env) (t0 t : UInt64) (ts : List UInt64) (d : Hash), InOrder t0 ts →
  runDifficulty E t0 BEGINNING_DIFFICULTY ts = .ok (t, d) → MovesOneBit E d

theorem stepBy_cases (E : Env) (prev t : UInt64) (d : Hash) (h : prev ≤ t) :
    (t.toNat - prev.toNat < 600 → recalculateDifficulty E prev t d = harder d) ∧
    (t.toNat - prev.toNat > 600 → recalculateDifficulty E prev t d = easier E d) ∧
    (t.toNat - prev.toNat = 600 → recalculateDifficulty E prev t d = .ok d) := by
  rw [recalculate_inorder E prev t d h]
  have e := toNat_sub_inorder prev t h
  unfold stepBy
  simp only [gt_iff_lt, UInt64.lt_iff_toNat_lt, e]
  have h6 : (600 : UInt64).toNat = 600 := rfl
  rw [h6]
  refine ⟨fun h => by rw [if_pos h], fun h => by rw [if_neg (by omega), if_pos h],
    fun h => by rw [if_neg (by omega), if_neg (by omega)]⟩

theorem movesOneBit_regular (E : Env) (k : Nat) (h1 : 1 ≤ k) (h2 : k < 256) : MovesOneBit E (regular k) := by
  intro prev t h
  obtain ⟨hl, hg, he⟩ := stepBy_cases E prev t (regular k) h
  have hc : ∀ j, j ≤ 256 → countLeadingZeros (regular j).val = j := fun j hj => clz_regular ⟨j, by omega⟩
  rcases Nat.lt_trichotomy (t.toNat - prev.toNat) 600 with hd | hd | hd
  · refine ⟨regular (k + 1), by rw [hl hd]; exact harder_regular ⟨k, h2⟩, ?_, by omega, by omega⟩
    intro _; rw [hc k (by omega), hc (k + 1) (by omega)]; omega
  · exact ⟨regular k, he hd, by omega, by omega, fun _ => rfl⟩
  · refine ⟨regular (max (k - 1) 1), by rw [hg hd]; exact easier_regular E k h1 h2, by omega, ?_, by omega⟩
    intro _; rw [hc k (by omega), hc _ (by omega)]

theorem run_regular (E : Env) : ∀ (ts : List UInt64) (t0 t : UInt64) (k : Nat) (d : Hash), 1 ≤ k → k < 256 →
    InOrder t0 ts → (∀ n t' d', runDifficulty E t0 (regular k) (ts.take n) = .ok (t', d') →
      d' ≠ BytesN.fill 32 0) →
    runDifficulty E t0 (regular k) ts = .ok (t, d) → ∃ j, 1 ≤ j ∧ j < 256 ∧ d = regular j := by
  intro ts
  induction ts with
  | nil =>
    intro t0 t k d h1 h2 _ _ h
    cases h
    exact ⟨k, h1, h2, rfl⟩
  | cons t1 ts ih =>
    intro t0 t k d h1 h2 hord hnz h
    have hle : t0 ≤ t1 := hord.1
    have hord' : InOrder t1 ts := hord.2
    have hstep : ∃ j, 1 ≤ j ∧ j ≤ 256 ∧ recalculateDifficulty E t0 t1 (regular k) = .ok (regular j) := by
      obtain ⟨hl, hg, he⟩ := stepBy_cases E t0 t1 (regular k) hle
      rcases Nat.lt_trichotomy (t1.toNat - t0.toNat) 600 with hd | hd | hd
      · exact ⟨k + 1, by omega, by omega, by rw [hl hd]; exact harder_regular ⟨k, h2⟩⟩
      · exact ⟨k, h1, by omega, he hd⟩
      · exact ⟨max (k - 1) 1, by omega, by omega, by rw [hg hd]; exact easier_regular E k h1 h2⟩
    obtain ⟨j, hj1, hj2, hj⟩ := hstep
    have hj256 : j ≠ 256 := by
      rintro rfl
      refine hnz 1 t1 (regular 256) ?_ (by decide +kernel)
      simp only [List.take_succ_cons, List.take_zero, runDifficulty, hj, Outcome.ok_bind]
    have h' : runDifficulty E t1 (regular j) ts = .ok (t, d) := by
      simpa only [runDifficulty, hj, Outcome.ok_bind] using h
    refine ih t1 t j d hj1 (by omega) hord' ?_ h'
    intro n t' d' hn
    refine hnz (n + 1) t' d' ?_
    simp only [List.take_succ_cons, runDifficulty, hj, Outcome.ok_bind]
    exact hn

/-- C23 along every chain that never reaches the all-zero difficulty (missing: chains that do; there the
rule fails, see `C23_refuted`). Moreover the target is then exactly `2^(256-k) - 1`. -/
theorem C23_one_bit_partial (E : Env) (t0 t : UInt64) (ts : List UInt64) (d : Hash) (hord : InOrder t0 ts)
    (hnz : ∀ n t' d', runDifficulty E t0 BEGINNING_DIFFICULTY (ts.take n) = .ok (t', d') →
      d' ≠ BytesN.fill 32 0)
    (h : runDifficulty E t0 BEGINNING_DIFFICULTY ts = .ok (t, d)) :
    MovesOneBit E d ∧ Spec.value d.val = 2 ^ (256 - countLeadingZeros d.val) - 1 := by
  rw [← regular_one] at hnz h
  obtain ⟨j, h1, h2, rfl⟩ := run_regular E ts t0 t 1 d (by omega) (by omega) hord hnz h
  refine ⟨movesOneBit_regular E j h1 h2, ?_⟩
  rw [value_regular, clz_regular ⟨j, by omega⟩]

theorem run_fast (E : Env) : ∀ (n k : Nat) (t0 : UInt64), k + n ≤ 256 →
    runDifficulty E t0 (regular k) (List.replicate n t0) = .ok (t0, regular (k + n)) := by
  intro n
  induction n with
  | zero => intro k t0 _; rfl
  | succ n ih =>
    intro k t0 hk
    obtain ⟨hl, _, _⟩ := stepBy_cases E t0 t0 (regular k) (UInt64.le_refl _)
    have hs : recalculateDifficulty E t0 t0 (regular k) = .ok (regular (k + 1)) := by
      rw [hl (by omega)]; exact harder_regular ⟨k, by omega⟩
    simp only [List.replicate_succ, runDifficulty, hs, Outcome.ok_bind]
    rw [ih (k + 1) t0 (by omega)]
    congr 2
    rw [Nat.add_right_comm, Nat.add_assoc]

/-- C23 is false of the code: 255 blocks with equal timestamps reach the all-zero difficulty; the next
slow block then drops the requirement from 256 to 7 zero bits, and a fast one after that raises it
from 7 to 256. -/
theorem C23_refuted :
    (∀ (E : Env) (t0 : UInt64), runDifficulty E t0 BEGINNING_DIFFICULTY (List.replicate 255 t0) =
      .ok (t0, BytesN.fill 32 0)) ∧
    (∀ E : Env, ∃ d1, recalculateDifficulty E 0 601 (BytesN.fill 32 0) = .ok d1 ∧
      countLeadingZeros d1.val = 7 ∧
      ∃ d2, recalculateDifficulty E 601 601 d1 = .ok d2 ∧ countLeadingZeros d2.val = 256) ∧
    ¬ C23_full := by
  have z : regular 256 = BytesN.fill 32 0 := by decide +kernel
  have hrun : ∀ (E : Env) (t0 : UInt64), runDifficulty E t0 BEGINNING_DIFFICULTY (List.replicate 255 t0) =
      .ok (t0, BytesN.fill 32 0) := by
    intro E t0
    rw [← regular_one, ← z]
    exact run_fast E 255 1 t0 (by decide)
  have hslow : ∀ E : Env, ∃ d1, recalculateDifficulty E 0 601 (BytesN.fill 32 0) = .ok d1 ∧
      countLeadingZeros d1.val = 7 ∧
      ∃ d2, recalculateDifficulty E 601 601 d1 = .ok d2 ∧ countLeadingZeros d2.val = 256 := by
    intro E
    rcases E with ⟨H, c⟩
    cases c
    · exact ⟨⟨1 :: List.replicate 31 0, by simp⟩, rfl, rfl, BytesN.fill 32 0, rfl, rfl⟩
    · exact ⟨⟨1 :: List.replicate 31 0, by simp⟩, rfl, rfl, BytesN.fill 32 0, rfl, rfl⟩
  refine ⟨hrun, hslow, fun h => ?_⟩
  let E : Env := ⟨fun _ => BytesN.fill 32 0, true⟩
  have hord : ∀ n, InOrder 0 (List.replicate n 0) := by
    intro n
    induction n with
    | zero => trivial
    | succ n ih => exact ⟨UInt64.le_refl _, ih⟩
  obtain ⟨d', h1, _, h3, _⟩ := h E 0 0 _ _ (hord 255) (hrun E 0) 0 601 (by decide)
  obtain ⟨d1, a1, a2, _⟩ := hslow E
  rw [a1] at h1
  cases h1
  have := h3 (by decide)
  rw [a2] at this
  revert this; decide +kernel

/-- A chain satisfying the hypotheses of `C23_one_bit_partial`: three fast blocks. -/
example (E : Env) : runDifficulty E 5 BEGINNING_DIFFICULTY [5, 5, 5] = .ok (5, regular 4) := by
  rw [← regular_one]; exact run_fast E 3 1 5 (by decide)

/-! ## C24 -/

/-- C24 at full strength: from any difficulty with a leading zero bit. -/
def C24_full : Prop := ∀ (E : Env) (t0 : UInt64) (ts : List UInt64) (d : Hash),
  1 ≤ countLeadingZeros d.val → InOrder t0 ts →
  ∃ t d', runDifficulty E t0 d ts = .ok (t, d') ∧ 1 ≤ countLeadingZeros d'.val ∧ countLeadingZeros d'.val ≤ 256

/-- C24 is false for arbitrary difficulties: `40 00 … 00` has one leading zero bit and becomes
`81 00 … 00`, which has none, after one slow block. -/
theorem C24_refuted : ¬ C24_full := by
  intro h
  let E : Env := ⟨fun _ => BytesN.fill 32 0, true⟩
  obtain ⟨t, d', h1, h2, _⟩ := h E 0 [601] ⟨0x40 :: List.replicate 31 0, by simp⟩ (by decide +kernel)
    ⟨by decide, trivial⟩
  have : runDifficulty E 0 ⟨0x40 :: List.replicate 31 0, by simp⟩ [601] =
      .ok (601, ⟨0x81 :: List.replicate 31 0, by simp⟩) := rfl
  rw [this] at h1
  cases h1
  revert h2; decide +kernel

/-- C24 for every difficulty whose first byte is `2^j - 1` with `j ≤ 7` (missing: other first bytes,
which no chain has). Every recalculation with timestamps in order succeeds without leaving the
32 bytes and keeps between 1 and 256 leading zero bits. -/
theorem C24_min_one_bit_partial (E : Env) : ∀ (ts : List UInt64) (t0 : UInt64) (d : Hash),
    (∃ x xs, d.val = x :: xs ∧ ∃ j, j ≤ 7 ∧ x.toNat = 2 ^ j - 1) → InOrder t0 ts →
    ∃ t d', runDifficulty E t0 d ts = .ok (t, d') ∧ 1 ≤ countLeadingZeros d'.val ∧
      countLeadingZeros d'.val ≤ 256 ∧ ∃ x xs, d'.val = x :: xs ∧ ∃ j, j ≤ 7 ∧ x.toNat = 2 ^ j - 1 := by
  intro ts
  induction ts with
  | nil =>
    intro t0 d hd _
    exact ⟨t0, d, rfl, (good_clz d hd).1, (good_clz d hd).2, hd⟩
  | cons t1 ts ih =>
    intro t0 d hd hord
    obtain ⟨d1, h1, h2⟩ := stepBy_good E (t1 - t0) d hd
    rw [← recalculate_inorder E t0 t1 d hord.1] at h1
    obtain ⟨t, d', h3, h4⟩ := ih t1 d1 h2 hord.2
    exact ⟨t, d', by simp only [runDifficulty, h1, Outcome.ok_bind]; exact h3, h4⟩

/-- C24 for chains: whatever the timestamps, in order, the difficulty of every block has between 1 and
256 leading zero bits, and recalculation never fails. -/
theorem C24_chain (E : Env) (t0 : UInt64) (ts : List UInt64) (hord : InOrder t0 ts) :
    ∃ t d, runDifficulty E t0 BEGINNING_DIFFICULTY ts = .ok (t, d) ∧ 1 ≤ countLeadingZeros d.val ∧
      countLeadingZeros d.val ≤ 256 := by
  obtain ⟨t, d, h1, h2, h3, _⟩ := C24_min_one_bit_partial E ts t0 BEGINNING_DIFFICULTY good_beginning hord
  exact ⟨t, d, h1, h2, h3⟩

example : InOrder 1597924800 [1597924801, 1597930000, 1597930000] :=
  ⟨by decide, by decide, by decide, trivial⟩

/-! ## C25 -/

/-- C25 at full strength, for the recalculation every acceptance of a block goes through. -/
def C25_full : Prop := ∀ (E : Env) (prev ts : UInt64) (d : Hash), ts < prev →
  ∀ d', recalculateDifficulty E prev ts d ≠ .ok d'

/-- C25 with overflow checks (debug builds): the call panics, nothing is accepted. Missing: release
builds. -/
theorem C25_out_of_order_partial (E : Env) (hE : E.overflowChecks = true) (prev ts : UInt64) (d : Hash)
    (h : ts < prev) : recalculateDifficulty E prev ts d = .panic .overflow := by
  rw [recalculate_eq, u64Sub, if_pos ⟨hE, h⟩]; rfl

/-- C25 in release builds, exact: the difference wraps, and an out-of-order block is treated as a slow
one, as a fast one if the wrapped difference is small, or as one on time if it is 600. -/
theorem C25_release_wraps_partial (E : Env) (hE : E.overflowChecks = false) (prev ts : UInt64) (d : Hash)
    (h : ts < prev) :
    (prev.toNat - ts.toNat < 2 ^ 64 - 600 → recalculateDifficulty E prev ts d = recalculateDifficulty E 0 601 d) ∧
    (prev.toNat - ts.toNat > 2 ^ 64 - 600 → recalculateDifficulty E prev ts d = recalculateDifficulty E 0 0 d) ∧
    (prev.toNat - ts.toNat = 2 ^ 64 - 600 → recalculateDifficulty E prev ts d = .ok d) := by
  rw [(stepBy_cases E 0 601 d (by decide)).2.1 (by decide), (stepBy_cases E 0 0 d (by decide)).1 (by decide)]
  rw [recalculate_eq, u64Sub, if_neg (by simp [hE]), Outcome.ok_bind]
  have e : (ts - prev).toNat = 2 ^ 64 - prev.toNat + ts.toNat := by
    rw [UInt64.toNat_sub]
    have := UInt64.lt_iff_toNat_lt.mp h
    have h1 := prev.toNat_lt
    rw [Nat.mod_eq_of_lt (by omega)]
  have hlt := UInt64.lt_iff_toNat_lt.mp h
  have h1 := prev.toNat_lt
  unfold stepBy
  simp only [gt_iff_lt, UInt64.lt_iff_toNat_lt, e]
  have h6 : (600 : UInt64).toNat = 600 := rfl
  rw [h6]
  refine ⟨fun h => ?_, fun h => ?_, fun h => ?_⟩
  · rw [if_neg (by omega), if_pos (by omega)]
  · rw [if_pos (by omega)]
  · rw [if_neg (by omega), if_neg (by omega)]

/-- C25 is false of release builds: going back in time makes the next block easier to mine. -/
theorem C25_refuted :
    (∀ H : Bytes → Hash, ∃ d', recalculateDifficulty ⟨H, false⟩ 1700000000 1600000000 (regular 20) = .ok d' ∧
      countLeadingZeros d'.val = 19) ∧ ¬ C25_full := by
  have key : ∀ H : Bytes → Hash, ∃ d', recalculateDifficulty ⟨H, false⟩ 1700000000 1600000000 (regular 20) = .ok d' ∧
      countLeadingZeros d'.val = 19 := by
    intro H
    refine ⟨regular 19, ?_, clz_regular ⟨19, by omega⟩⟩
    rw [(C25_release_wraps_partial ⟨H, false⟩ rfl _ _ _ (by decide)).1 (by decide)]
    rw [(stepBy_cases _ 0 601 _ (by decide)).2.1 (by decide)]
    exact easier_regular _ 20 (by decide) (by decide)
  refine ⟨key, fun h => ?_⟩
  obtain ⟨d', h1, _⟩ := key (fun _ => BytesN.fill 32 0)
  exact h _ _ _ _ (by decide) d' h1

/-! ## C26 -/

/-- C26. The fee is 62500 per leading zero bit and never overflows. -/
theorem C26_fee (d : Hash) :
    ∃ f, recalculateFee d = .ok f ∧ f.val = 62500 * countLeadingZeros d.val := by
  have h := clz_le_256 d
  unfold recalculateFee U256.mulNat
  have hs : U256.size > 62500 * 256 := by decide
  have hf : FEE_STEP.val = 62500 := rfl
  rw [hf]
  rw [dif_pos (by omega)]
  exact ⟨_, rfl, rfl⟩

/-- C26. Monotone in difficulty. -/
theorem C26_monotone (d1 d2 : Hash) (f1 f2 : U256) (h1 : recalculateFee d1 = .ok f1)
    (h2 : recalculateFee d2 = .ok f2) (h : countLeadingZeros d1.val ≤ countLeadingZeros d2.val) :
    f1.val ≤ f2.val := by
  obtain ⟨g1, a1, b1⟩ := C26_fee d1
  obtain ⟨g2, a2, b2⟩ := C26_fee d2
  rw [h1] at a1; rw [h2] at a2
  cases a1; cases a2
  omega

/-- C26. On every chain with timestamps in order the fee is between 62 500 and 16 000 000. -/
theorem C26_range (E : Env) (t0 t : UInt64) (ts : List UInt64) (d : Hash) (f : U256) (hord : InOrder t0 ts)
    (h : runDifficulty E t0 BEGINNING_DIFFICULTY ts = .ok (t, d)) (hf : recalculateFee d = .ok f) :
    62500 ≤ f.val ∧ f.val ≤ 16000000 := by
  obtain ⟨t', d', h1, h2, h3⟩ := C24_chain E t0 ts hord
  rw [h] at h1
  cases h1
  obtain ⟨g, a, b⟩ := C26_fee d
  rw [hf] at a; cases a
  omega

example : recalculateFee BEGINNING_DIFFICULTY = .ok (U256.ofNat 62500) := by decide +kernel

end BCT.Props
