import Mathlib.SetTheory.Cardinal.Finite
import Verif.Props.Pow
import Verif.Lemmas.NodeSpec
/-!
# C165: how many digests are enough work

tools.rs:200-219 `check_pow` and tools.rs:221-250 `recalculate_difficulty`.
-/

namespace BCT.Props
open BCT

/-- The digests that are enough for a difficulty. -/
def Winning (d r : Hash) : Prop := Spec.bitLength (Spec.value r.val) ≤ Spec.bitLength (Spec.value d.val)

theorem bitLength_le_iff (n k : Nat) : Spec.bitLength n ≤ k ↔ n < 2 ^ k :=
  ⟨fun h => Nat.lt_of_lt_of_le (bitLength_spec n).1 (Nat.pow_le_pow_right (by omega) h), fun h => (bitLength_spec n).2 k h⟩

theorem hash_value_lt (r : Hash) : Spec.value r.val < 2 ^ 256 := by
  rw [value_eq_beNat]
  have := beNat_lt r.val
  rw [r.property] at this
  exact this

theorem hash_bits (d : Hash) : Spec.bitLength (Spec.value d.val) = 256 - Spec.zeroBits d := by
  have := (bitLength_le_iff _ 256).mpr (hash_value_lt d)
  unfold Spec.zeroBits
  omega

/-- 32 bytes whose number is below `2^k` are the numbers below `2^k`. -/
def smallHashes (k : Nat) (hk : k ≤ 256) : {r : Hash // Spec.value r.val < 2 ^ k} ≃ Fin (2 ^ k) where
  toFun r := ⟨Spec.value r.1.val, r.2⟩
  invFun n := ⟨⟨beBytes 32 n.val, beBytes_length _ _⟩, by
    rw [value_eq_beNat, beNat_beBytes]
    exact Nat.lt_of_le_of_lt (Nat.mod_le _ _) n.2⟩
  left_inv r := by
    apply Subtype.ext
    apply Subtype.ext
    have := beBytes_beNat r.1.val
    rw [r.1.property] at this
    rw [← value_eq_beNat] at this
    exact this
  right_inv n := by
    apply Fin.ext
    show Spec.value (beBytes 32 n.val) = n.val
    rw [value_eq_beNat, beNat_beBytes]
    have h : 2 ^ k ≤ 2 ^ 256 := Nat.pow_le_pow_right (by omega) hk
    exact Nat.mod_eq_of_lt (Nat.lt_of_lt_of_le n.2 h)

theorem card_winning (d : Hash) : Nat.card {r // Winning d r} = 2 ^ (256 - Spec.zeroBits d) := by
  have e : ∀ r, Winning d r ↔ Spec.value r.val < 2 ^ (256 - Spec.zeroBits d) := fun r => by
    unfold Winning
    rw [hash_bits d, bitLength_le_iff]
  rw [Nat.card_congr (Equiv.subtypeEquivRight e), Nat.card_congr (smallHashes _ (by omega)), Nat.card_fin]

/-- C165. There are `2^256` digests, and `check_pow` accepts exactly if the digest is one of `2^(256-k)`, `k` the leading
zero bits of the difficulty: which ones does not depend on the block before, the transactions, the nonce or the digest
function. -/
theorem C165_count (d : Hash) :
    Nat.card Hash = 2 ^ 256 ∧ Nat.card {r // Winning d r} = 2 ^ (256 - Spec.zeroBits d) ∧
    ∀ (E : Env) (prev : Hash) (txs : List Hash) (pow : BytesN 32), ∃ root, merkleRoot E txs = .ok root ∧
      (checkPow E prev d txs pow.val = .ok true ↔ Winning d (E.sha256 (prev.val ++ root.val ++ pow.val))) := by
  refine ⟨?_, card_winning d, fun E prev txs pow => ⟨_, merkleRoot_eq E txs, ?_⟩⟩
  · rw [← Nat.card_fin (2 ^ 256), ← Nat.card_congr (smallHashes 256 (Nat.le_refl _))]
    exact (Nat.card_congr (Equiv.subtypeUnivEquiv hash_value_lt)).symm
  · rw [checkPow_spec, treeRoot_eq]
    unfold Spec.enoughWork Winning
    simp

/-- C165 along every chain that never reaches the all-zero difficulty: a block faster than 600 s halves the digests
that are enough, a slower one doubles them unless they are already half of all, and one at exactly 600 s leaves them. -/
theorem C165_halving (E : Env) (t0 t : UInt64) (ts : List UInt64) (d : Hash) (hord : InOrder t0 ts)
    (hnz : ∀ n t' d', runDifficulty E t0 BEGINNING_DIFFICULTY (ts.take n) = .ok (t', d') → d' ≠ BytesN.fill 32 0)
    (h : runDifficulty E t0 BEGINNING_DIFFICULTY ts = .ok (t, d)) (prev now : UInt64) (hle : prev ≤ now) :
    ∃ d', recalculateDifficulty E prev now d = .ok d' ∧
      (now.toNat - prev.toNat < 600 → 2 * Nat.card {r // Winning d' r} = Nat.card {r // Winning d r}) ∧
      (now.toNat - prev.toNat > 600 → Nat.card {r // Winning d' r} = min (2 * Nat.card {r // Winning d r}) (2 ^ 255)) ∧
      (now.toNat - prev.toNat = 600 → d' = d) := by
  obtain ⟨hm, hv⟩ := C23_one_bit_partial E t0 t ts d hord hnz h
  obtain ⟨d', h1, h2, h3, h4⟩ := hm prev now hle
  have hd : d ≠ BytesN.fill 32 0 := hnz ts.length t d (by rw [List.take_length]; exact h)
  rw [clz_spec] at hv h2 h3
  rw [clz_spec] at h2 h3
  have hk : Spec.zeroBits d < 256 := by
    refine Nat.lt_of_not_le fun hge => hd (Subtype.ext (beNat_inj_of_length (by rw [d.property]; rfl) ?_))
    rw [← value_eq_beNat, hv, show 256 - Spec.zeroBits d = 0 by omega]
    decide +kernel
  refine ⟨d', h1, fun hf => ?_, fun hf => ?_, h4⟩
  · rw [card_winning, card_winning, h2 hf, ← Nat.pow_succ']
    congr 1
    omega
  · rw [card_winning, card_winning, h3 hf, ← Nat.pow_succ']
    by_cases h0 : Spec.zeroBits d ≤ 1
    · rw [show 256 - max (Spec.zeroBits d - 1) 1 = 255 by omega, Nat.min_eq_right]
      exact Nat.pow_le_pow_right (by omega) (by omega)
    · rw [show 256 - max (Spec.zeroBits d - 1) 1 = (256 - Spec.zeroBits d).succ by omega, Nat.min_eq_left]
      exact Nat.pow_le_pow_right (by omega) (by omega)

/-- The first difficulty: half of all digests are enough; after one fast block, a quarter. -/
example (E : Env) (t0 : UInt64) : Nat.card {r // Winning BEGINNING_DIFFICULTY r} = 2 ^ 255 ∧
    ∃ d', recalculateDifficulty E t0 t0 BEGINNING_DIFFICULTY = .ok d' ∧
      2 * Nat.card {r // Winning d' r} = Nat.card {r // Winning BEGINNING_DIFFICULTY r} := by
  have hb : BEGINNING_DIFFICULTY ≠ BytesN.fill 32 0 := by decide +kernel
  refine ⟨by rw [card_winning]; congr 1, ?_⟩
  obtain ⟨d', h1, h2, -⟩ := C165_halving E t0 t0 [] BEGINNING_DIFFICULTY trivial
    (fun n t' d' h => by rw [List.take_nil] at h; cases h; exact hb) rfl t0 t0 (UInt64.le_refl _)
  exact ⟨d', h1, h2 (by omega)⟩

end BCT.Props
