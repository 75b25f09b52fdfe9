import Verif.Lemmas.Codec
import Verif.Spec.Numbers
/-! Sizes, arbitrary-precision integers, exact behaviour of the loaders. -/

namespace BCT

theorem value_eq_beNat (b : Bytes) : Spec.value b = beNat b := by
  induction b with
  | nil => rfl
  | cons x xs ih => rw [beNat_cons, Spec.value, ih]

theorem bytes_bits {n k : Nat} (hn : n ≠ 0) (hk : 0 < k) (hlo : 256 ^ (k - 1) ≤ n) (hhi : n < 256 ^ k) :
    (if (n.log2 + 1) % 8 ≠ 0 then (n.log2 + 1) / 8 + 1 else (n.log2 + 1) / 8) = k := by
  have e : ∀ j, (256 : Nat) ^ j = 2 ^ (8 * j) := fun j => by rw [Nat.pow_mul]
  rw [e] at hlo hhi
  have h1 := (Nat.le_log2 hn).mpr hlo
  have h2 := (Nat.log2_lt hn).mpr hhi
  split <;> omega

theorem minBE_zero (n : U256) : minBE n = [] ↔ n.val = 0 := by
  constructor
  · intro h
    have := beNat_minBE n
    rw [h] at this; simpa using this.symm
  · intro h
    cases hb : minBE n with
    | nil => rfl
    | cons x xs =>
      exfalso
      have hx := minBE_head n x xs hb
      have hv := beNat_minBE n
      rw [hb, beNat_cons, h] at hv
      have : 0 < x.toNat := by
        rcases Nat.eq_zero_or_pos x.toNat with h0 | h0
        · exact absurd (UInt8.toNat_inj.mp (by simpa using h0)) hx
        · exact h0
      have : 0 < x.toNat * 256 ^ xs.length := Nat.mul_pos this (Nat.pow_pos (by decide))
      omega

theorem minBE_lower (n : U256) (h : n.val ≠ 0) : 256 ^ ((minBE n).length - 1) ≤ n.val := by
  cases hb : minBE n with
  | nil => exact absurd ((minBE_zero n).mp hb) h
  | cons x xs =>
    have hx := minBE_head n x xs hb
    have hv := beNat_minBE n
    rw [hb, beNat_cons] at hv
    have : 1 ≤ x.toNat := by
      rcases Nat.eq_zero_or_pos x.toNat with h0 | h0
      · exact absurd (UInt8.toNat_inj.mp (by simpa using h0)) hx
      · exact h0
    have := Nat.mul_le_mul_right (256 ^ xs.length) this
    simp only [List.length_cons, Nat.add_sub_cancel]
    omega

theorem minBE_upper (n : U256) : n.val < 256 ^ (minBE n).length := by
  have := beNat_lt (minBE n)
  rwa [beNat_minBE] at this

theorem u256Size_eq (n : U256) :
    u256Size n = if n.val = 0 then 2 else (minBE n).length + 1 := by
  unfold u256Size U256.bits
  by_cases h : n.val = 0
  · simp [h]
  · have hk : 0 < (minBE n).length := by
      rcases Nat.eq_zero_or_pos (minBE n).length with h0 | h0
      · exact absurd ((minBE_zero n).mp (List.length_eq_zero_iff.mp h0)) h
      · exact h0
    have := bytes_bits h hk (minBE_lower n h) (minBE_upper n)
    simp only [h, if_false]
    rw [if_neg (by omega), this]

/-- Exact relation of announced and real size. -/
theorem u256Size_exact (n : U256) :
    u256Size n = (encU256 n).length + (if n.val = 0 then 1 else 0) := by
  rw [u256Size_eq, encU256_length]
  split
  · rename_i h; rw [(minBE_zero n).mpr h]; rfl
  · rfl

/-! ### Arbitrary precision -/

theorem leDigits_zero : leDigits 0 = [] := by rw [leDigits]; simp

theorem leDigits_pos (n : Nat) (h : n ≠ 0) : leDigits n = UInt8.ofNat n :: leDigits (n / 256) := by
  rw [leDigits]; simp [h]

theorem beNat_reverse_leDigits (n : Nat) : beNat (leDigits n).reverse = n := by
  induction n using Nat.strongRecOn with
  | ind n ih =>
    by_cases h : n = 0
    · subst h; rw [leDigits_zero]; rfl
    · rw [leDigits_pos n h, List.reverse_cons, beNat_append, ih (n / 256) (by omega)]
      simp only [beNat_cons, beNat_nil, List.length_cons, List.length_nil, UInt8.toNat_ofNat']
      omega

theorem leDigits_bounds (n : Nat) (h : n ≠ 0) :
    0 < (leDigits n).length ∧ 256 ^ ((leDigits n).length - 1) ≤ n ∧ n < 256 ^ (leDigits n).length := by
  induction n using Nat.strongRecOn with
  | ind n ih =>
    rw [leDigits_pos n h]
    by_cases h2 : n / 256 = 0
    · rw [h2, leDigits_zero]; simp; omega
    · obtain ⟨a, b, c⟩ := ih (n / 256) (by omega) h2
      refine ⟨by simp, ?_, ?_⟩
      · simp only [List.length_cons, Nat.add_sub_cancel]
        have e : (leDigits (n / 256)).length = (leDigits (n / 256)).length - 1 + 1 := by omega
        rw [e, Nat.pow_succ]
        omega
      · simp only [List.length_cons, Nat.pow_succ]
        omega

theorem biguintToBytesLE_length_pos (n : Nat) : 0 < (biguintToBytesLE n).length := by
  unfold biguintToBytesLE
  split
  · simp
  · rename_i h; exact (leDigits_bounds n h).1

theorem beNat_reverse_biguint (n : Nat) : beNat (biguintToBytesLE n).reverse = n := by
  unfold biguintToBytesLE
  split
  · rename_i h; subst h; rfl
  · exact beNat_reverse_leDigits n

theorem biguint_length_le (n : Nat) : (biguintToBytesLE n).length ≤ 255 ↔ n < 256 ^ 255 := by
  unfold biguintToBytesLE
  by_cases h : n = 0
  · subst h; simp
  · rw [if_neg h]
    obtain ⟨a, b, c⟩ := leDigits_bounds n h
    constructor
    · intro hl
      exact Nat.lt_of_lt_of_le c (Nat.pow_le_pow_right (by decide) hl)
    · intro hn
      rcases Nat.lt_or_ge 255 (leDigits n).length with hl | hl
      · have := Nat.pow_le_pow_right (n := 256) (by decide) (show 255 ≤ (leDigits n).length - 1 by omega)
        omega
      · exact hl

theorem dumpBiguint_ok (n : Nat) (buf : Bytes) (h : n < 256 ^ 255) :
    dumpBiguint n buf =
      .ok (buf ++ UInt8.ofNat (biguintToBytesLE n).length :: (biguintToBytesLE n).reverse) := by
  unfold dumpBiguint
  have := (biguint_length_le n).mpr h
  simp only
  rw [if_neg (by omega)]
  simp

theorem dumpBiguint_err (n : Nat) (buf : Bytes) (h : ¬ n < 256 ^ 255) :
    dumpBiguint n buf = .err .biguintDump := by
  unfold dumpBiguint
  have := mt (biguint_length_le n).mp h
  simp only
  rw [if_pos (by omega)]

theorem loadBiguint_cons (ds rest : Bytes) (h : ds.length ≤ 255) :
    loadBiguint (UInt8.ofNat ds.length :: (ds ++ rest)) = .ok (beNat ds, ds.length + 1) := by
  unfold loadBiguint
  simp only [idx_cons_zero, Outcome.ok_bind, toNat_ofNat_small h]
  rw [if_neg (by simp; omega), slice_cons_append]
  simp

theorem bigintSize_eq (n : Nat) : bigintSize n = (biguintToBytesLE n).length + 1 := by
  unfold bigintSize natBits biguintToBytesLE
  by_cases h : n = 0
  · subst h; rfl
  · obtain ⟨a, b, c⟩ := leDigits_bounds n h
    have := bytes_bits h a b c
    simp only [h, if_false]
    rw [if_neg (by omega), this]

/-! ### Exact behaviour of the loaders -/

theorem slice_ok {data s : Bytes} {i j : Nat} :
    slice data i j = .ok s ↔ j ≤ data.length ∧ s = (data.drop i).take (j - i) := by
  unfold slice
  split
  · rename_i h; simp [h, eq_comm]
  · rename_i h; simp [h]

theorem loadU256_ok_iff (data : Bytes) (v : U256) (k : Nat) :
    loadU256 data = .ok (v, k) ↔
      ∃ ds rest, data = UInt8.ofNat k :: (ds ++ rest) ∧ ds.length = k ∧ k ≤ 32 ∧ beNat ds = v.val := by
  constructor
  · intro h
    cases data with
    | nil => simp [loadU256, idx] at h
    | cons x xs =>
      unfold loadU256 at h
      simp only [idx_cons_zero, Outcome.ok_bind] at h
      split at h
      · cases h
      · rename_i h32
        split at h
        · cases h
        · unfold slice at h
          split at h
          · rename_i hj
            simp only [Outcome.ok_bind] at h
            unfold U256.fromBE at h
            split at h
            · simp only [Outcome.ok_bind, Outcome.pure_eq, Outcome.ok.injEq, Prod.mk.injEq] at h
              obtain ⟨hv, hk⟩ := h
              simp only [List.length_cons] at hj
              refine ⟨xs.take k, xs.drop k, ?_, ?_, by omega, ?_⟩
              · rw [List.take_append_drop, ← hk]
                congr 1
                simp
              · simp; omega
              · rw [← hv, ← hk]; simp
            · simp at h
          · simp at h
  · rintro ⟨ds, rest, rfl, hl, hk, hv⟩
    subst hl
    unfold loadU256
    simp only [idx_cons_zero, Outcome.ok_bind, toNat_ofNat_small (show ds.length ≤ 255 by omega)]
    rw [if_neg (by omega), if_neg (by simp; omega), slice_cons_append]
    simp only [Outcome.ok_bind, U256.fromBE, hk, dite_true, Outcome.pure_eq, Outcome.ok.injEq,
      Prod.mk.injEq, and_true]
    exact U256.ext hv

/-- The loader panics exactly on the empty string and on a string cut one byte short. -/
theorem loadU256_safe_iff (data : Bytes) :
    (loadU256 data).Safe ↔
      ∃ x xs, data = x :: xs ∧ ¬ (x.toNat ≤ 32 ∧ xs.length + 1 = x.toNat) := by
  cases data with
  | nil => simp [loadU256, idx]
  | cons x xs =>
    unfold loadU256
    simp only [idx_cons_zero, Outcome.ok_bind, List.length_cons, List.cons.injEq, exists_and_left,
      exists_eq_left', and_assoc]
    split
    · rename_i h; simp; intro h'; omega
    · rename_i h
      split
      · rename_i h2; simp; intro _; omega
      · rename_i h2
        unfold slice
        simp only [List.length_cons]
        split
        · rename_i h3
          have hf : (U256.fromBE (((x :: xs).drop 1).take (1 + x.toNat - 1))) ≠ .panic .assertion ∧ True := by
            constructor
            · unfold U256.fromBE; rw [dif_pos (by simp; omega)]; simp
            · trivial
          simp only [Outcome.ok_bind]
          unfold U256.fromBE
          rw [dif_pos (by simp; omega)]
          simp; intro _; omega
        · rename_i h3; simp; omega

theorem loadBiguint_safe_iff (data : Bytes) :
    (loadBiguint data).Safe ↔ ∃ x xs, data = x :: xs ∧ xs.length + 1 ≠ x.toNat := by
  cases data with
  | nil => simp [loadBiguint, idx]
  | cons x xs =>
    unfold loadBiguint
    simp only [idx_cons_zero, Outcome.ok_bind, List.length_cons, List.cons.injEq, exists_and_left,
      exists_eq_left', and_assoc]
    split
    · rename_i h; simp; omega
    · rename_i h
      unfold slice
      simp only [List.length_cons]
      split
      · simp; omega
      · simp; omega

end BCT
