import Verif.Lemmas.Codec2
import Verif.Lemmas.Merkle
/-! Leading zeros, difficulty, fee. -/

namespace BCT
open Spec

/-! ### Leading zeros -/

theorem log2_byte (b : UInt8) (h : b ≠ 0) : b.toNat.log2 ≤ 7 ∧ 2 ^ b.toNat.log2 ≤ b.toNat ∧ b.toNat < 2 ^ (b.toNat.log2 + 1) := by
  have h0 : b.toNat ≠ 0 := by
    intro h1; exact h (UInt8.toNat_inj.mp (by simpa using h1))
  refine ⟨?_, Nat.log2_self_le h0, Nat.lt_log2_self⟩
  have : b.toNat.log2 < 8 := (Nat.log2_lt h0).mpr (by have := b.toNat_lt; omega)
  omega

theorem isBitLength_unique {n k k' : Nat} (h : IsBitLength n k) (h' : IsBitLength n k') : k = k' :=
  Nat.le_antisymm (h.2 _ h'.1) (h'.2 _ h.1)

theorem isBitLength_of_bounds {n k : Nat} (h1 : 2 ^ k ≤ n) (h2 : n < 2 ^ (k + 1)) : IsBitLength n (k + 1) := by
  refine ⟨h2, fun j hj => ?_⟩
  rcases Nat.lt_or_ge k j with h | h
  · exact h
  · have := Nat.pow_le_pow_right (n := 2) (by decide) h
    omega

theorem clz_bitLength (b : Bytes) :
    ∃ k, IsBitLength (Spec.value b) k ∧ countLeadingZeros b + k = 8 * b.length := by
  induction b with
  | nil => exact ⟨0, ⟨by decide, fun _ _ => Nat.zero_le _⟩, rfl⟩
  | cons x xs ih =>
    obtain ⟨k, hk, hc⟩ := ih
    by_cases hx : x = 0
    · subst hx
      refine ⟨k, by simpa [Spec.value] using hk, ?_⟩
      simp [countLeadingZeros, u8LeadingZeros]; omega
    · obtain ⟨h7, hlo, hhi⟩ := log2_byte x hx
      refine ⟨x.toNat.log2 + 8 * xs.length + 1, ?_, ?_⟩
      · apply isBitLength_of_bounds
        · rw [Spec.value, Nat.pow_add, Nat.pow_mul]
          have := Nat.mul_le_mul_right (256 ^ xs.length) hlo
          simp only [Nat.reducePow] at *
          omega
        · rw [Spec.value, value_eq_beNat, show x.toNat.log2 + 8 * xs.length + 1 = x.toNat.log2 + 1 + 8 * xs.length by omega,
            Nat.pow_add, Nat.pow_mul]
          have h1 := beNat_lt xs
          have h2 := Nat.mul_le_mul_right (256 ^ xs.length) (show x.toNat + 1 ≤ 2 ^ (x.toNat.log2 + 1) from hhi)
          rw [Nat.add_mul, Nat.one_mul] at h2
          simp only [show (2 : Nat) ^ 8 = 256 from rfl] at *
          omega
      · have : countLeadingZeros (x :: xs) = 7 - x.toNat.log2 := by
          simp only [countLeadingZeros, u8LeadingZeros, hx, if_false]
          rw [if_pos (by omega)]
        rw [this, List.length_cons]; omega

theorem clz_le (b : Bytes) : countLeadingZeros b ≤ 8 * b.length := by
  obtain ⟨k, _, h⟩ := clz_bitLength b; omega

theorem clz_le_256 (h : Hash) : countLeadingZeros h.val ≤ 256 := by
  have := clz_le h.val
  rw [h.property] at this; exact this

theorem one_le_clz (x : UInt8) (xs : Bytes) : 1 ≤ countLeadingZeros (x :: xs) ↔ x.toNat < 128 := by
  simp only [countLeadingZeros, u8LeadingZeros]
  by_cases hx : x = 0
  · subst hx; simp; omega
  · obtain ⟨h7, hlo, hhi⟩ := log2_byte x hx
    simp only [hx, if_false]
    rw [if_pos (by omega)]
    constructor
    · intro h
      have := Nat.pow_le_pow_right (n := 2) (by decide) (show x.toNat.log2 + 1 ≤ 7 by omega)
      omega
    · intro h
      rcases Nat.lt_or_ge x.toNat.log2 7 with h1 | h1
      · omega
      · have := Nat.pow_le_pow_right (n := 2) (by decide) h1
        omega

/-! ### Recalculation as three cases -/

/-- Effect of a fast block. -/
def harder (d : Hash) : Outcome Hash := modifyUnchecked d (firstNonZero d.val) (fun v => v >>> 1)

/-- Effect of a slow block. -/
def easier (E : Env) (d : Hash) : Outcome Hash :=
  let i := firstNonZero d.val
  let val := d.val.getD i 0
  if i = 0 ∧ val = 0x7f then .ok d
  else if val = 0xFF then
    if i = 0 then
      if E.overflowChecks then .panic .overflow else .ub
    else modifyUnchecked d (i - 1) (fun v => (v <<< 1) + 1)
  else modifyUnchecked d i (fun v => (v <<< 1) + 1)

/-- The three cases by elapsed time. -/
def stepBy (E : Env) (delta : UInt64) (d : Hash) : Outcome Hash :=
  if delta < 600 then harder d else if delta > 600 then easier E d else .ok d

theorem recalculate_eq (E : Env) (prev ts : UInt64) (d : Hash) :
    recalculateDifficulty E prev ts d = (u64Sub E ts prev >>= fun delta => stepBy E delta d) := rfl

theorem u64Sub_inorder (E : Env) (prev ts : UInt64) (h : prev ≤ ts) : u64Sub E ts prev = .ok (ts - prev) := by
  unfold u64Sub
  rw [if_neg]
  rintro ⟨_, h2⟩
  exact absurd (UInt64.lt_of_le_of_lt h h2) (UInt64.lt_irrefl _)

theorem recalculate_inorder (E : Env) (prev ts : UInt64) (d : Hash) (h : prev ≤ ts) :
    recalculateDifficulty E prev ts d = stepBy E (ts - prev) d := by
  rw [recalculate_eq, u64Sub_inorder E prev ts h, Outcome.ok_bind]

theorem toNat_sub_inorder (prev ts : UInt64) (h : prev ≤ ts) : (ts - prev).toNat = ts.toNat - prev.toNat :=
  UInt64.toNat_sub_of_le _ _ h

/-! ### First byte `2^j - 1` -/

/-- The first byte is one of 0, 1, 3, 7, 15, 31, 63, 127. -/
def GoodHead (d : Hash) : Prop := ∃ x xs, d.val = x :: xs ∧ ∃ j, j ≤ 7 ∧ x.toNat = 2 ^ j - 1

theorem firstNonZero_cons_ne (x : UInt8) (xs : Bytes) (h : x ≠ 0) : firstNonZero (x :: xs) = 0 := by
  simp [firstNonZero, List.findIdx?_cons, h]

theorem firstNonZero_cons_zero (xs : Bytes) :
    firstNonZero (0 :: xs) = match xs.findIdx? (· ≠ 0) with
      | some i => i + 1
      | none => 0 := by
  simp only [firstNonZero, List.findIdx?_cons]
  cases h : xs.findIdx? (· ≠ 0) <;> simp_all

theorem firstNonZero_lt (d : Hash) : firstNonZero d.val < 32 := by
  unfold firstNonZero
  cases h : d.val.findIdx? (· ≠ 0) with
  | none => simp
  | some i =>
    obtain ⟨h, _⟩ := List.findIdx?_eq_some_iff_getElem.mp h
    simp only [Option.getD_some]
    rwa [d.property] at h

theorem modifyUnchecked_ok {n : Nat} (d : BytesN n) (i : Nat) (f : UInt8 → UInt8) (h : i < n) :
    ∃ d' : BytesN n, modifyUnchecked d i f = .ok d' ∧ d'.val = d.val.modify i f := by
  unfold modifyUnchecked; rw [if_pos h]; exact ⟨_, rfl, rfl⟩

theorem good_shr : ∀ x : UInt8, (∃ j, j ≤ 7 ∧ x.toNat = 2 ^ j - 1) → ∃ j, j ≤ 7 ∧ (x >>> 1).toNat = 2 ^ j - 1 := by
  intro x ⟨j, hj, hx⟩
  have : x = UInt8.ofNat (2 ^ j - 1) := by
    apply UInt8.toNat_inj.mp
    rw [hx, toNat_ofNat_small]
    have := Nat.pow_le_pow_right (n := 2) (by decide) hj
    omega
  subst this
  refine ⟨j - 1, by omega, ?_⟩
  have h8 : ∀ j : Fin 8, (UInt8.ofNat (2 ^ j.val - 1) >>> 1).toNat = 2 ^ (j.val - 1) - 1 := by decide
  exact h8 ⟨j, by omega⟩

theorem good_shl : ∀ x : UInt8, (∃ j, j ≤ 7 ∧ x.toNat = 2 ^ j - 1) → x ≠ 0x7f →
    ∃ j, j ≤ 7 ∧ ((x <<< 1) + 1).toNat = 2 ^ j - 1 := by
  intro x ⟨j, hj, hx⟩ hne
  have : x = UInt8.ofNat (2 ^ j - 1) := by
    apply UInt8.toNat_inj.mp
    rw [hx, toNat_ofNat_small]
    have := Nat.pow_le_pow_right (n := 2) (by decide) hj
    omega
  subst this
  have hj7 : j ≠ 7 := by rintro rfl; exact hne (by decide)
  refine ⟨j + 1, by omega, ?_⟩
  have h7 : ∀ j : Fin 7, ((UInt8.ofNat (2 ^ j.val - 1) <<< 1) + 1).toNat = 2 ^ (j.val + 1) - 1 := by decide
  exact h7 ⟨j, by omega⟩

theorem harder_good (d : Hash) (h : GoodHead d) : ∃ d', harder d = .ok d' ∧ GoodHead d' := by
  obtain ⟨x, xs, hd, hx⟩ := h
  obtain ⟨d', h1, h2⟩ := modifyUnchecked_ok d _ (fun v => v >>> 1) (firstNonZero_lt d)
  refine ⟨d', h1, ?_⟩
  rw [hd] at h2
  cases hi : firstNonZero (x :: xs) with
  | zero =>
    rw [hi, List.modify_zero_cons] at h2
    exact ⟨_, _, h2, good_shr x hx⟩
  | succ i =>
    rw [hi, List.modify_succ_cons] at h2
    exact ⟨_, _, h2, hx⟩

theorem easier_good (E : Env) (d : Hash) (h : GoodHead d) : ∃ d', easier E d = .ok d' ∧ GoodHead d' := by
  have hg := h
  obtain ⟨x, xs, hd, hx⟩ := h
  have hlt := firstNonZero_lt d
  unfold easier
  simp only
  split
  · exact ⟨d, rfl, hg⟩
  · rename_i hne
    split
    · rename_i hff
      split
      · rename_i h0
        exfalso
        rw [h0, hd] at hff
        have : x = 0xFF := by simpa using hff
        obtain ⟨j, hj, hxj⟩ := hx
        rw [this] at hxj
        have := Nat.pow_le_pow_right (n := 2) (by decide) hj
        simp at hxj
        omega
      · rename_i h0
        obtain ⟨d', h1, h2⟩ := modifyUnchecked_ok d (firstNonZero d.val - 1) (fun v => (v <<< 1) + 1) (by omega)
        refine ⟨d', h1, ?_⟩
        have hx0 : x = 0 := by
          by_cases hx0 : x = 0
          · exact hx0
          · rw [hd, firstNonZero_cons_ne x xs hx0] at h0; exact absurd rfl h0
        rw [hd] at h2
        cases hi : firstNonZero (x :: xs) - 1 with
        | zero =>
          rw [hi, List.modify_zero_cons] at h2
          exact ⟨_, _, h2, 1, by decide, by subst hx0; decide⟩
        | succ i =>
          rw [hi, List.modify_succ_cons] at h2
          exact ⟨_, _, h2, hx⟩
    · rename_i hff
      obtain ⟨d', h1, h2⟩ := modifyUnchecked_ok d _ (fun v => (v <<< 1) + 1) hlt
      refine ⟨d', h1, ?_⟩
      rw [hd] at h2 hne
      cases hi : firstNonZero (x :: xs) with
      | zero =>
        rw [hi, List.modify_zero_cons] at h2
        refine ⟨_, _, h2, good_shl x hx ?_⟩
        rintro rfl
        exact hne ⟨hi, by rw [hi]; rfl⟩
      | succ i =>
        rw [hi, List.modify_succ_cons] at h2
        exact ⟨_, _, h2, hx⟩

theorem stepBy_good (E : Env) (delta : UInt64) (d : Hash) (h : GoodHead d) :
    ∃ d', stepBy E delta d = .ok d' ∧ GoodHead d' := by
  unfold stepBy
  split
  · exact harder_good d h
  · split
    · exact easier_good E d h
    · exact ⟨d, rfl, h⟩

theorem good_clz (d : Hash) (h : GoodHead d) : 1 ≤ countLeadingZeros d.val ∧ countLeadingZeros d.val ≤ 256 := by
  refine ⟨?_, clz_le_256 d⟩
  obtain ⟨x, xs, hd, j, hj, hx⟩ := h
  rw [hd, one_le_clz, hx]
  have := Nat.pow_le_pow_right (n := 2) (by decide) hj
  omega

theorem good_beginning : GoodHead BEGINNING_DIFFICULTY := ⟨0x7f, _, rfl, 7, by decide, by decide⟩

/-! ### The regular difficulties `2^(256-k) - 1` -/

/-- The difficulty with `k` zero bits followed by ones. -/
def regular (k : Nat) : Hash := ⟨beBytes 32 (2 ^ (256 - k) - 1), beBytes_length _ _⟩

theorem regular_one : regular 1 = BEGINNING_DIFFICULTY := by decide +kernel

theorem harder_regular : ∀ k : Fin 256, harder (regular k.val) = .ok (regular (k.val + 1)) := by
  decide +kernel

theorem easier_regular_aux : ∀ k : Fin 256, 1 ≤ k.val → easier ⟨fun _ => BytesN.fill 32 0, true⟩ (regular k.val) =
    .ok (regular (max (k.val - 1) 1)) := by
  decide +kernel

theorem easier_env (E E' : Env) (d : Hash) (h : easier E d ≠ .panic .overflow) (h2 : easier E d ≠ .ub) :
    easier E' d = easier E d := by
  revert h h2
  unfold easier
  simp only
  split
  · intros; rfl
  · split
    · split
      · intro h1 h2
        exfalso
        revert h1 h2
        cases E.overflowChecks <;> simp
      · intros; rfl
    · intros; rfl

theorem easier_regular (E : Env) (k : Nat) (h1 : 1 ≤ k) (h2 : k < 256) :
    easier E (regular k) = .ok (regular (max (k - 1) 1)) := by
  have := easier_regular_aux ⟨k, h2⟩ h1
  rw [← this]
  apply easier_env <;> rw [this] <;> simp

theorem clz_regular : ∀ k : Fin 257, countLeadingZeros (regular k.val).val = k.val := by decide +kernel

theorem value_regular (k : Nat) : Spec.value (regular k).val = 2 ^ (256 - k) - 1 := by
  rw [value_eq_beNat]
  show beNat (beBytes 32 _) = _
  rw [beNat_beBytes, Nat.mod_eq_of_lt]
  have : 2 ^ (256 - k) ≤ 2 ^ 256 := Nat.pow_le_pow_right (by decide) (by omega)
  have h2 : (256 : Nat) ^ 32 = 2 ^ 256 := by decide
  have h3 : 0 < 2 ^ (256 - k) := Nat.pow_pos (by decide)
  omega

end BCT
