import Verif.Lemmas.Codec2
/-!
# C01 – C06: integer codecs (tools.rs)
-/

namespace BCT.Props
open BCT

/-! ## C01 -/

/-- C01. Loading a serialized 256-bit integer followed by anything returns the integer, and the
reported size plus one is the number of bytes the serialization occupies. Serializing into a
non-empty buffer only appends. -/
theorem C01_u256_roundtrip (n : U256) (buffer rest : Bytes) :
    (∃ k, loadU256 (dumpU256 n [] ++ rest) = .ok (n, k) ∧ (dumpU256 n []).length = k + 1) ∧
    dumpU256 n buffer = buffer ++ dumpU256 n [] := by
  exact ⟨⟨(minBE n).length, loadU256_encU256 n rest, encU256_length n⟩, dumpU256_append n buffer⟩

/-- The number of the unit test in tools.rs:261, loaded in front of two other bytes. -/
example : loadU256 (dumpU256 ⟨10000000000000000000001000000001, by decide⟩ [] ++ [7, 9]) =
    .ok (⟨10000000000000000000001000000001, by decide⟩, 13) := by decide +kernel

/-! ## C02 -/

/-- C02. The serialization is a length byte followed by the big-endian digits without leading zero. -/
theorem C02_u256_minimal (n : U256) :
    ∃ ds : Bytes, dumpU256 n [] = UInt8.ofNat ds.length :: ds ∧ ds.length ≤ 32 ∧
      Spec.value ds = n.val ∧ ds.head? ≠ some 0 ∧ (ds = [] ↔ n.val = 0) := by
  refine ⟨minBE n, encU256_eq n, minBE_length n, ?_, ?_, minBE_zero n⟩
  · rw [value_eq_beNat, beNat_minBE]
  · cases h : minBE n with
    | nil => simp
    | cons x xs => simpa using minBE_head n x xs h

/-- C02. No serialization followed by anything can be read as another one followed by anything. -/
theorem C02_u256_prefix_free (a b : U256) (r s : Bytes)
    (h : dumpU256 a [] ++ r = dumpU256 b [] ++ s) : a = b ∧ r = s := by
  have ha := loadU256_encU256 a r
  have hb := loadU256_encU256 b s
  rw [show encU256 a ++ r = encU256 b ++ s from h, hb] at ha
  simp only [Outcome.ok.injEq, Prod.mk.injEq] at ha
  obtain ⟨rfl, _⟩ := ha
  exact ⟨rfl, List.append_cancel_left h⟩

example : dumpU256 ⟨0x0102, by decide⟩ [] = [2, 1, 2] ∧ dumpU256 U256.zero [] = [0] := by decide +kernel

/-! ## C03 (integers; blocks and transactions are in `Props.Blocks`) -/

/-- C03 at full strength for integers. -/
def C03_full_u256 : Prop := ∀ n : U256, u256Size n = (dumpU256 n []).length

/-- C03 is false of the code: zero is announced with 2 bytes and written with 1. -/
theorem C03_refuted_u256 : ¬ C03_full_u256 := by
  intro h
  have := h U256.zero
  revert this; decide +kernel

/-- C03, exact: the announced size exceeds the real one by one exactly for zero. -/
theorem C03_u256_size_partial (n : U256) :
    u256Size n = (dumpU256 n []).length + (if n.val = 0 then 1 else 0) := u256Size_exact n

/-! ## C04 -/

/-- C04 at full strength. -/
def C04_full : Prop := (∀ data, (loadU256 data).Safe) ∧ (∀ data, (loadBiguint data).Safe)

/-- C04 is false of the code: an empty string and a number cut one byte short panic
(the length check of tools.rs:65 and :114 is off by one). -/
theorem C04_refuted :
    loadU256 [] = .panic .index ∧ loadU256 [2, 7] = .panic .index ∧
    loadBiguint [] = .panic .index ∧ loadBiguint [2, 7] = .panic .index ∧ ¬ C04_full := by
  refine ⟨by decide +kernel, by decide +kernel, by decide +kernel, by decide +kernel, ?_⟩
  intro h
  have := h.1 []
  revert this; decide +kernel

/-- C04, exact: which inputs are handled without a panic. A non-empty input panics only if its
length equals its first byte (at most 32 for `load_u256`). Missing from the full statement: those
inputs and the empty one. -/
theorem C04_load_safe_partial (data : Bytes) :
    ((loadU256 data).Safe ↔
      ∃ x xs, data = x :: xs ∧ ¬ (x.toNat ≤ 32 ∧ data.length = x.toNat)) ∧
    ((loadBiguint data).Safe ↔ ∃ x xs, data = x :: xs ∧ data.length ≠ x.toNat) := by
  constructor
  · rw [loadU256_safe_iff]
    constructor <;> (rintro ⟨x, xs, rfl, h⟩; exact ⟨x, xs, rfl, by simpa using h⟩)
  · rw [loadBiguint_safe_iff]
    constructor <;> (rintro ⟨x, xs, rfl, h⟩; exact ⟨x, xs, rfl, by simpa using h⟩)

/-- C04, what a successful load means: the first byte `k ≤ 32` is the size and the value is that of
the next `k` bytes, all of which are present. -/
theorem C04_load_ok (data : Bytes) (v : U256) (k : Nat) :
    loadU256 data = .ok (v, k) ↔
      ∃ ds rest, data = UInt8.ofNat k :: (ds ++ rest) ∧ ds.length = k ∧ k ≤ 32 ∧ Spec.value ds = v.val := by
  simp only [value_eq_beNat]
  exact loadU256_ok_iff data v k

example : loadU256 [2, 1, 2, 99] = .ok (⟨258, by decide⟩, 2) := by decide +kernel
example : (loadU256 [3, 1]).Safe := by decide +kernel

/-! ## C05 -/

/-- C05. `dump_biguint` fails exactly above 255 bytes. -/
theorem C05_biguint_dump_total (n : Nat) (buffer : Bytes) :
    (n < 256 ^ 255 → ∃ d, dumpBiguint n buffer = .ok (buffer ++ d)) ∧
    (256 ^ 255 ≤ n → dumpBiguint n buffer = .err .biguintDump) :=
  ⟨fun h => ⟨_, dumpBiguint_ok n buffer h⟩, fun h => dumpBiguint_err n buffer (by omega)⟩

/-- C05. Round trip with anything after the dump; consumed length and announced size are exact. -/
theorem C05_biguint_roundtrip (n : Nat) (d rest : Bytes) (h : dumpBiguint n [] = .ok d) :
    loadBiguint (d ++ rest) = .ok (n, d.length) ∧ bigintSize n = d.length := by
  by_cases hn : n < 256 ^ 255
  · rw [dumpBiguint_ok n [] hn] at h
    cases h
    have hl := (biguint_length_le n).mpr hn
    have := loadBiguint_cons (biguintToBytesLE n).reverse rest (by simpa using hl)
    simp only [List.length_reverse, beNat_reverse_biguint] at this
    exact ⟨by simpa using this, by simp [bigintSize_eq]⟩
  · rw [dumpBiguint_err n [] hn] at h; cases h

example : dumpBiguint 65536 [] = .ok [3, 1, 0, 0] := by
  rw [dumpBiguint_ok _ _ (Nat.lt_of_lt_of_le (by decide) (Nat.pow_le_pow_right (by decide) (show 3 ≤ 255 by decide)))]
  simp [biguintToBytesLE, leDigits]

/-! ## C06 -/

/-- C06. A 256-bit integer written with `dump_u256` is read back by `load_biguint`. -/
theorem C06_formats_agree (n : U256) (rest : Bytes) :
    loadBiguint (dumpU256 n [] ++ rest) = .ok (n.val, (dumpU256 n []).length) := by
  have := loadBiguint_cons (minBE n) rest (by have := minBE_length n; omega)
  have e := encU256_eq n
  simp only [encU256] at e
  rw [e, List.cons_append, this, beNat_minBE]
  simp

example : loadBiguint (dumpU256 ⟨300, by decide⟩ []) = .ok (300, 3) := by decide +kernel

end BCT.Props
