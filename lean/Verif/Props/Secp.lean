import Verif.Lemmas.Secp
import Verif.Props.Tx
/-!
# Signatures: C15 with secp256k1 itself, C108, C109, C110
-/

namespace BCT

namespace Spec

/-- SEC 1, 4.1.4: the signature is valid for the public key and the message. The scalars are those of the field of `n`
elements, the points those of Mathlib's group. libsecp256k1 asks in addition that `s` be at most half of `n`. -/
def EcdsaValid (Q : secp256k1.Point) (z r s : Nat) : Prop :=
  0 < r ∧ 0 < s ∧ s ≤ Secp.n / 2 ∧ ∃ x y h, ((z : ZMod Secp.n) / s).val • base + ((r : ZMod Secp.n) / s).val • Q = .some x y h ∧
    x.val % Secp.n = r

/-- SEC 1, 2.3.3: the compressed form of a point. -/
def Compressed (pk : Address) (P : secp256k1.Point) : Prop :=
  ∃ x y h, P = .some x y h ∧ pk.val = (if y.val % 2 = 1 then 3 else 2) :: beBytes 32 x.val

end Spec

namespace Secp

open BCT.Spec

theorem n_pos : 0 < n := by decide +kernel
theorem n_lt : n < 2 ^ 256 := by decide +kernel
theorem p_lt : p < 2 ^ 256 := by decide +kernel

instance : NeZero n := ⟨by decide +kernel⟩
instance : NeZero p := ⟨by decide +kernel⟩

theorem mod_nsmul {P : secp256k1.Point} (h : n • P = 0) (a : Nat) : (a % n) • P = a • P := by
  conv_rhs => rw [← Nat.mod_add_div a n, add_nsmul, mul_comm, mul_nsmul, smul_comm, h]
  simp

/-- Scalars count modulo `n`. -/
theorem smul_eq {a b : Nat} (h : (a : ZMod n) = b) : a • base = b • base := by
  rw [← mod_nsmul n_base a, ← mod_nsmul n_base b, (ZMod.natCast_eq_natCast_iff' a b n).mp h]

theorem smul_inj {a b : Nat} (h : a • base = b • base) : (a : ZMod n) = b := by
  rw [ZMod.natCast_eq_natCast_iff, ← order_base]
  exact nsmul_eq_nsmul_iff_modEq.mp h

theorem val_div (a s : Nat) : ((a : ZMod n) / s).val = a * inv n s % n := by
  rw [← ZMod.val_natCast, Nat.cast_mul, cast_invn, div_eq_mul_inv]

theorem rep_some {x y : Nat} {P : secp256k1.Point} (h : Rep (some (x, y)) P) :
    ∃ hn : secp256k1.Nonsingular (x : ZMod p) (y : ZMod p), x < p ∧ y < p ∧ P = .some _ _ hn := by
  cases h with
  | some hx hy hn => exact ⟨hn, hx, hy, rfl⟩

theorem val_cast {x : Nat} (h : x < p) : (x : ZMod p).val = x := ZMod.val_cast_of_lt h

/-- The verdict is the one SEC 1 defines. -/
theorem verify_iff {Q : Nat × Nat} {Q' : secp256k1.Point} (hQ : Rep (some Q) Q') (z r s : Nat) :
    verify Q z r s = true ↔ EcdsaValid Q' z r s := by
  unfold verify EcdsaValid
  rw [val_div, val_div]
  have h1 := rep_mul (k := z * inv n s % n) (Nat.lt_trans (Nat.mod_lt _ n_pos) n_lt) rep_base
  have h2 := rep_mul (k := r * inv n s % n) (Nat.lt_trans (Nat.mod_lt _ n_pos) n_lt) hQ
  have hR := rep_add h1 h2
  by_cases hc : r = 0 ∨ s = 0 ∨ n / 2 < s
  · rw [if_pos hc]
    simp only [Bool.false_eq_true, false_iff]
    omega
  · rw [if_neg hc]
    simp only
    generalize add (mul (z * inv n s % n) G) (mul (r * inv n s % n) (some Q)) = R at hR
    generalize (z * inv n s % n) • base + (r * inv n s % n) • Q' = R' at hR ⊢
    cases R with
    | none =>
      rw [rep_none hR]
      simp only [Bool.false_eq_true, false_iff]
      rintro ⟨-, -, -, x, y, h, e, -⟩
      exact WeierstrassCurve.Affine.Point.some_ne_zero h e.symm
    | some xy =>
      obtain ⟨x, y⟩ := xy
      obtain ⟨hn, hx, hy, rfl⟩ := rep_some hR
      simp only [decide_eq_true_eq]
      constructor
      · intro h
        exact ⟨by omega, by omega, by omega, _, _, hn, rfl, by rw [val_cast hx]; exact h⟩
      · rintro ⟨-, -, -, x', y', h, e, hr⟩
        injection e with e1 e2
        rw [← e1, val_cast hx] at hr
        exact hr

/-- A signature made with any nonce is valid. -/
theorem signWith_valid {d z k r s : Nat} (h : signWith d z k = some (r, s)) :
    EcdsaValid (d • base) z r s ∧ r < n ∧ s < n := by
  unfold signWith at h
  split at h
  · cases h
  rename_i hk
  have hk0 : k < n := by omega
  have hR := rep_mul (k := k) (Nat.lt_trans hk0 n_lt) rep_base
  generalize hm : mul k G = R at h hR
  cases R with
  | none => cases h
  | some xy =>
    obtain ⟨x, y⟩ := xy
    obtain ⟨hn, hx, hy, he⟩ := rep_some hR
    simp only [Option.bind_eq_bind, Option.bind_some] at h
    split at h
    · cases h
    rename_i hrs
    rw [not_or] at hrs
    generalize hs0 : inv n k * (z + x % n * d) % n = s0 at h hrs
    have hs0n : s0 < n := by rw [← hs0]; exact Nat.mod_lt _ n_pos
    have hn2 : 2 * (n / 2) + 1 = n := by decide +kernel
    injection h with h
    injection h with hr hs
    subst hr
    have hkz : (k : ZMod n) ≠ 0 := by
      intro h
      rw [ZMod.natCast_eq_zero_iff] at h
      exact absurd (Nat.le_of_dvd (by omega) h) (by omega)
    have hcs0 : (s0 : ZMod n) = (k : ZMod n)⁻¹ * (z + (x % n : Nat) * d) := by
      rw [← hs0, ZMod.natCast_mod, Nat.cast_mul, cast_invn]
      push_cast
      ring
    have hs0z : (s0 : ZMod n) ≠ 0 := by
      intro h
      rw [ZMod.natCast_eq_zero_iff] at h
      exact absurd (Nat.le_of_dvd (by omega) h) (by omega)
    have hsum : ∀ a b : Nat, a • base + b • d • base = (a + b * d) • base := by
      intro a b
      rw [smul_smul, ← add_nsmul]
    refine ⟨⟨by omega, by split at hs <;> omega, by split at hs <;> omega, ?_⟩, Nat.mod_lt _ n_pos, by split at hs <;> omega⟩
    rw [hsum]
    have hmain : (z : ZMod n) + (x % n : Nat) * d = k * s0 := by
      rw [hcs0]
      field_simp
    by_cases hhigh : n / 2 < s0
    · rw [if_pos hhigh] at hs
      have hcs : (s : ZMod n) = -s0 := by
        rw [← hs, Nat.cast_sub (by omega), ZMod.natCast_self, zero_sub]
      have hpt : (((z : ZMod n) / s).val + ((x % n : Nat) / (s : ZMod n)).val * d) • base = (n - k) • base := by
        apply smul_eq
        rw [Nat.cast_add, Nat.cast_mul, ZMod.natCast_zmod_val, ZMod.natCast_zmod_val, Nat.cast_sub (by omega), ZMod.natCast_self,
          zero_sub, hcs]
        rw [div_mul_eq_mul_div, ← add_div, hmain]
        field_simp
      have hneg : (n - k) • base = -(k • base) := by
        rw [eq_neg_iff_add_eq_zero, ← add_nsmul, Nat.sub_add_cancel (by omega), n_base]
      rw [hpt, hneg, he, WeierstrassCurve.Affine.Point.neg_some]
      exact ⟨_, _, _, rfl, by rw [val_cast hx]⟩
    · rw [if_neg hhigh] at hs
      subst hs
      have hpt : (((z : ZMod n) / s0).val + ((x % n : Nat) / (s0 : ZMod n)).val * d) • base = k • base := by
        apply smul_eq
        rw [Nat.cast_add, Nat.cast_mul, ZMod.natCast_zmod_val, ZMod.natCast_zmod_val]
        rw [div_mul_eq_mul_div, ← add_div, hmain]
        field_simp
      rw [hpt, he]
      exact ⟨_, _, _, rfl, by rw [val_cast hx]⟩

/-! ## Public keys -/

/-- No point of the curve has `y = 0`: minus seven is not a cube. -/
theorem y_ne_zero {x : ZMod p} : x ^ 3 + 7 ≠ 0 := by
  intro h
  have hx : x ≠ 0 := by
    rintro rfl
    have h7 : ((7 : Nat) : ZMod p) = 0 := by push_cast; simpa using h
    rw [cast_eq_zero_iff] at h7
    revert h7
    decide +kernel
  have h3 : x ^ 3 = ((p - 7 : Nat) : ZMod p) := by
    rw [Nat.cast_sub (by decide +kernel), ZMod.natCast_self, zero_sub]
    push_cast
    linear_combination h
  have hpow : (x ^ 3) ^ ((p - 1) / 3) = 1 := by
    rw [← pow_mul, show 3 * ((p - 1) / 3) = p - 1 by decide +kernel]
    exact ZMod.pow_card_sub_one_eq_one hx
  rw [h3, ← cast_powMod p 256 _ _ (by decide +kernel)] at hpow
  have : powMod p 256 (p - 7) ((p - 1) / 3) = 1 := by
    have h1 : ((powMod p 256 (p - 7) ((p - 1) / 3) : Nat) : ZMod p) = ((1 : Nat) : ZMod p) := by rw [hpow, Nat.cast_one]
    rwa [cast_inj (by decide +kernel) (by decide +kernel)] at h1
  revert this
  decide +kernel

theorem sq_root {w : Nat} {y : ZMod p} (h : y ^ 2 = (w : ZMod p)) :
    ((powMod p 256 w ((p + 1) / 4) : Nat) : ZMod p) = y ∨ ((powMod p 256 w ((p + 1) / 4) : Nat) : ZMod p) = -y := by
  rw [cast_powMod _ _ _ _ (by decide +kernel), ← sq_eq_sq_iff_eq_or_eq_neg, ← pow_mul,
    show (p + 1) / 4 * 2 = (p - 1) / 2 + 1 by decide +kernel, pow_succ, ← h, ← pow_mul,
    show 2 * ((p - 1) / 2) = p - 1 by decide +kernel]
  by_cases hy : y = 0
  · simp [hy]
  · rw [ZMod.pow_card_sub_one_eq_one hy, one_mul]

theorem powMod_lt (a e : Nat) (h : e < 2 ^ 256) : powMod p 256 a e < p := by
  rw [powMod_eq _ _ _ _ h]
  exact Nat.mod_lt _ p_pos

theorem cast_w (x : Nat) : (((x * x * x + 7) % p : Nat) : ZMod p) = (x : ZMod p) ^ 3 + 7 := by
  rw [ZMod.natCast_mod]
  push_cast
  ring

/-- What `lift` returns is a point, with the parity asked for. -/
theorem lift_some {x x' y : Nat} {odd : Bool} (h : lift x odd = some (x', y)) :
    x' = x ∧ x < p ∧ y < p ∧ (y : ZMod p) ^ 2 = (x : ZMod p) ^ 3 + 7 ∧ ((y % 2 = 1) = (odd = true)) := by
  unfold lift at h
  split at h
  · cases h
  rename_i hx
  simp only [force_eq] at h
  have hlt : powMod p 256 ((x * x * x + 7) % p) ((p + 1) / 4) < p := powMod_lt _ _ (by decide +kernel)
  generalize powMod p 256 ((x * x * x + 7) % p) ((p + 1) / 4) = y0 at h hlt
  split at h
  · rename_i hsq
    have hc : (y0 : ZMod p) ^ 2 = (x : ZMod p) ^ 3 + 7 := by
      rw [← cast_w, ← hsq, ZMod.natCast_mod]
      push_cast
      ring
    have h0 : y0 ≠ 0 := by
      rintro rfl
      rw [Nat.cast_zero] at hc
      exact y_ne_zero (hc.symm.trans (by simp))
    injection h with h
    injection h with e1 e2
    have hodd : p % 2 = 1 := by decide +kernel
    refine ⟨e1.symm, by omega, ?_⟩
    split at e2
    · rename_i hp
      subst e2
      exact ⟨hlt, hc, hp⟩
    · rename_i hp
      subst e2
      have hm : (p - y0) % p = p - y0 := Nat.mod_eq_of_lt (by omega)
      rw [hm]
      refine ⟨by omega, ?_, ?_⟩
      · rw [Nat.cast_sub (by omega), ZMod.natCast_self, zero_sub, neg_sq]
        exact hc
      · cases odd
        · simp only [Bool.false_eq_true, eq_iff_iff, iff_false, not_not] at hp ⊢
          omega
        · simp only [eq_iff_iff, iff_true] at hp ⊢
          omega
  · cases h

theorem lift_of {x y : Nat} (hx : x < p) (hy : y < p) (h : (y : ZMod p) ^ 2 = (x : ZMod p) ^ 3 + 7) :
    lift x (decide (y % 2 = 1)) = some (x, y) := by
  unfold lift
  rw [if_neg (by omega)]
  simp only [force_eq]
  have hlt : powMod p 256 ((x * x * x + 7) % p) ((p + 1) / 4) < p := powMod_lt _ _ (by decide +kernel)
  have hroot := sq_root (w := (x * x * x + 7) % p) (y := (y : ZMod p)) (by rw [h, cast_w])
  generalize powMod p 256 ((x * x * x + 7) % p) ((p + 1) / 4) = y0 at hroot hlt
  have hy0 : y ≠ 0 := by
    rintro rfl
    rw [Nat.cast_zero] at h
    exact y_ne_zero (h.symm.trans (by simp))
  have hodd : p % 2 = 1 := by decide +kernel
  have hc : (y0 : ZMod p) ^ 2 = (x : ZMod p) ^ 3 + 7 := by
    rcases hroot with e | e <;> rw [e, ← h]
    ring
  have hsq : y0 * y0 % p = (x * x * x + 7) % p := by
    have : ((y0 * y0 % p : Nat) : ZMod p) = ((x * x * x + 7) % p : Nat) := by
      rw [cast_w, ← hc, ZMod.natCast_mod]
      push_cast
      ring
    rwa [cast_inj (Nat.mod_lt _ p_pos) (Nat.mod_lt _ p_pos)] at this
  rw [if_pos hsq]
  rcases hroot with e | e
  · rw [cast_inj hlt hy] at e
    subst e
    rw [if_pos (by simp)]
  · have hn : ((p - y : Nat) : ZMod p) = -(y : ZMod p) := by
      rw [Nat.cast_sub (by omega), ZMod.natCast_self, zero_sub]
    rw [← hn, cast_inj hlt (by omega)] at e
    subst e
    rw [if_neg (by simp only [decide_eq_true_eq, eq_iff_iff]; omega), show p - (p - y) = y by omega, Nat.mod_eq_of_lt hy]

theorem parsePub_cases {pk : Address} {Q : Nat × Nat} (h : parsePub pk = some Q) :
    ∃ x, ∃ odd : Bool, pk.val = (if odd then 3 else 2) :: x ∧ lift (beNat x) odd = some Q := by
  unfold parsePub at h
  split at h
  · rename_i x e
    exact ⟨x, false, e, h⟩
  · rename_i x e
    exact ⟨x, true, e, h⟩
  · cases h

/-- Accepted public keys are the compressed forms of points. -/
theorem parsePub_iff (pk : Address) (P : secp256k1.Point) : (∃ Q, parsePub pk = some Q ∧ Rep (some Q) P) ↔ Compressed pk P := by
  constructor
  · rintro ⟨⟨x', y⟩, h, hr⟩
    obtain ⟨xs, odd, e, hl⟩ := parsePub_cases h
    obtain ⟨rfl, hx, hy, -, hodd⟩ := lift_some hl
    obtain ⟨hn, -, -, rfl⟩ := rep_some hr
    refine ⟨_, _, hn, rfl, ?_⟩
    have hlen : xs.length = 32 := by
      have := pk.property
      rw [e] at this
      simpa using this
    rw [val_cast hx, val_cast hy, e]
    have hb := beBytes_beNat xs
    rw [hlen] at hb
    rw [hb]
    cases odd <;> simp_all
  · rintro ⟨x, y, hn, rfl, e⟩
    have hx := ZMod.val_lt x
    have hy := ZMod.val_lt y
    have hl := lift_of (x := x.val) (y := y.val) hx hy (by
      rw [ZMod.natCast_zmod_val, ZMod.natCast_zmod_val]; exact equation hn)
    have hb : beNat (beBytes 32 x.val) = x.val := by
      rw [beNat_beBytes]
      exact Nat.mod_eq_of_lt (Nat.lt_trans hx (by decide +kernel))
    refine ⟨(x.val, y.val), ?_, ?_⟩
    · unfold parsePub
      rw [e]
      by_cases hp : y.val % 2 = 1
      · rw [if_pos hp]
        show lift (beNat (beBytes 32 x.val)) true = _
        rw [hb]
        simpa [hp] using hl
      · rw [if_neg hp]
        show lift (beNat (beBytes 32 x.val)) false = _
        rw [hb]
        simpa [hp] using hl
    · refine rep_mk hx hy ?_ ?_ hn <;> exact ZMod.natCast_zmod_val _

theorem parsePub_point {pk : Address} {Q : Nat × Nat} (h : parsePub pk = some Q) : ∃ P, Rep (some Q) P ∧ Compressed pk P := by
  obtain ⟨xs, odd, e, hl⟩ := parsePub_cases h
  obtain ⟨x, y⟩ := Q
  obtain ⟨rfl, hx, hy, hc, -⟩ := lift_some hl
  have hr : Rep (some (beNat xs, y)) _ := Rep.some hx hy (nonsingular hc)
  exact ⟨_, hr, (parsePub_iff _ _).mp ⟨_, h, hr⟩⟩

theorem compressed_inj {pk pk' : Address} {P : secp256k1.Point} (h : Compressed pk P) (h' : Compressed pk' P) : pk = pk' := by
  obtain ⟨x, y, hn, rfl, e⟩ := h
  obtain ⟨x', y', hn', e1, e'⟩ := h'
  injection e1 with e1 e2
  subst e1 e2
  exact Subtype.ext (e.trans e'.symm)

theorem compressed_point {pk : Address} {P P' : secp256k1.Point} (h : Compressed pk P) (h' : Compressed pk P') : P = P' := by
  obtain ⟨Q, hq, hr⟩ := (parsePub_iff pk P).mpr h
  obtain ⟨Q', hq', hr'⟩ := (parsePub_iff pk P').mpr h'
  rw [hq] at hq'
  cases hq'
  obtain ⟨x, y⟩ := Q
  obtain ⟨_, _, _, rfl⟩ := rep_some hr
  obtain ⟨_, _, _, rfl⟩ := rep_some hr'
  rfl

theorem smul_ne_zero {d : Nat} (h0 : 0 < d) (hn : d < n) : d • base ≠ 0 := by
  intro h
  have := smul_inj (a := d) (b := 0) (by rw [h, zero_nsmul])
  rw [Nat.cast_zero, ZMod.natCast_eq_zero_iff] at this
  exact absurd (Nat.le_of_dvd h0 this) (by omega)

/-- The address of a key is the compressed form of the multiple of the base point. -/
theorem publicKey_iff (sk : BytesN 32) (pk : Address) : publicKey sk = some pk ↔
    (0 < beNat sk.val ∧ beNat sk.val < n) ∧ Compressed pk (beNat sk.val • base) := by
  unfold publicKey parseSec
  by_cases hd : 0 < beNat sk.val ∧ beNat sk.val < n
  · simp only [hd, if_true, and_self, true_and, Option.bind_eq_bind, Option.bind_some]
    have hR := rep_mul (k := beNat sk.val) (Nat.lt_trans hd.2 n_lt) rep_base
    generalize mul (beNat sk.val) G = R at hR
    cases R with
    | none => exact absurd (rep_none hR) (smul_ne_zero hd.1 hd.2)
    | some xy =>
      obtain ⟨x, y⟩ := xy
      obtain ⟨hn, hx, hy, he⟩ := rep_some hR
      have hc : Compressed (serialize x y) (beNat sk.val • base) := ⟨_, _, hn, he, by rw [val_cast hx, val_cast hy]; rfl⟩
      simp only [Option.bind_some, Option.some.injEq]
      exact ⟨fun e => e ▸ hc, fun h => compressed_inj hc h⟩
  · simp [hd]

/-! ## Signatures on the wire -/

theorem parseSig_serializeSig {r s : Nat} (hr : r < n) (hs : s < n) : parseSig (serializeSig r s) = some (r, s) := by
  have hb : ∀ k, k < n → beNat (beBytes 32 k) = k := by
    intro k hk
    rw [beNat_beBytes]
    exact Nat.mod_eq_of_lt (Nat.lt_trans hk (by decide +kernel))
  unfold parseSig serializeSig
  simp only [List.take_left' (beBytes_length 32 r), List.drop_left' (beBytes_length 32 r), hb r hr, hb s hs, hr, hs, and_self, if_true]

/-! ## Nonces exist -/

theorem small_ne_zero {k : Nat} (h0 : 0 < k) (hk : k < n) : (k : ZMod n) ≠ 0 := by
  intro h
  rw [ZMod.natCast_eq_zero_iff] at h
  exact absurd (Nat.le_of_dvd h0 h) (by omega)

/-- A nonce fails for one message only. -/
theorem signWith_none {d z k x y : Nat} (h0 : 0 < k) (hk : k < n) (hm : mul k G = some (x, y)) (hx : x % n ≠ 0) :
    (∃ s, signWith d z k = some (x % n, s)) ∨ (z : ZMod n) + ((x % n : Nat) : ZMod n) * d = 0 := by
  unfold signWith
  rw [if_neg (by omega), hm]
  simp only [Option.bind_eq_bind, Option.bind_some]
  split
  · rename_i h
    right
    have h := h.resolve_left hx
    have hc : ((inv n k * (z + x % n * d) % n : Nat) : ZMod n) = 0 := by rw [h, Nat.cast_zero]
    rw [ZMod.natCast_mod, Nat.cast_mul, cast_invn] at hc
    have := (mul_eq_zero.mp hc).resolve_left (inv_ne_zero (small_ne_zero h0 hk))
    push_cast at this
    exact_mod_cast this
  · exact .inl ⟨_, rfl⟩

/-- Two nonces with different first halves cannot both fail. -/
theorem signWith_either {d z k x y k' x' y' : Nat} (hd0 : 0 < d) (hd : d < n) (h0 : 0 < k) (hk : k < n)
    (hm : mul k G = some (x, y)) (hx : x % n ≠ 0) (h0' : 0 < k') (hk' : k' < n) (hm' : mul k' G = some (x', y'))
    (hx' : x' % n ≠ 0) (hne : x % n ≠ x' % n) :
    (∃ s, signWith d z k = some (x % n, s)) ∨ (∃ s, signWith d z k' = some (x' % n, s)) := by
  rcases signWith_none (d := d) (z := z) h0 hk hm hx with h | h
  · exact .inl h
  rcases signWith_none (d := d) (z := z) h0' hk' hm' hx' with h' | h'
  · exact .inr h'
  exfalso
  have h3 : (((x % n : Nat) : ZMod n) - ((x' % n : Nat) : ZMod n)) * d = 0 := by linear_combination h - h'
  have h4 := sub_eq_zero.mp ((mul_eq_zero.mp h3).resolve_right (small_ne_zero hd0 hd))
  rw [ZMod.natCast_eq_natCast_iff', Nat.mod_mod, Nat.mod_mod] at h4
  exact hne h4

/-- Twice the base point. -/
def x2 : Nat := 0xC6047F9441ED7D6D3045406E95C07CD85C778E4B8CEF3CA7ABAC09B95C709EE5
/-- Thrice the base point. -/
def x3 : Nat := 0xF9308A019258C31049344F85F89D5229B531C845836F99B08601F113BCE036F9

theorem mul_one_G : mul 1 G = some (gx, gy) := by decide +kernel
theorem mul_two_G : mul 2 G = some (x2, 0x1AE168FEA63DC339A3C58419466CEAEEF7F632653266D0E1236431A950CFE52A) := by decide +kernel
theorem mul_three_G : mul 3 G = some (x3, 0x388F7B0F632DE8140FE337E62A37F3566500A99934C2231B6CB9FD7584B8E672) := by decide +kernel

theorem one_or_two {d : Nat} (h0 : 0 < d) (hd : d < n) (z : Nat) :
    (∃ s, signWith d z 1 = some (gx % n, s)) ∨ (∃ s, signWith d z 2 = some (x2 % n, s)) :=
  signWith_either h0 hd (by omega) (by decide +kernel) mul_one_G (by decide +kernel) (by omega) (by decide +kernel)
    mul_two_G (by decide +kernel) (by decide +kernel)

theorem one_or_three {d : Nat} (h0 : 0 < d) (hd : d < n) (z : Nat) :
    (∃ s, signWith d z 1 = some (gx % n, s)) ∨ (∃ s, signWith d z 3 = some (x3 % n, s)) :=
  signWith_either h0 hd (by omega) (by decide +kernel) mul_one_G (by decide +kernel) (by omega) (by decide +kernel)
    mul_three_G (by decide +kernel) (by decide +kernel)

theorem two_or_three {d : Nat} (h0 : 0 < d) (hd : d < n) (z : Nat) :
    (∃ s, signWith d z 2 = some (x2 % n, s)) ∨ (∃ s, signWith d z 3 = some (x3 % n, s)) :=
  signWith_either h0 hd (by omega) (by decide +kernel) mul_two_G (by decide +kernel) (by omega) (by decide +kernel)
    mul_three_G (by decide +kernel) (by decide +kernel)

/-- A choice of nonces. -/
def oneOrTwo : Nonces where
  nonce sk m := if (signWith (beNat sk.val) (scalar m) 1).isSome then 1 else 2
  usable sk d m h := by
    unfold parseSec at h
    simp only at h
    split at h
    · rename_i hd
      cases h
      split
      · assumption
      · rename_i hno
        rcases one_or_two hd.1 hd.2 (scalar m) with ⟨s, h⟩ | ⟨s, h⟩
        · exact absurd (by rw [h]; rfl) hno
        · rw [h]; rfl
    · cases h

theorem comb (a b : ZMod n) (d : Nat) : a.val • base + b.val • d • base = (a + b * d).val • base := by
  rw [← mul_nsmul', ← add_nsmul]
  exact smul_eq (by push_cast; simp only [ZMod.natCast_zmod_val])

theorem neg_val (c : ZMod n) : (-c).val • base = -(c.val • base) := by
  rw [eq_neg_iff_add_eq_zero, ← add_nsmul, ← zero_nsmul base]
  exact smul_eq (by push_cast; simp only [ZMod.natCast_zmod_val]; ring)

theorem scalar_lt (m : Hash) : scalar m < n := Nat.mod_lt _ n_pos

/-- The message of a scalar. -/
theorem scalar_bytes {k : Nat} (hk : k < 2 ^ 256) : scalar ⟨beBytes 32 k, beBytes_length 32 k⟩ = k % n := by
  unfold scalar
  simp only
  rw [beNat_beBytes, Nat.mod_eq_of_lt (lt_of_lt_of_le hk (by norm_num))]

/-- Different scalars, different points. -/
theorem point_inj (Q : secp256k1.Point) {z z' r s : Nat} (hz : z < n) (hz' : z' < n) (h0 : 0 < s) (hs : s < n)
    (h : ((z : ZMod n) / s).val • base + ((r : ZMod n) / s).val • Q = ((z' : ZMod n) / s).val • base + ((r : ZMod n) / s).val • Q) :
    z = z' := by
  have h := smul_inj (add_right_cancel h)
  simp only [ZMod.natCast_zmod_val] at h
  have hsz : (s : ZMod n) ≠ 0 := by
    intro h
    rw [ZMod.natCast_eq_zero_iff] at h
    exact absurd (Nat.le_of_dvd h0 h) (by omega)
  have := (div_left_inj' hsz).mp h
  rw [ZMod.natCast_eq_natCast_iff', Nat.mod_eq_of_lt hz, Nat.mod_eq_of_lt hz'] at this
  exact this

/-- At most two points have this `x`. -/
theorem points_at (x : ZMod p) : ∃ L : List secp256k1.Point, L.length ≤ 2 ∧ ∀ y h, .some x y h ∈ L := by
  by_cases hx : ∃ y, secp256k1.Nonsingular x y
  · obtain ⟨y, h⟩ := hx
    refine ⟨[.some x y h, -.some x y h], by simp, fun y' h' => ?_⟩
    have e : (y' - y) * (y' + y) = 0 := by linear_combination equation h' - equation h
    rcases mul_eq_zero.mp e with e | e
    · obtain rfl := sub_eq_zero.mp e
      simp
    · have e := eq_neg_of_add_eq_zero_left e
      subst e
      refine List.mem_cons.mpr (.inr (List.mem_singleton.mpr ?_))
      have hy : secp256k1.negY x y = -y := by simp [WeierstrassCurve.Affine.negY, secp256k1]
      rw [WeierstrassCurve.Affine.Point.neg_some]
      congr 1
      exact hy.symm
  · exact ⟨[], by simp, fun y h => absurd ⟨y, h⟩ hx⟩

/-- At most four points have this number as their `x` modulo `n`. -/
theorem points_mod (r : Nat) : ∃ L : List secp256k1.Point, L.length ≤ 4 ∧ ∀ x y h, x.val % n = r → .some x y h ∈ L := by
  obtain ⟨L1, h1, m1⟩ := points_at (r : ZMod p)
  obtain ⟨L2, h2, m2⟩ := points_at ((r + n : Nat) : ZMod p)
  refine ⟨L1 ++ L2, by rw [List.length_append]; omega, fun x y h e => ?_⟩
  have hlt : x.val < p := x.val_lt
  have hp : p < 2 * n := by decide +kernel
  have hx : x.val = r ∨ x.val = r + n := by
    have := Nat.mod_add_div x.val n
    have : x.val / n < 2 := Nat.div_lt_of_lt_mul (by omega)
    rcases Nat.lt_or_ge x.val n with h | h
    · left; rw [← e, Nat.mod_eq_of_lt h]
    · right
      rw [Nat.mod_eq_sub_mod h, Nat.mod_eq_of_lt (by omega)] at e
      omega
  rw [List.mem_append]
  rcases hx with hx | hx
  · left
    have : x = (r : ZMod p) := by rw [← hx, ZMod.natCast_zmod_val]
    subst this
    exact m1 y h
  · right
    have : x = ((r + n : Nat) : ZMod p) := by rw [← hx, ZMod.natCast_zmod_val]
    subst this
    exact m2 y h

/-- At most two messages have this scalar. -/
theorem hashes_of (z : Nat) : ∃ L : List Hash, L.length ≤ 2 ∧ ∀ m, scalar m = z → m ∈ L := by
  refine ⟨[⟨beBytes 32 z, beBytes_length 32 z⟩, ⟨beBytes 32 (z + n), beBytes_length 32 _⟩], by simp, fun m h => ?_⟩
  have hlt := beNat_lt m.val
  rw [m.2] at hlt
  have hp : 256 ^ 32 < 2 * n := by decide +kernel
  have hb : beBytes 32 (beNat m.val) = m.val := by
    have := beBytes_beNat m.val
    rwa [m.2] at this
  unfold scalar at h
  rcases Nat.lt_or_ge (beNat m.val) n with h' | h'
  · rw [Nat.mod_eq_of_lt h'] at h
    refine List.mem_cons.mpr (.inl (Subtype.ext ?_))
    simp only
    rw [← h, hb]
  · rw [Nat.mod_eq_sub_mod h', Nat.mod_eq_of_lt (by omega)] at h
    refine List.mem_cons.mpr (.inr (List.mem_singleton.mpr (Subtype.ext ?_)))
    simp only
    rw [show z + n = beNat m.val by omega, hb]

/-- Of the nonces one, two and three, two can be used, and the signatures differ in the first half. -/
theorem two_signatures {d : Nat} (h0 : 0 < d) (hd : d < n) (z : Nat) :
    ∃ k k' r s r' s', signWith d z k = some (r, s) ∧ signWith d z k' = some (r', s') ∧ r ≠ r' := by
  rcases one_or_two h0 hd z with ⟨s, h⟩ | ⟨s, h⟩
  · rcases two_or_three h0 hd z with ⟨s', h'⟩ | ⟨s', h'⟩
    · exact ⟨_, _, _, _, _, _, h, h', by decide +kernel⟩
    · exact ⟨_, _, _, _, _, _, h, h', by decide +kernel⟩
  · rcases one_or_three h0 hd z with ⟨s', h'⟩ | ⟨s', h'⟩
    · exact ⟨_, _, _, _, _, _, h, h', by decide +kernel⟩
    · exact ⟨_, _, _, _, _, _, h, h', by decide +kernel⟩

/-- Signatures of one message with one first half and one `x` of the point are equal. -/
theorem same_x {d z r s s' : Nat} (hs0 : 0 < s) (hs : s ≤ n / 2) (hs0' : 0 < s') (hs' : s' ≤ n / 2) {x y y' h h'}
    (e : ((z : ZMod n) / s).val • base + ((r : ZMod n) / s).val • d • base = .some x y h)
    (e' : ((z : ZMod n) / s').val • base + ((r : ZMod n) / s').val • d • base = .some x y' h') : s = s' := by
  have hn2 : 2 * (n / 2) + 1 = n := by decide +kernel
  have hsz := small_ne_zero hs0 (by omega)
  have hsz' := small_ne_zero hs0' (by omega)
  rw [comb] at e e'
  have hk : (z : ZMod n) + r * d ≠ 0 := by
    intro h0
    have : (z : ZMod n) / s + r / s * d = 0 := by rw [div_mul_eq_mul_div, ← add_div, h0, zero_div]
    rw [this, ZMod.val_zero, zero_nsmul] at e
    exact WeierstrassCurve.Affine.Point.some_ne_zero h e.symm
  have ey : (y' - y) * (y' + y) = 0 := by linear_combination equation h' - equation h
  rcases mul_eq_zero.mp ey with ey | ey
  · obtain rfl := sub_eq_zero.mp ey
    have := smul_inj (e.trans e'.symm)
    simp only [ZMod.natCast_zmod_val, div_mul_eq_mul_div, ← add_div] at this
    rw [div_eq_div_iff hsz hsz'] at this
    have := mul_left_cancel₀ hk this
    rw [ZMod.natCast_eq_natCast_iff', Nat.mod_eq_of_lt (by omega), Nat.mod_eq_of_lt (by omega)] at this
    exact this.symm
  · have ey := eq_neg_of_add_eq_zero_left ey
    subst ey
    have hy : secp256k1.negY x y = -y := by simp [WeierstrassCurve.Affine.negY, secp256k1]
    have hneg : WeierstrassCurve.Affine.Point.some x (-y) h' = -WeierstrassCurve.Affine.Point.some x y h := by
      rw [WeierstrassCurve.Affine.Point.neg_some]
      congr 1
      exact hy.symm
    rw [hneg, ← e, ← neg_val] at e'
    have := smul_inj e'
    simp only [ZMod.natCast_zmod_val, div_mul_eq_mul_div, ← add_div] at this
    rw [← neg_div, div_eq_div_iff hsz' hsz] at this
    have h2 : ((z : ZMod n) + r * d) * ((s + s' : Nat) : ZMod n) = 0 := by push_cast; linear_combination this
    have h3 := (mul_eq_zero.mp h2).resolve_left hk
    exact absurd h3 (small_ne_zero (by omega) (by omega))

end Secp

namespace Props

open BCT.Secp BCT.Spec

/-! ## C15 -/

/-- C15. A secret key and its public key satisfy what `C15_signed_verifies` assumes. -/
theorem secp_keyPair (N : Nonces) (sk : BytesN 32) (pk : Address) (h : publicKey sk = some pk) : KeyPair (scheme N) sk pk := by
  obtain ⟨hd, hc⟩ := (publicKey_iff sk pk).mp h
  obtain ⟨Q, hQ, hr⟩ := (parsePub_iff _ _).mpr hc
  have hs : parseSec sk = some (beNat sk.val) := by simp [parseSec, hd]
  have hsig : ∀ m, ∃ r s, (scheme N).sign sk m = serializeSig r s ∧ EcdsaValid (beNat sk.val • base) (scalar m) r s ∧ r < n ∧ s < n := by
    intro m
    have hu := N.usable sk _ m hs
    obtain ⟨⟨r, s⟩, hrs⟩ := Option.isSome_iff_exists.mp hu
    refine ⟨r, s, ?_, signWith_valid hrs⟩
    simp only [scheme, hs, hrs]
  refine ⟨by simp [scheme, hs], by simp [scheme, hQ], fun m => ?_, fun m => ?_⟩
  · obtain ⟨r, s, e, -, h1, h2⟩ := hsig m
    rw [e]
    simp [scheme, parseSig_serializeSig h1 h2]
  · obtain ⟨r, s, e, hv, h1, h2⟩ := hsig m
    rw [e]
    simp only [scheme, hQ, parseSig_serializeSig h1 h2]
    exact (verify_iff hr _ _ _).mpr hv

/-- C15 with secp256k1 itself: whatever nonces are used, a transaction signed with the key of its sender verifies. -/
theorem C15_secp256k1 (E : Env) (N : Nonces) (sender receiver : Address) (ts : UInt64) (amount : U256) (sk : BytesN 32)
    (data : Option Bytes) (hk : publicKey sk = some sender) :
    ∃ t, Transaction.new E (scheme N) sender receiver ts amount sk data = .ok t ∧ t.verify E (scheme N) = .ok true ∧
      t.sender = sender ∧ t.receiver = receiver ∧ t.timestamp = ts ∧ t.amount = amount ∧ t.data = data :=
  C15_signed_verifies E (scheme N) sender receiver ts amount sk data (secp_keyPair N sk sender hk)

/-- C15 with secp256k1 itself: the verdict is that of ECDSA in the group of the curve, on the digest of the signed bytes;
keys that are not compressed points and signatures with a scalar of `n` or more are errors. -/
theorem C15_verdict_is_ecdsa (E : Env) (N : Nonces) (t : Transaction) :
    (t.verify E (scheme N) = .ok true ↔ ∃ Q, Compressed t.sender Q ∧ beNat (t.signature.val.take 32) < n ∧
      EcdsaValid Q (beNat (E.sha256 (Transaction.signingBytes t.sender t.receiver t.timestamp t.amount t.data)).val % n)
        (beNat (t.signature.val.take 32)) (beNat (t.signature.val.drop 32))) ∧
    (t.verify E (scheme N) = .err .txVerify ↔ (¬ ∃ Q, Compressed t.sender Q) ∨
      n ≤ beNat (t.signature.val.take 32) ∨ n ≤ beNat (t.signature.val.drop 32)) := by
  constructor
  · rw [C15_verify_iff]
    simp only [scheme]
    generalize E.sha256 _ = m
    constructor
    · rintro ⟨h1, h2, h3⟩
      obtain ⟨Q, hQ⟩ := Option.isSome_iff_exists.mp h1
      obtain ⟨P, hr, hc⟩ := parsePub_point hQ
      have hlt : beNat (t.signature.val.take 32) < n ∧ beNat (t.signature.val.drop 32) < n := by
        by_contra hlt
        simp [parseSig, hlt] at h2
      have hp : parseSig t.signature = some (beNat (t.signature.val.take 32), beNat (t.signature.val.drop 32)) := by
        simp [parseSig, hlt]
      rw [hQ, hp] at h3
      exact ⟨P, hc, hlt.1, (verify_iff hr _ _ _).mp h3⟩
    · rintro ⟨P, hc, hlt, hv⟩
      obtain ⟨Q, hQ, hr⟩ := (parsePub_iff _ _).mpr hc
      have hlt2 : beNat (t.signature.val.drop 32) < n :=
        Nat.lt_of_le_of_lt hv.2.2.1 (by decide +kernel)
      have hp : parseSig t.signature = some (beNat (t.signature.val.take 32), beNat (t.signature.val.drop 32)) := by
        simp [parseSig, hlt, hlt2]
      rw [hQ, hp]
      exact ⟨rfl, rfl, (verify_iff hr _ _ _).mpr hv⟩
  · have hP : (∃ Q, Compressed t.sender Q) ↔ (parsePub t.sender).isSome := by
      constructor
      · rintro ⟨P, hc⟩
        obtain ⟨Q, hQ, -⟩ := (parsePub_iff _ _).mpr hc
        rw [hQ]; rfl
      · intro h
        obtain ⟨Q, hQ⟩ := Option.isSome_iff_exists.mp h
        obtain ⟨P, -, hc⟩ := parsePub_point hQ
        exact ⟨P, hc⟩
    rw [hP]
    have hS : (parseSig t.signature).isSome = true ↔ beNat (t.signature.val.take 32) < n ∧ beNat (t.signature.val.drop 32) < n := by
      unfold parseSig
      simp only
      split <;> simp_all
    unfold Transaction.verify
    simp only [scheme]
    by_cases h1 : (parsePub t.sender).isSome = true
    · by_cases h2 : (parseSig t.signature).isSome = true
      · have := hS.mp h2
        simp [h1, h2, this]
      · have := (not_congr hS).mp h2
        simp only [h1, h2, Bool.not_true, Bool.not_false, Bool.false_eq_true, if_false, if_true, not_true_eq_false, false_or, true_iff]
        omega
    · simp [h1]

/-- Not vacuous: there are nonces, and the key published in the code is a key. -/
example : ∃ (N : Nonces) (sk : BytesN 32) (pk : Address), publicKey sk = some pk ∧ KeyPair (scheme N) sk pk :=
  ⟨oneOrTwo, ROOT_PRIVATE_ADDRESS, ROOT_PUBLIC_ADDRESS, root_public, secp_keyPair _ _ _ root_public⟩

/-! ## C108 -/

/-- C108. The keys that are accepted are the compressed points, and this is a bijection: a point has one key, a key one
point. So no two accounts belong to one public key. -/
theorem C108_one_key_one_account (N : Nonces) :
    (∀ pk, (scheme N).parsePub pk = true ↔ ∃ P, Compressed pk P) ∧
    (∀ pk P P', Compressed pk P → Compressed pk P' → P = P') ∧
    (∀ pk pk' P, Compressed pk P → Compressed pk' P → pk = pk') ∧
    ∀ P : secp256k1.Point, P ≠ 0 ↔ ∃ pk, Compressed pk P := by
  refine ⟨fun pk => ⟨fun h => ?_, fun ⟨P, hc⟩ => ?_⟩, fun _ _ _ => compressed_point, fun _ _ _ => compressed_inj, fun P => ⟨fun h => ?_, ?_⟩⟩
  · obtain ⟨Q, hQ⟩ := Option.isSome_iff_exists.mp h
    obtain ⟨P, -, hc⟩ := parsePub_point hQ
    exact ⟨P, hc⟩
  · obtain ⟨Q, hQ, -⟩ := (parsePub_iff _ _).mpr hc
    simp [scheme, hQ]
  · cases P with
    | zero => exact absurd rfl h
    | some x y hn => exact ⟨⟨_, by simp⟩, x, y, hn, rfl, rfl⟩
  · rintro ⟨pk, x, y, h, rfl, -⟩
    exact WeierstrassCurve.Affine.Point.some_ne_zero h

/-- C108. A secret key is accepted exactly when it is a number from one to `n - 1`; it then has one account, and no other
secret key has this account. -/
theorem C108_secret_keys (N : Nonces) :
    (∀ sk, (scheme N).parseSec sk = true ↔ 0 < beNat sk.val ∧ beNat sk.val < n) ∧
    (∀ sk, (scheme N).parseSec sk = true ↔ ∃ pk, publicKey sk = some pk) ∧
    (∀ sk pk, publicKey sk = some pk → Compressed pk (beNat sk.val • base)) ∧
    ∀ sk sk' pk, publicKey sk = some pk → publicKey sk' = some pk → sk = sk' := by
  have h1 : ∀ sk, (scheme N).parseSec sk = true ↔ 0 < beNat sk.val ∧ beNat sk.val < n := by
    intro sk
    simp only [scheme, parseSec]
    split <;> simp_all
  refine ⟨h1, fun sk => ?_, fun sk pk h => ((publicKey_iff sk pk).mp h).2, fun sk sk' pk h h' => ?_⟩
  · rw [h1]
    constructor
    · intro hd
      obtain ⟨pk, hc⟩ := ((C108_one_key_one_account N).2.2.2 _).mp (smul_ne_zero hd.1 hd.2)
      exact ⟨pk, (publicKey_iff _ _).mpr ⟨hd, hc⟩⟩
    · rintro ⟨pk, h⟩
      exact ((publicKey_iff _ _).mp h).1
  · obtain ⟨hd, hc⟩ := (publicKey_iff _ _).mp h
    obtain ⟨hd', hc'⟩ := (publicKey_iff _ _).mp h'
    have := smul_inj (compressed_point hc hc')
    rw [ZMod.natCast_eq_natCast_iff', Nat.mod_eq_of_lt hd.2, Nat.mod_eq_of_lt hd'.2] at this
    exact Subtype.ext (beNat_inj_of_length (sk.2.trans sk'.2.symm) this)

/-! ## C109 -/

/-- C109. Whoever has read the code can send from the root account: the secret key in static_values.rs belongs to the
public key there, so a transaction from it to anyone, of any amount, signed with it, verifies. -/
theorem C109_published_root_key (E : Env) (N : Nonces) (receiver : Address) (ts : UInt64) (amount : U256) (data : Option Bytes) :
    ∃ t, Transaction.new E (scheme N) ROOT_PUBLIC_ADDRESS receiver ts amount ROOT_PRIVATE_ADDRESS data = .ok t ∧
      t.verify E (scheme N) = .ok true ∧ t.sender = ROOT_PUBLIC_ADDRESS ∧ t.receiver = receiver ∧ t.timestamp = ts ∧
      t.amount = amount ∧ t.data = data :=
  C15_secp256k1 E N _ _ ts amount _ data root_public

/-- C109. It is the only secret key with this account. -/
theorem C109_only_key (sk : BytesN 32) (h : publicKey sk = some ROOT_PUBLIC_ADDRESS) : sk = ROOT_PRIVATE_ADDRESS :=
  (C108_secret_keys oneOrTwo).2.2.2 _ _ _ h root_public

/-! ## C110 -/

/-- C110 as one would want it: a signature is good for one message. -/
def C110_full : Prop :=
  ∀ (N : Nonces) (pk : Address) (sig : Signature) (m m' : Hash),
    (scheme N).verify pk m sig = true → (scheme N).verify pk m' sig = true → m = m'

theorem scheme_verify_iff (N : Nonces) (pk : Address) (m : Hash) (sig : Signature) :
    (scheme N).verify pk m sig = true ↔ ∃ Q, Compressed pk Q ∧ beNat (sig.val.take 32) < n ∧ beNat (sig.val.drop 32) < n ∧
      EcdsaValid Q (scalar m) (beNat (sig.val.take 32)) (beNat (sig.val.drop 32)) := by
  simp only [scheme]
  constructor
  · intro h
    split at h
    · rename_i Q r s hQ hp
      obtain ⟨P, hr, hc⟩ := parsePub_point hQ
      unfold parseSig at hp
      simp only at hp
      split at hp
      · rename_i hlt
        cases hp
        exact ⟨P, hc, hlt.1, hlt.2, (verify_iff hr _ _ _).mp h⟩
      · cases hp
    · cases h
  · rintro ⟨P, hc, h1, h2, hv⟩
    obtain ⟨Q, hQ, hr⟩ := (parsePub_iff _ _).mpr hc
    have hp : parseSig sig = some (beNat (sig.val.take 32), beNat (sig.val.drop 32)) := by
      simp [parseSig, h1, h2]
    rw [hQ, hp]
    exact (verify_iff hr _ _ _).mpr hv

/-- C110 is false whatever the key and the signature: who has the secret key can name another message, with another
scalar, the signature is good for. -/
theorem C110_refuted :
    (∀ (N : Nonces) (sk : BytesN 32) (pk : Address) (sig : Signature) (m : Hash), publicKey sk = some pk →
      (scheme N).verify pk m sig = true → ∃ m', scalar m' ≠ scalar m ∧ (scheme N).verify pk m' sig = true) ∧
    ¬ C110_full := by
  have key : ∀ (N : Nonces) (sk : BytesN 32) (pk : Address) (sig : Signature) (m : Hash), publicKey sk = some pk →
      (scheme N).verify pk m sig = true → ∃ m', scalar m' ≠ scalar m ∧ (scheme N).verify pk m' sig = true := by
    intro N sk pk sig m hk hv
    obtain ⟨hd, hc⟩ := (publicKey_iff _ _).mp hk
    obtain ⟨Q, hc', h1, h2, hr0, hs0, hs, x, y, hn, hR, hx⟩ := (scheme_verify_iff N pk m sig).mp hv
    obtain rfl := compressed_point hc hc'
    have hiff := scheme_verify_iff N pk
    generalize er : beNat (sig.val.take 32) = r at *
    generalize es : beNat (sig.val.drop 32) = s at *
    rw [comb] at hR
    have hlt : (-(scalar m : ZMod n) - 2 * r * (beNat sk.val : Nat)).val < n := ZMod.val_lt _
    have hlt' := Nat.lt_trans hlt n_lt
    refine ⟨⟨beBytes 32 (-(scalar m : ZMod n) - 2 * r * (beNat sk.val : Nat)).val, beBytes_length 32 _⟩, fun e => ?_, ?_⟩
    · rw [scalar_bytes hlt', Nat.mod_eq_of_lt hlt] at e
      have e := congrArg (Nat.cast (R := ZMod n)) e
      rw [ZMod.natCast_zmod_val] at e
      have h2 : (2 : ZMod n) * (scalar m + r * (beNat sk.val : Nat)) = 0 := by linear_combination -e
      have h2z : (2 : ZMod n) ≠ 0 := by
        have : ((2 : Nat) : ZMod n) ≠ 0 := by
          rw [Ne, ZMod.natCast_eq_zero_iff]
          decide +kernel
        exact_mod_cast this
      have h3 := (mul_eq_zero.mp h2).resolve_left h2z
      have h4 : (scalar m : ZMod n) / s + r / s * (beNat sk.val : Nat) = 0 := by
        rw [div_mul_eq_mul_div, ← add_div, h3, zero_div]
      rw [h4, ZMod.val_zero, zero_nsmul] at hR
      exact WeierstrassCurve.Affine.Point.some_ne_zero hn hR.symm
    · rw [hiff, er, es, scalar_bytes hlt', Nat.mod_eq_of_lt hlt]
      have h4 : (-(scalar m : ZMod n) - 2 * r * (beNat sk.val : Nat)) / s + r / s * (beNat sk.val : Nat) =
          -((scalar m : ZMod n) / s + r / s * (beNat sk.val : Nat)) := by ring
      refine ⟨_, hc, h1, h2, hr0, hs0, hs, x, _, (WeierstrassCurve.Affine.nonsingular_neg x y).mpr hn, ?_, hx⟩
      rw [ZMod.natCast_zmod_val, comb, h4, neg_val, hR, WeierstrassCurve.Affine.Point.neg_some]
  refine ⟨key, fun hfull => ?_⟩
  have K := secp_keyPair oneOrTwo _ _ root_public
  obtain ⟨m', hne, hv⟩ := key oneOrTwo _ _ _ (BytesN.fill 32 0) root_public (K.correct _)
  exact hne (by rw [hfull _ _ _ _ _ (K.correct _) hv])

/-- The part of C110 that holds: for a key and a signature there are at most eight digests. A signature on one
transaction is no use for another unless the digest of the other is one of these eight. -/
theorem C110_at_most_eight_partial (sender : Address) (sig : Signature) :
    ∃ L : List Hash, L.length ≤ 8 ∧
      (∀ N m, (scheme N).verify sender m sig = true → m ∈ L) ∧
      ∀ (E : Env) N (t : Transaction), t.sender = sender → t.signature = sig → t.verify E (scheme N) = .ok true →
        E.sha256 (Transaction.signingBytes t.sender t.receiver t.timestamp t.amount t.data) ∈ L := by
  have key : ∃ L : List Hash, L.length ≤ 8 ∧ ∀ N m, (scheme N).verify sender m sig = true → m ∈ L := by
    by_cases hex : ∃ Q, Compressed sender Q
    swap
    · refine ⟨[], by simp, fun N m h => ?_⟩
      obtain ⟨Q, hc, -⟩ := (scheme_verify_iff N _ _ _).mp h
      exact absurd ⟨Q, hc⟩ hex
    obtain ⟨Q, hQ⟩ := hex
    obtain ⟨Ps, hlen, hPs⟩ := points_mod (beNat (sig.val.take 32))
    classical
    let f : secp256k1.Point → List Hash := fun R =>
      if h : ∃ z, z < n ∧ ((z : ZMod n) / beNat (sig.val.drop 32)).val • base +
          ((beNat (sig.val.take 32) : ZMod n) / beNat (sig.val.drop 32)).val • Q = R then (hashes_of h.choose).choose else []
    have hf : ∀ R, (f R).length ≤ 2 := by
      intro R
      simp only [f]
      split
      · exact (hashes_of _).choose_spec.1
      · simp
    refine ⟨Ps.flatMap f, ?_, fun N m h => ?_⟩
    · have : ∀ l : List secp256k1.Point, (l.flatMap f).length ≤ 2 * l.length := by
        intro l
        induction l with
        | nil => simp
        | cons a l ih =>
          have := hf a
          simp only [List.flatMap_cons, List.length_append, List.length_cons]
          omega
      have := this Ps
      omega
    · obtain ⟨Q', hc, h1, h2, hr0, hs0, hs, x, y, hn, hR, hx⟩ := (scheme_verify_iff N _ _ _).mp h
      obtain rfl := compressed_point hQ hc
      refine List.mem_flatMap.mpr ⟨_, hPs x y hn hx, ?_⟩
      have hz : ∃ z, z < n ∧ ((z : ZMod n) / beNat (sig.val.drop 32)).val • base +
          ((beNat (sig.val.take 32) : ZMod n) / beNat (sig.val.drop 32)).val • Q = .some x y hn := ⟨_, scalar_lt m, hR⟩
      simp only [f, dif_pos hz]
      exact (hashes_of _).choose_spec.2 m
        (point_inj Q (scalar_lt m) hz.choose_spec.1 hs0 h2 (hR.trans hz.choose_spec.2.symm))
  obtain ⟨L, h1, h2⟩ := key
  refine ⟨L, h1, h2, fun E N t hs hg hv => ?_⟩
  have := ((C15_verify_iff E (scheme N) t).mp hv).2.2
  rw [← hs, ← hg] at h2
  exact h2 N _ this

/-! ## C111 -/

/-- C111 as one would want it: a transaction has one valid signature. -/
def C111_full : Prop :=
  ∀ (E : Env) (N : Nonces) (sender receiver : Address) (ts : UInt64) (amount : U256) (data : Option Bytes) (sig sig' : Signature),
    (Transaction.newSigned E sender receiver ts amount data sig).verify E (scheme N) = .ok true →
    (Transaction.newSigned E sender receiver ts amount data sig').verify E (scheme N) = .ok true → sig = sig'

theorem newSigned_verify_iff (E : Env) (N : Nonces) (sender receiver : Address) (ts : UInt64) (amount : U256) (data : Option Bytes)
    (sig : Signature) : (Transaction.newSigned E sender receiver ts amount data sig).verify E (scheme N) = .ok true ↔
      (scheme N).verify sender (E.sha256 (Transaction.signingBytes sender receiver ts amount data)) sig = true := by
  rw [C15_verify_iff]
  constructor
  · exact fun h => h.2.2
  · intro h
    refine ⟨?_, ?_, h⟩
    · obtain ⟨Q, hc, -⟩ := (scheme_verify_iff N _ _ _).mp h
      exact ((C108_one_key_one_account N).1 _).mpr ⟨Q, hc⟩
    · obtain ⟨Q, -, h1, h2, -⟩ := (scheme_verify_iff N _ _ _).mp h
      show (parseSig sig).isSome = true
      simp [parseSig, h1, h2]

/-- C111 is false for every transaction: the signer can make two signatures that are both valid. -/
theorem C111_refuted :
    (∀ (E : Env) (N : Nonces) (sk : BytesN 32) (sender receiver : Address) (ts : UInt64) (amount : U256) (data : Option Bytes),
      publicKey sk = some sender → ∃ sig sig', sig ≠ sig' ∧
        (Transaction.newSigned E sender receiver ts amount data sig).verify E (scheme N) = .ok true ∧
        (Transaction.newSigned E sender receiver ts amount data sig').verify E (scheme N) = .ok true) ∧
    ¬ C111_full := by
  have key : ∀ (E : Env) (N : Nonces) (sk : BytesN 32) (sender receiver : Address) (ts : UInt64) (amount : U256) (data : Option Bytes),
      publicKey sk = some sender → ∃ sig sig', sig ≠ sig' ∧
        (Transaction.newSigned E sender receiver ts amount data sig).verify E (scheme N) = .ok true ∧
        (Transaction.newSigned E sender receiver ts amount data sig').verify E (scheme N) = .ok true := by
    intro E N sk sender receiver ts amount data hk
    obtain ⟨hd, hc⟩ := (publicKey_iff _ _).mp hk
    obtain ⟨k, k', r, s, r', s', h, h', hne⟩ := two_signatures hd.1 hd.2
      (scalar (E.sha256 (Transaction.signingBytes sender receiver ts amount data)))
    obtain ⟨h1, h2, h3⟩ := signWith_valid h
    obtain ⟨h1', h2', h3'⟩ := signWith_valid h'
    have hp := parseSig_serializeSig h2 h3
    have hp' := parseSig_serializeSig h2' h3'
    obtain ⟨Q, hQ, hr⟩ := (parsePub_iff _ _).mpr hc
    refine ⟨serializeSig r s, serializeSig r' s', fun e => ?_, ?_, ?_⟩
    · rw [e, hp'] at hp
      cases hp
      exact hne rfl
    · rw [newSigned_verify_iff]
      simp only [scheme, hQ, hp]
      exact (verify_iff hr _ _ _).mpr h1
    · rw [newSigned_verify_iff]
      simp only [scheme, hQ, hp']
      exact (verify_iff hr _ _ _).mpr h1'
  refine ⟨key, fun hfull => ?_⟩
  obtain ⟨sig, sig', hne, h, h'⟩ := key ⟨fun _ => BytesN.fill 32 0, true⟩ oneOrTwo _ _ ROOT_PUBLIC_ADDRESS 0 U256.zero none root_public
  exact hne (hfull _ _ _ _ _ _ _ _ _ h h')

/-- The part of C111 that holds. The signature with `s` replaced by `n - s`, which anyone can make of a valid one and
which plain ECDSA accepts, is refused. And a signer who keeps the first half has no second signature, or, in the rare case
that the first half is below `p - n`, no third. -/
theorem C111_first_half_partial (E : Env) (N : Nonces) (sender receiver : Address) (ts : UInt64) (amount : U256) (data : Option Bytes) :
    (∀ sig sig' : Signature, beNat (sig'.val.drop 32) = n - beNat (sig.val.drop 32) →
      (Transaction.newSigned E sender receiver ts amount data sig).verify E (scheme N) = .ok true →
      (Transaction.newSigned E sender receiver ts amount data sig').verify E (scheme N) ≠ .ok true) ∧
    (∀ sk, publicKey sk = some sender → ∀ half : Bytes, ∃ L : List Signature,
      L.length ≤ (if beNat half < p - n then 2 else 1) ∧
      ∀ sig : Signature, sig.val.take 32 = half →
        (Transaction.newSigned E sender receiver ts amount data sig).verify E (scheme N) = .ok true → sig ∈ L) := by
  constructor
  · intro sig sig' e h h'
    rw [newSigned_verify_iff, scheme_verify_iff] at h h'
    obtain ⟨Q, -, -, -, -, h0, hs, -⟩ := h
    obtain ⟨Q', -, -, -, -, h0', hs', -⟩ := h'
    have hn2 : 2 * (n / 2) + 1 = n := by decide +kernel
    omega
  · intro sk hk half
    obtain ⟨hd, hc⟩ := (publicKey_iff _ _).mp hk
    classical
    let m := E.sha256 (Transaction.signingBytes sender receiver ts amount data)
    let At (X : ZMod p) (sig : Signature) : Prop := sig.val.take 32 = half ∧ 0 < beNat (sig.val.drop 32) ∧
      beNat (sig.val.drop 32) ≤ n / 2 ∧ ∃ y h, ((scalar m : ZMod n) / beNat (sig.val.drop 32)).val • base +
        ((beNat half : ZMod n) / beNat (sig.val.drop 32)).val • beNat sk.val • base = .some X y h
    have hone : ∀ X, ∃ L : List Signature, L.length ≤ 1 ∧ ∀ sig, At X sig → sig ∈ L := by
      intro X
      by_cases hex : ∃ sig, At X sig
      · obtain ⟨sig, h1, h2, h3, y, h, e⟩ := hex
        refine ⟨[sig], by simp, ?_⟩
        rintro sig' ⟨h1', h2', h3', y', h', e'⟩
        have := same_x h2' h3' h2 h3 e' e
        have hd := beNat_inj_of_length (by simp [sig.2, sig'.2]) this
        refine List.mem_singleton.mpr (Subtype.ext ?_)
        rw [← List.take_append_drop 32 sig.val, ← List.take_append_drop 32 sig'.val, h1, h1', hd]
      · exact ⟨[], by simp, fun sig h => absurd ⟨sig, h⟩ hex⟩
    have hall : ∀ sig : Signature, sig.val.take 32 = half →
        (Transaction.newSigned E sender receiver ts amount data sig).verify E (scheme N) = .ok true →
        At (beNat half : ZMod p) sig ∨ (beNat half < p - n ∧ At ((beNat half + n : Nat) : ZMod p) sig) := by
      intro sig hh hv
      rw [newSigned_verify_iff, scheme_verify_iff] at hv
      obtain ⟨Q, hc', h1, h2, hr0, hs0, hs, x, y, hn, hR, hx⟩ := hv
      obtain rfl := compressed_point hc hc'
      rw [hh] at h1 hr0 hR hx
      have hlt : x.val < p := x.val_lt
      have hp : p < 2 * n := by decide +kernel
      rcases Nat.lt_or_ge x.val n with h | h
      · left
        rw [Nat.mod_eq_of_lt h] at hx
        have : x = (beNat half : ZMod p) := by rw [← hx, ZMod.natCast_zmod_val]
        subst this
        exact ⟨hh, hs0, hs, y, hn, hR⟩
      · right
        rw [Nat.mod_eq_sub_mod h, Nat.mod_eq_of_lt (by omega)] at hx
        have : x = ((beNat half + n : Nat) : ZMod p) := by
          rw [show beNat half + n = x.val by omega, ZMod.natCast_zmod_val]
        subst this
        exact ⟨by omega, hh, hs0, hs, y, hn, hR⟩
    obtain ⟨L1, l1, m1⟩ := hone (beNat half : ZMod p)
    obtain ⟨L2, l2, m2⟩ := hone ((beNat half + n : Nat) : ZMod p)
    by_cases hhalf : beNat half < p - n
    · refine ⟨L1 ++ L2, by rw [if_pos hhalf, List.length_append]; omega, fun sig h hv => List.mem_append.mpr ?_⟩
      exact (hall sig h hv).imp (m1 sig) fun h => m2 sig h.2
    · refine ⟨L1, by rw [if_neg hhalf]; exact l1, fun sig h hv => ?_⟩
      exact m1 sig ((hall sig h hv).resolve_right fun h => hhalf h.1)

end Props

end BCT
