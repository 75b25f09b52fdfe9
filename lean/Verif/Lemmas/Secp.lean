import Verif.Lemmas.Primes
import Verif.Lemmas.SecpOrder
import Mathlib.AlgebraicGeometry.EllipticCurve.Affine.Point
import Mathlib.FieldTheory.Finite.Basic
/-!
# The arithmetic of `Model.Secp` is that of Mathlib's elliptic curves
-/

namespace BCT

instance : Fact (Nat.Prime Secp.p) := ⟨Secp.p_prime⟩
instance : Fact (Nat.Prime Secp.n) := ⟨Secp.n_prime⟩

namespace Spec

/-- SEC 2, 2.4.1: `y² = x³ + 7`. -/
def secp256k1 : WeierstrassCurve.Affine (ZMod Secp.p) := ⟨0, 0, 0, 0, 7⟩

end Spec

namespace Secp

open Spec

theorem cast_eq_zero_iff (k : Nat) : ((k : Nat) : ZMod p) = 0 ↔ k % p = 0 := by
  rw [ZMod.natCast_eq_zero_iff, Nat.dvd_iff_mod_eq_zero]

theorem cast_inj {a b : Nat} (ha : a < p) (hb : b < p) : ((a : Nat) : ZMod p) = (b : ZMod p) ↔ a = b := by
  rw [ZMod.natCast_eq_natCast_iff', Nat.mod_eq_of_lt ha, Nat.mod_eq_of_lt hb]

theorem p_pos : 0 < p := by decide +kernel

theorem sub_lt (a b : Nat) : sub a b < p := Nat.mod_lt _ p_pos

theorem cast_sub (a : Nat) {b : Nat} (hb : b < p) : ((sub a b : Nat) : ZMod p) = (a : ZMod p) - b := by
  unfold sub
  rw [ZMod.natCast_mod, Nat.cast_sub (by omega), Nat.cast_add, ZMod.natCast_self, add_zero]

theorem cast_inv {q : Nat} [hq : Fact (Nat.Prime q)] (h : q < 2 ^ 256) (h3 : 2 < q) (a : Nat) :
    ((inv q a : Nat) : ZMod q) = (a : ZMod q)⁻¹ := by
  unfold inv
  rw [cast_powMod _ _ _ _ (by omega)]
  by_cases ha : (a : ZMod q) = 0
  · rw [ha, inv_zero, zero_pow (by omega)]
  · have := ZMod.pow_card_sub_one_eq_one ha
    rw [show q - 1 = q - 2 + 1 by omega, pow_succ] at this
    exact eq_inv_of_mul_eq_one_left this

theorem cast_invp (a : Nat) : ((inv p a : Nat) : ZMod p) = (a : ZMod p)⁻¹ :=
  cast_inv (by decide +kernel) (by decide +kernel) a

theorem cast_invn (a : Nat) : ((inv n a : Nat) : ZMod n) = (a : ZMod n)⁻¹ :=
  cast_inv (by decide +kernel) (by decide +kernel) a

theorem delta : secp256k1.Δ ≠ 0 := by
  have h : secp256k1.Δ = -((21168 : Nat) : ZMod p) := by
    simp only [WeierstrassCurve.Δ, WeierstrassCurve.b₂, WeierstrassCurve.b₄, WeierstrassCurve.b₆, WeierstrassCurve.b₈, secp256k1]
    push_cast
    ring
  rw [h, neg_ne_zero, Ne, cast_eq_zero_iff]
  decide +kernel

theorem nonsingular {x y : ZMod p} (h : y ^ 2 = x ^ 3 + 7) : secp256k1.Nonsingular x y := by
  rw [← WeierstrassCurve.Affine.equation_iff_nonsingular_of_Δ_ne_zero delta, WeierstrassCurve.Affine.equation_iff]
  simpa [secp256k1] using h

theorem equation {x y : ZMod p} (h : secp256k1.Nonsingular x y) : y ^ 2 = x ^ 3 + 7 := by
  have := h.1
  rw [WeierstrassCurve.Affine.equation_iff] at this
  simpa [secp256k1] using this

/-- The pair of numbers stands for the point. -/
inductive Rep : Point → secp256k1.Point → Prop where
  | zero : Rep none 0
  | some {x y : Nat} (hx : x < p) (hy : y < p) (h : secp256k1.Nonsingular (x : ZMod p) (y : ZMod p)) :
      Rep (some (x, y)) (.some (x : ZMod p) (y : ZMod p) h)

theorem rep_none {P : secp256k1.Point} (h : Rep none P) : P = 0 := by cases h; rfl

theorem rep_mk {x y : Nat} {X Y : ZMod p} (hx : x < p) (hy : y < p) (ex : (x : ZMod p) = X) (ey : (y : ZMod p) = Y)
    (h : secp256k1.Nonsingular X Y) : Rep (Option.some (x, y)) (.some X Y h) := by
  subst ex ey
  exact .some hx hy h

theorem rep_third {x1 y1 x2 y2 l : Nat} (h1 : x1 < p) (h2 : y1 < p) (h3 : x2 < p)
    {hn1 : secp256k1.Nonsingular (x1 : ZMod p) (y1 : ZMod p)} {hn2 : secp256k1.Nonsingular (x2 : ZMod p) (y2 : ZMod p)}
    (hxy : ¬ ((x1 : ZMod p) = x2 ∧ (y1 : ZMod p) = secp256k1.negY x2 y2))
    (hl : (l : ZMod p) = secp256k1.slope x1 x2 y1 y2) :
    Rep (third x1 y1 x2 l) (.some (x1 : ZMod p) (y1 : ZMod p) hn1 + .some (x2 : ZMod p) (y2 : ZMod p) hn2) := by
  rw [WeierstrassCurve.Affine.Point.add_some hxy]
  unfold third
  simp only [force_eq]
  have e1 : ((sub (sub (l * l % p) x1) x2 : Nat) : ZMod p) = secp256k1.addX x1 x2 (secp256k1.slope x1 x2 y1 y2) := by
    rw [cast_sub _ h3, cast_sub _ h1, ZMod.natCast_mod, Nat.cast_mul, hl]
    simp only [WeierstrassCurve.Affine.addX, secp256k1]
    ring
  have e2 : ((sub (l * sub x1 (sub (sub (l * l % p) x1) x2) % p) y1 : Nat) : ZMod p) =
      secp256k1.addY x1 x2 y1 (secp256k1.slope x1 x2 y1 y2) := by
    rw [cast_sub _ h2, ZMod.natCast_mod, Nat.cast_mul, cast_sub _ (sub_lt _ _), e1, hl]
    simp only [WeierstrassCurve.Affine.addY, WeierstrassCurve.Affine.negAddY, WeierstrassCurve.Affine.negY]
    simp only [secp256k1]
    ring
  exact rep_mk (sub_lt _ _) (sub_lt _ _) e1 e2 _

theorem rep_add {P Q : Point} {P' Q' : secp256k1.Point} (hP : Rep P P') (hQ : Rep Q Q') : Rep (add P Q) (P' + Q') := by
  cases hP with
  | zero => rw [zero_add]; exact hQ
  | @some x1 y1 hx1 hy1 hn1 =>
    cases hQ with
    | zero => rw [add_zero]; exact .some hx1 hy1 hn1
    | @some x2 y2 hx2 hy2 hn2 =>
      have hneg : ∀ x y : ZMod p, secp256k1.negY x y = -y := by
        intro x y
        simp [WeierstrassCurve.Affine.negY, secp256k1]
      have hyy : ((y1 : ZMod p) = secp256k1.negY x2 y2) ↔ (y1 + y2) % p = 0 := by
        rw [hneg, eq_neg_iff_add_eq_zero, ← Nat.cast_add, cast_eq_zero_iff]
      unfold add
      by_cases hx : x1 = x2
      · subst hx
        simp only [if_true]
        by_cases hy : (y1 + y2) % p = 0
        · rw [if_pos hy, WeierstrassCurve.Affine.Point.add_of_Y_eq rfl (hyy.mpr hy)]
          exact .zero
        · rw [if_neg hy, force_eq]
          have hy' := fun h => hy (hyy.mp h)
          refine rep_third hx1 hy1 hx2 (fun h => hy' h.2) ?_
          rw [WeierstrassCurve.Affine.slope_of_Y_ne rfl hy', ZMod.natCast_mod, Nat.cast_mul, ZMod.natCast_mod, cast_invp,
            ZMod.natCast_mod, hneg, div_eq_mul_inv]
          simp only [secp256k1]
          push_cast
          ring
      · simp only [hx, if_false, force_eq]
        have hx' : (x1 : ZMod p) ≠ x2 := fun h => hx ((cast_inj hx1 hx2).mp h)
        refine rep_third hx1 hy1 hx2 (fun h => hx' h.1) ?_
        rw [WeierstrassCurve.Affine.slope_of_X_ne hx', ZMod.natCast_mod, Nat.cast_mul, cast_sub _ hy2, cast_invp, cast_sub _ hx2,
          div_eq_mul_inv]

theorem rep_mulFuel : ∀ (fuel k : Nat) {P : Point} {P' : secp256k1.Point}, k < 2 ^ fuel → Rep P P' →
    Rep (mulFuel fuel k P) (k • P') := by
  intro fuel
  induction fuel with
  | zero =>
    intro k P P' hk _
    obtain rfl : k = 0 := by omega
    rw [zero_nsmul]
    exact .zero
  | succ f ih =>
    intro k P P' hk hP
    unfold mulFuel
    by_cases h0 : k = 0
    · subst h0
      simp only [if_true, zero_nsmul]
      exact .zero
    · simp only [h0, if_false]
      have h := ih (k / 2) (by rw [pow_succ] at hk; omega) (rep_add hP hP)
      rw [← two_smul ℕ P', smul_smul] at h
      split
      · rename_i h1
        have := rep_add hP h
        rw [← succ_nsmul'] at this
        rwa [show k / 2 * 2 + 1 = k by omega] at this
      · rwa [show k / 2 * 2 = k by omega] at h

theorem rep_mul {k : Nat} {P : Point} {P' : secp256k1.Point} (hk : k < 2 ^ 256) (h : Rep P P') : Rep (mul k P) (k • P') :=
  rep_mulFuel 256 k hk h

/-! ## The base point -/

theorem g_nonsingular : secp256k1.Nonsingular (gx : ZMod p) (gy : ZMod p) := by
  apply nonsingular
  have h : gy ^ 2 % p = (gx ^ 3 + 7) % p := by decide +kernel
  have := (ZMod.natCast_eq_natCast_iff' (gy ^ 2) (gx ^ 3 + 7) p).mpr h
  push_cast at this
  exact this

end Secp

namespace Spec

/-- SEC 2, 2.4.1: the base point. -/
def base : secp256k1.Point := .some (Secp.gx : ZMod Secp.p) (Secp.gy : ZMod Secp.p) Secp.g_nonsingular

end Spec

namespace Secp

open Spec

theorem rep_base : Rep G base := .some (by decide +kernel) (by decide +kernel) g_nonsingular

theorem base_ne_zero : base ≠ 0 := WeierstrassCurve.Affine.Point.some_ne_zero _

theorem n_base : n • base = 0 := by
  have h := rep_mul (k := n) (by decide +kernel) rep_base
  rw [mul_n] at h
  exact rep_none h

theorem order_base : addOrderOf base = n := addOrderOf_eq_prime n_base base_ne_zero

end Secp
end BCT
