/-!
# Specification: a map from addresses to numbers

Nothing here mentions the model.
-/

namespace Spec

/-- What every known address holds. -/
abbrev FundsMap := List UInt8 → Option Nat

/-- One address changed. -/
def FundsMap.update (f : FundsMap) (a : List UInt8) (n : Nat) : FundsMap := fun q => if q = a then some n else f q

/-- What an address holds; unknown addresses hold nothing. -/
def FundsMap.funds (f : FundsMap) (a : List UInt8) : Nat := (f a).getD 0

/-- Calls that change the map. -/
inductive FundsCall where
  | add (a : List UInt8) (n : Nat)
  | decrease (a : List UInt8) (n : Nat)

/-- The map after the call. Adding nothing does not make an address known. More than 256 bits cannot be held, less than
nothing neither. -/
def FundsCall.run : FundsCall → FundsMap → FundsMap
  | .add a n, f => if n = 0 then f else if f.funds a + n < 2 ^ 256 then f.update a (f.funds a + n) else f
  | .decrease a n, f =>
    match f a with
    | none => f
    | some m => if n ≤ m then f.update a (m - n) else f

end Spec
