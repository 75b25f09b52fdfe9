import Verif.Spec.Numbers
/-!
# Specification vocabulary: which transaction goes first

Nothing here mentions the model.
-/

namespace Spec

/-- The number a machine reads from bytes in memory (`little`: least significant byte first). -/
def wordValue (little : Bool) (b : List UInt8) : Nat := value (if little then b.reverse else b)

/-- The `i`-th group of eight bytes. -/
def group (i : Nat) (h : List UInt8) : List UInt8 := (h.drop (8 * i)).take 8

/-- `h` goes before `k`: in the first of the four groups in which they differ, `h` has the smaller number. -/
def HashBefore (little : Bool) (h k : List UInt8) : Prop :=
  ∃ i < 4, (∀ j < i, group j h = group j k) ∧ wordValue little (group i h) < wordValue little (group i k)

/-- Earlier timestamps go first, ties are broken by hash. -/
def GoesBefore (little : Bool) (time : Nat) (hash : List UInt8) (time' : Nat) (hash' : List UInt8) : Prop :=
  time < time' ∨ time = time' ∧ HashBefore little hash hash'

end Spec
