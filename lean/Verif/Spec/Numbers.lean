/-!
# Specification vocabulary: numbers and bytes

Nothing here mentions the model.
-/

namespace Spec

/-- The number a byte string denotes, most significant byte first. -/
def value : List UInt8 → Nat
  | [] => 0
  | b :: bs => b.toNat * 256 ^ bs.length + value bs

/-- The number of bits needed to write `n` (0 for 0): the least `k` with `n < 2^k`. -/
def IsBitLength (n k : Nat) : Prop := n < 2 ^ k ∧ ∀ j, n < 2 ^ j → k ≤ j

end Spec
