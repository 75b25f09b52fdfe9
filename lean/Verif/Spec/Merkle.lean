/-!
# Specification: perfect binary trees

Nothing here mentions the model.
-/

namespace Spec

variable {α : Type}

/-- Root of the perfect binary tree with `2^k` leaves: the first half of the leaves is the left subtree,
the second half the right one. (`default` is only used if there are too few leaves.) -/
def perfectRoot (node : α → α → α) (default : α) : Nat → List α → α
  | 0, leaves => leaves.headD default
  | k + 1, leaves =>
    node (perfectRoot node default k (leaves.take (2 ^ k)))
         (perfectRoot node default k (leaves.drop (2 ^ k)))

/-- The list extended with `pad` to length `n`. -/
def padTo (pad : α) (n : Nat) (l : List α) : List α := l ++ List.replicate (n - l.length) pad

/-- `2^p` is the least power of two strictly above `n`. -/
def IsNextPower (n p : Nat) : Prop := n < 2 ^ p ∧ ∀ q, n < 2 ^ q → p ≤ q

end Spec
