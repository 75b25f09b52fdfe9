import Verif.Model.ThreadsDeriv
/-!
# Calls on the node and on a derivative chain that are cut short

As in `Model.ThreadsCut`: a call of a thread can end early, what it did before stays done, and its guard of a height lock
(chain.rs:292 for the main chain, chain.rs:589 for a derivative chain), if it holds one, is dropped like every other local.
-/

namespace BCT.Shared
variable {α : Type}

/-- Whether the thread holds a lock after a step, from whether it did before. -/
def holdsAfter (mine before after : Bool) : Bool := if mine then after else !before && after

/-- Which locks the thread holds after the step: the main chain's, the derivative chain's. -/
def holds (mine : Bool × Bool) (s : Shared) : Option Shared → Bool × Bool
  | none => mine
  | some s' => (holdsAfter mine.1 s.node.held s'.node.held, holdsAfter mine.2 s.deriv.held s'.deriv.held)

/-- The guards of a thread that holds the locks `mine` are dropped. -/
def release (mine : Bool × Bool) (s : Shared) : Shared :=
  ⟨⟨s.node.data, if mine.1 then false else s.node.held⟩, ⟨s.deriv.data, if mine.2 then false else s.deriv.held⟩⟩

/-- The call, cut short after `k` steps (unless it ends before) and then returning `o`. `mine` says which locks its thread
holds. -/
def cut (o : Outcome α) : Nat → Bool × Bool → Prog Shared α → Prog Shared α
  | _, _, .done r => .done r
  | 0, mine, .step _ _ => if mine.1 || mine.2 then .step (fun s => some (release mine s)) (fun _ => .done o) else .done o
  | k + 1, mine, .step next rest => .step next (fun s => cut o k (holds mine s (next s)) (rest s))

/-- The call of a thread that may be cut short. -/
def mayCut (stop : Option (Nat × Outcome α)) (p : Prog Shared α) : Prog Shared α :=
  match stop with
  | none => p
  | some (k, o) => cut o k (false, false) p

end BCT.Shared
