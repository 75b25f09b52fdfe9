import Verif.Model.Threads
/-!
# Calls of threads that are cut short

A call of a thread can end early: an access to a database or the disk fails (`?` after each of them), something it calls
panics, or the future of an asynchronous call is dropped (`Model.Faults`). What it did before stays done. Its guard of the
height lock (chain.rs:292), if it holds it, is dropped like every other local.
-/

namespace BCT.Node
variable {α : Type}

/-- Whether the thread holds the height lock after the step, from whether it did before. -/
def holdsAfter (mine : Bool) (n : Node) : Option Node → Bool
  | none => mine
  | some n' => if mine then n'.held else !n.held && n'.held

/-- The call, cut short after `k` steps (unless it ends before) and then returning `o`. `mine` says whether its thread holds
the height lock. -/
def cut (o : Outcome α) : Nat → Bool → Prog Node α → Prog Node α
  | _, _, .done r => .done r
  | 0, true, .step _ _ => .step (fun n => some { n with held := false }) (fun _ => .done o)
  | 0, false, .step _ _ => .done o
  | k + 1, mine, .step next rest => .step next (fun n => cut o k (holdsAfter mine n (next n)) (rest n))

/-- The call of a thread that may be cut short. -/
def mayCut (stop : Option (Nat × Outcome α)) (p : Prog Node α) : Prog Node α :=
  match stop with
  | none => p
  | some (k, o) => cut o k false p

end BCT.Node
