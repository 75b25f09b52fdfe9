import Verif.Model.System
/-!
# Calls that are cut short

Every access to a database or to the disk can fail. The code then returns an error at once (`?` after each of them:
chain.rs:300-311, 419-434, blockchaintree.rs:119-130, 194-230, 507-511, 516-600); what was done before stays done, as
there is no code that undoes it. The same happens when the future of an asynchronous call (`flush`,
`emmit_new_main_block`, `emmit_new_derivative_block`) is dropped while it waits.

In both cases the call leaves the node in one of the states it passes through.
-/

namespace BCT

/-- The life of a node with crashes and restarts in which any call may also be cut short. `cut` is the only addition to
`Life`. -/
inductive FaultyLife (E : Env) : Moment → Prop where
  | start : FaultyLife E (.down Disk.empty)
  | opening (d : Disk) (t : Tree) : FaultyLife E (.down d) → t ∈ (openTree E d).trace → FaultyLife E (.busy t)
  | opened (d : Disk) : FaultyLife E (.down d) → (openTree E d).out = .ok () → FaultyLife E (.idle (openTree E d).final)
  | running (s t : Tree) (op : Op) : FaultyLife E (.idle s) → t ∈ (op.run E s).trace → FaultyLife E (.busy t)
  | call (s : Tree) (op : Op) : FaultyLife E (.idle s) → FaultyLife E (.idle (op.run E s).final)
  | cut (s t : Tree) (op : Op) : FaultyLife E (.idle s) → t ∈ (op.run E s).trace → FaultyLife E (.idle t)
  | crashIdle (s : Tree) (d : Disk) : FaultyLife E (.idle s) → Crash s d → FaultyLife E (.down d)
  | crashBusy (s : Tree) (d : Disk) : FaultyLife E (.busy s) → Crash s d → FaultyLife E (.down d)

/-- From `s`, by further calls that are completed or cut short, to the state given. -/
inductive FaultyLater (E : Env) (s : Tree) : Tree → Prop where
  | refl : FaultyLater E s s
  | call (s' : Tree) (op : Op) : FaultyLater E s s' → FaultyLater E s (op.run E s').final
  | cut (s' t : Tree) (op : Op) : FaultyLater E s s' → t ∈ (op.run E s').trace → FaultyLater E s t

/-- `FaultyHistory E seen s`: a fresh node reaches `s` without being stopped, by calls that are completed or cut short,
and passes through the states `seen` on the way. -/
inductive FaultyHistory (E : Env) : List Tree → Tree → Prop where
  | fresh : FaultyHistory E [] (openTree E Disk.empty).final
  | call (seen : List Tree) (s : Tree) (op : Op) : FaultyHistory E seen s →
      FaultyHistory E (seen ++ s :: (op.run E s).trace) (op.run E s).final
  | cut (seen : List Tree) (s t : Tree) (op : Op) (before after : List Tree) : FaultyHistory E seen s →
      (op.run E s).trace = before ++ t :: after → FaultyHistory E (seen ++ s :: before) t

/-- States a node reaches without being stopped, by calls that are completed or cut short. -/
def FaultyRun (E : Env) (s : Tree) : Prop := FaultyLater E (openTree E Disk.empty).final s

end BCT
