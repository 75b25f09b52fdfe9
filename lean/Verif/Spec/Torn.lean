import Verif.Spec.Frail
/-!
# Specification: a node that dies in the middle of writing things out

The node of `Spec/Frail.lean` may also die inside the calls that write the configuration files. Such a file is written
before the blocks it counts are, and the old one is gone then.
-/

namespace Spec
open BCT (Bytes BytesN Hash Address U256 Env Block DerivativeBlock Op)

namespace Frail

/-- A point in a call: what may be left then, and how many blocks the configuration files count. -/
structure Instant where
  frail : Frail
  count : Nat
  countOf : Address → Option (Hash × Nat)

/-- No configuration file was written since. -/
def now (f : Frail) : Instant := ⟨f, f.kept, f.keptOf⟩

/-- The main chain's configuration file was written, and nothing else is known to be. -/
def counted (f : Frail) : Instant := ⟨f, f.node.blocks.length, f.keptOf⟩

/-- The configuration file of a derivative chain was written, and nothing else is known to be. -/
def countedOf (f : Frail) (o : Address) : Instant := ⟨f, f.kept, (f.keep o).keptOf⟩

/-- Everything was written out, and the balances put aside were replaced by these. -/
def aged (f : Frail) (coins gas : Book) : Frail :=
  { f.flushed with node := { f.node with oldCoins := coins, oldGas := gas }, oldCoins := [coins], oldGas := [gas] }

/-- The points of a call at which the configuration files are complete. The end of an epoch writes everything out,
removes the balances put aside before, first the coins and then the gas, and puts aside new ones in the same order. -/
def instants (E : Env) (f : Frail) (op : Op) : List Instant :=
  let (r, n) := f.node.stepOver E f.found op
  f.now :: match op with
    | .flush | .mainFlush => [f.counted]
    | .derivFlush o => [(f.moved n).countedOf o]
    | .emitMain _ _ _ _ =>
      if r = .done ∧ f.node.blocks.length % 1000000 = 0 then
        [f.counted, (f.aged [] f.node.oldGas).now, (f.aged [] []).now, (f.aged f.node.coins []).now, (f.turned n).now]
      else [(f.moved n).now]
    | _ => [(f.moved n).now]

/-- All blocks the configuration files count are left. -/
def Instant.Whole {E : Env} (m : Instant) (l : Left E m.frail) : Prop :=
  m.count ≤ l.blocks ∧ ∀ o, ((m.countOf o).map (·.2)).getD 0 ≤ l.blocksOf o

/-- What can happen to the node if no death leaves less than all blocks the configuration files count. -/
inductive Suffers (E : Env) : Frail → List Incident → List Reply → Frail → Prop where
  | nil (f : Frail) : Suffers E f [] [] f
  | call {f f' : Frail} {op : Op} {evs : List Incident} {rs : List Reply} :
      Suffers E (f.step E op).2 evs rs f' → Suffers E f (.call op :: evs) ((f.step E op).1 :: rs) f'
  | crash {f f₁ f' : Frail} {evs : List Incident} {rs : List Reply} :
      Starts E f f₁ → Suffers E f₁ evs rs f' → Suffers E f (.crash :: evs) (.done :: rs) f'
  | die {f f₁ f' : Frail} {op : Op} {m : Instant} {l : Left E m.frail} {evs : List Incident} {rs : List Reply} :
      m ∈ f.instants E op → m.Whole l →
      (f₁ = m.frail.rebornAt E l m.count m.countOf ∨ Starts E (m.frail.rebornAt E l m.count m.countOf) f₁) →
      Suffers E f₁ evs rs f' → Suffers E f (.die op :: evs) (.done :: rs) f'

end Frail

end Spec
