import Verif.Model.Power
/-!
# Processes that die and machines that stop

sled hands what it writes to the operating system and asks for it to reach the disk in `flush_async` only. After the death
of a process the next one therefore reads what may still be lost when the machine itself stops. `Life` (Model/System.lean)
has the deaths, `Powered` (Model/Power.lean) the power failures; here are both.
-/

namespace BCT

/-- What the death of a process leaves of a database (`recov`, latest first): one of the states it may be recovered to. As
long as the machine runs, the next process finds this state; a power failure may still bring back an earlier one. -/
def Db.LeftBy (d e : Db) : Prop := ∃ newer older, d.recov = newer ++ e.cur :: older ∧ e.recov = e.cur :: older

/-- The process dies in state `t`; the next process starts with the databases of `b`. Memory is lost; files keep what has
been written. `BlockChainTree::new` sets the remaining fields of `b`. -/
structure KilledAt (t b : Tree) : Prop where
  blocks : t.main.chain.blocks.LeftBy b.main.chain.blocks
  heightReference : t.main.chain.heightReference.LeftBy b.main.chain.heightReference
  transactions : t.main.transactions.LeftBy b.main.transactions
  config : b.main.chain.config = t.main.chain.config
  summary : t.summary.LeftBy b.summary
  oldSummary : t.oldSummary.LeftBy b.oldSummary
  gas : t.gas.LeftBy b.gas
  oldGas : t.oldGas.LeftBy b.oldGas
  deriv : ∀ n, (t.derivFiles n).blocks.LeftBy (b.derivFiles n).blocks ∧
    (t.derivFiles n).heightReference.LeftBy (b.derivFiles n).heightReference ∧
    (b.derivFiles n).config = (t.derivFiles n).config

/-- What a machine with a node may be at. -/
inductive Stage where
  /-- the node is open and no call is running -/
  | idle (t : Tree)
  /-- a call, or `new`, is running -/
  | busy (t : Tree)
  /-- no process is running -/
  | down (b : Tree)

/-- The databases and files at a stage. -/
def Stage.state : Stage → Tree
  | .idle t => t
  | .busy t => t
  | .down b => b

/-- From one stage to another without a power failure: the node is opened, called and killed, in any order and any number
of times. The list has the states passed through since the machine was started. -/
inductive PowerOn (E : Env) (past0 : List Tree) (m0 : Stage) : List Tree → Stage → Prop where
  | refl : PowerOn E past0 m0 past0 m0
  | opening (past l r : List Tree) (b t : Tree) : PowerOn E past0 m0 past (.down b) →
      (Tree.new E b).trace = l ++ t :: r → PowerOn E past0 m0 (past ++ b :: l) (.busy t)
  | opened (past : List Tree) (b : Tree) : PowerOn E past0 m0 past (.down b) → (Tree.new E b).out = .ok () →
      PowerOn E past0 m0 (past ++ b :: (Tree.new E b).trace) (.idle (Tree.new E b).final)
  | running (past l r : List Tree) (s t : Tree) (op : Op) : PowerOn E past0 m0 past (.idle s) →
      (op.run E s).trace = l ++ t :: r → PowerOn E past0 m0 (past ++ s :: l) (.busy t)
  | call (past : List Tree) (s : Tree) (op : Op) : PowerOn E past0 m0 past (.idle s) →
      PowerOn E past0 m0 (past ++ s :: (op.run E s).trace) (.idle (op.run E s).final)
  | killIdle (past : List Tree) (s b : Tree) : PowerOn E past0 m0 past (.idle s) → KilledAt s b →
      PowerOn E past0 m0 (past ++ [s]) (.down b)
  | killBusy (past : List Tree) (s b : Tree) : PowerOn E past0 m0 past (.busy s) → KilledAt s b →
      PowerOn E past0 m0 (past ++ [s]) (.down b)

/-- The stages of a machine that begins with an empty directory and whose power fails at any points, with the states passed
through since it was last started. -/
inductive Machine (E : Env) : List Tree → Stage → Prop where
  | first (past : List Tree) (m : Stage) : PowerOn E [] (.down Disk.empty.boot) past m → Machine E past m
  | again (past past' : List Tree) (m m' : Stage) (d : Disk) : Machine E past m → PowerLoss past m.state d →
      PowerOn E [] (.down d.boot) past' m' → Machine E past' m'

end BCT
