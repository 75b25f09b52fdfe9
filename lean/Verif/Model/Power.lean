import Verif.Model.System
/-!
# Power failures

`Db::flush_async` makes sled sync its files. `dump_config` (chain.rs:148-172, 527-556) writes the config file and does not
sync it (`sync_all` is not called anywhere), so when the machine itself stops, the file may be found with any of the
contents it has had since the machine was started, or missing, if it was missing then. Contents between two writes of the
program (part of one `write_all`) are left out, and so are directories whose entries are lost.
-/

namespace BCT

/-- The power fails while the node is in state `t`, after the states `past`: every database is left in one of its
recoverable states, as by `Crash`, and every config file with one of the contents it has had. -/
structure PowerLoss (past : List Tree) (t : Tree) (d : Disk) : Prop where
  blocks : d.blocks ∈ t.main.chain.blocks.recov
  heightReference : d.heightReference ∈ t.main.chain.heightReference.recov
  transactions : d.transactions ∈ t.main.transactions.recov
  config : ∃ p ∈ t :: past, d.config = p.main.chain.config
  summary : d.summary ∈ t.summary.recov
  oldSummary : d.oldSummary ∈ t.oldSummary.recov
  gas : d.gas ∈ t.gas.recov
  oldGas : d.oldGas ∈ t.oldGas.recov
  deriv : ∀ n, (d.deriv n).blocks ∈ (t.derivFiles n).blocks.recov ∧
    (d.deriv n).heightReference ∈ (t.derivFiles n).heightReference.recov ∧
    ∃ p ∈ t :: past, (d.deriv n).config = (p.derivFiles n).config

/-- Moments that can occur in the life of a node on a machine whose power fails at any points, with the states it has
passed through since the machine was last started. The node is opened once each time the machine is started. -/
inductive Powered (E : Env) : List Tree → Moment → Prop where
  | start : Powered E [] (.down Disk.empty)
  | opening (past l r : List Tree) (d : Disk) (t : Tree) : Powered E past (.down d) →
      (openTree E d).trace = l ++ t :: r → Powered E (d.boot :: l) (.busy t)
  | opened (past : List Tree) (d : Disk) : Powered E past (.down d) → (openTree E d).out = .ok () →
      Powered E (d.boot :: (openTree E d).trace) (.idle (openTree E d).final)
  | running (past l r : List Tree) (s t : Tree) (op : Op) : Powered E past (.idle s) →
      (op.run E s).trace = l ++ t :: r → Powered E (past ++ l) (.busy t)
  | call (past : List Tree) (s : Tree) (op : Op) : Powered E past (.idle s) →
      Powered E (past ++ (op.run E s).trace) (.idle (op.run E s).final)
  | failIdle (past : List Tree) (s : Tree) (d : Disk) : Powered E past (.idle s) → PowerLoss past s d →
      Powered E [] (.down d)
  | failBusy (past : List Tree) (s : Tree) (d : Disk) : Powered E past (.busy s) → PowerLoss past s d →
      Powered E [] (.down d)

end BCT
