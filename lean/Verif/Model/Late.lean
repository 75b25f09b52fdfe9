import Verif.Model.Threads
/-!
# Flushing with writes in the background

`tokio::fs::File::write_all` hands the bytes to a background thread and returns; the next operation on the same handle
waits for it, but dropping the handle does not. So `dump_config` (chain.rs:148-172, no `flush` of the file) returns while
its last write is still to come, and `MainChain::flush` (chain.rs:179-201) goes on, and may return, before it is made. This
file is that refinement of `Node.mainFlush`; everything else is as in `Model.Threads`.
-/

namespace BCT
namespace Late

/-- What is left to do of `flush` once `dump_config` has returned: the write still in the background, and flushing the
three databases (chain.rs:182-198). -/
inductive Job where
  | last
  | blocks
  | references
  | transactions
  deriving DecidableEq

/-- The step. -/
def Job.write (d : Hash) : Job → Tree → Tree
  | .last => Node.writeConfigAt 32 d.val
  | .blocks => Node.setChain fun c => { c with blocks := c.blocks.flush }
  | .references => Node.setChain fun c => { c with heightReference := c.heightReference.flush }
  | .transactions => fun t => { t with main := { t.main with transactions := t.main.transactions.flush } }

/-- The steps, one after the other. -/
def run (d : Hash) : List Job → Prog Node Unit
  | [] => pure ()
  | j :: js => do
    Node.write (j.write d)
    run d js

/-- The orders that can occur: the databases are flushed in order, the write in the background is made before, between or
after (`late` of them come before it). -/
def jobs : Fin 4 → List Job
  | ⟨0, _⟩ => [.last, .blocks, .references, .transactions]
  | ⟨1, _⟩ => [.blocks, .last, .references, .transactions]
  | ⟨2, _⟩ => [.blocks, .references, .last, .transactions]
  | ⟨3, _⟩ => [.blocks, .references, .transactions, .last]

/-- chain.rs:179-201 `flush` of the main chain. -/
def flush (late : Fin 4) : Prog Node Unit := do
  Node.write (Node.setChain fun c => { c with config := some [] })
  let h ← Node.readHeight
  Node.write (Node.writeConfigAt 0 h.toBE.val)
  let d ← Node.read (fun t => .ok t.main.chain.difficulty)
  run d (jobs late)

/-- The call has returned: nothing is left to do, or only the write in the background. -/
def Returned (p : Prog Node Unit) : Prop := p = .done (.ok ()) ∨ ∃ d, p = run d [.last]

/-- Calls of threads sharing the node. -/
inductive Call where
  | flush (late : Fin 4)
  | addBlock (b : Block)
  | addTransaction (t : Transaction)
  | send (tx : Transaction)
  | lookup (l : Node.Lookup)

/-- The call writes the config file. -/
def Call.Flushes : Call → Prop
  | .flush _ => True
  | _ => False

/-- The steps of the call. -/
def Call.prog (E : Env) : Call → Prog Node Unit
  | .flush late => Late.flush late
  | .addBlock b => Node.addBlock E b
  | .addTransaction t => Node.addTransaction E t
  | .send tx => Node.sendTransaction E tx
  | .lookup l => do let _ ← l.prog; pure ()

/-- A node in state `t`, on which the threads are about to make their calls. -/
def start {ι : Type} (E : Env) (t : Tree) (calls : ι → Call) : Config ι Node Unit := ⟨⟨t, false⟩, fun i => (calls i).prog E⟩

end Late
end BCT
