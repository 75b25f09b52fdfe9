import Verif.Model.Tree
/-!
# Histories of a node: calls, crashes, restarts
-/

namespace BCT

/-- The public calls that can change a node. Calls on handles obtained from `get_main_chain` and
`get_derivative_chain` are included (the handles share the node's state). -/
inductive Op where
  | addBlock (b : Block)
  | addNewBlock (b : Block) (txs : List Transaction)
  | addTransaction (t : Transaction)
  | addTransactions (ts : List Transaction)
  | addAmount (owner : Bytes) (amount : U256)
  | setAmount (owner : Bytes) (amount : U256)
  | subAmount (owner : Bytes) (amount : U256)
  | sendAmount (source target : Bytes) (amount : U256)
  | addGas (owner : Bytes) (amount : U256)
  | subGas (owner : Bytes) (amount : U256)
  | sendGas (source target : Bytes) (amount : U256)
  | sendTransaction (t : Transaction)
  | emitMain (pow : BytesN 32) (founder : Address) (txs : List Hash) (timestamp : UInt64)
  | emitDerivative (pow : BytesN 32) (founder : Address) (timestamp : UInt64)
  | getDerivativeChain (owner : Address)
  | derivAddBlock (owner : Address) (b : DerivativeBlock)
  | derivFlush (owner : Address)
  | mainFlush
  | flush

/-- Forgetting a result. -/
def Act.void {σ α : Type} (x : Act σ α) : Act σ Unit := fun s =>
  ⟨(x s).out >>= fun _ => .ok (), (x s).final, (x s).trace⟩

/-- Running one public call. -/
def Op.run (E : Env) : Op → Act Tree Unit
  | addBlock b => Tree.onMain (MainChain.addBlock E b)
  | addNewBlock b txs => Tree.addNewBlock E b txs
  | addTransaction t => Tree.onMain (MainChain.addTransaction E t)
  | addTransactions ts => Tree.onMain (MainChain.addTransactions E ts)
  | addAmount o a => Tree.addAmount o a
  | setAmount o a => Tree.setAmount o a
  | subAmount o a => Tree.subAmount o a
  | sendAmount s t a => Tree.sendAmount s t a
  | addGas o a => Tree.addGas o a
  | subGas o a => Tree.subGas o a
  | sendGas s t a => Tree.sendGas s t a
  | sendTransaction t => Tree.sendTransaction E t
  | emitMain p f txs ts => (Tree.emitMain E p f txs ts).void
  | emitDerivative p f ts => (Tree.emitDerivative E p f ts).void
  | getDerivativeChain o => Tree.getDerivativeChain E o
  | derivAddBlock o b => do
      Tree.getDerivativeChain E o
      Tree.onDeriv o (DerivativeChain.addBlock E b)
  | derivFlush o => do
      Tree.getDerivativeChain E o
      Tree.onDeriv o DerivativeChain.flush
  | mainFlush => Tree.onMain MainChain.flush
  | flush => Tree.flush

/-- Files of one derivative chain while the node is down. -/
structure DerivDisk where
  blocks : KV
  heightReference : KV
  config : Option Bytes

/-- The node's directory while the node is down. -/
structure Disk where
  blocks : KV
  heightReference : KV
  transactions : KV
  config : Option Bytes
  summary : KV
  oldSummary : KV
  gas : KV
  oldGas : KV
  deriv : Bytes → DerivDisk

/-- An empty (or missing) directory. -/
def Disk.empty : Disk :=
  ⟨KV.empty, KV.empty, KV.empty, none, KV.empty, KV.empty, KV.empty, KV.empty,
    fun _ => ⟨KV.empty, KV.empty, none⟩⟩

/-- The state in which `BlockChainTree::new` starts on a directory. The fields `new` sets itself are
initialised with arbitrary values. -/
def Disk.boot (d : Disk) : Tree :=
  { main := { chain := { blocks := Db.open' d.blocks, heightReference := Db.open' d.heightReference,
                         height := U256.zero, difficulty := BEGINNING_DIFFICULTY, config := d.config },
              transactions := Db.open' d.transactions },
    summary := Db.open' d.summary, oldSummary := Db.open' d.oldSummary,
    gas := Db.open' d.gas, oldGas := Db.open' d.oldGas,
    derivFiles := fun n => ⟨Db.open' (d.deriv n).blocks, Db.open' (d.deriv n).heightReference, (d.deriv n).config⟩,
    derivMem := fun _ => none }

/-- Opening a node on a directory. -/
def openTree (E : Env) (d : Disk) : Res Tree Unit := Tree.new E d.boot

/-- The process stops while the node is in state `t`: every database is left in one of its recoverable
states, independently of the others; files keep what has been written. -/
structure Crash (t : Tree) (d : Disk) : Prop where
  blocks : d.blocks ∈ t.main.chain.blocks.recov
  heightReference : d.heightReference ∈ t.main.chain.heightReference.recov
  transactions : d.transactions ∈ t.main.transactions.recov
  config : d.config = t.main.chain.config
  summary : d.summary ∈ t.summary.recov
  oldSummary : d.oldSummary ∈ t.oldSummary.recov
  gas : d.gas ∈ t.gas.recov
  oldGas : d.oldGas ∈ t.oldGas.recov
  deriv : ∀ n, (d.deriv n).blocks ∈ (t.derivFiles n).blocks.recov ∧
    (d.deriv n).heightReference ∈ (t.derivFiles n).heightReference.recov ∧
    (d.deriv n).config = (t.derivFiles n).config

/-- A clean shutdown: dropping the node makes sled write everything out; `Chain.config` is not touched. -/
def Tree.close (t : Tree) : Disk :=
  { blocks := t.main.chain.blocks.cur, heightReference := t.main.chain.heightReference.cur,
    transactions := t.main.transactions.cur, config := t.main.chain.config,
    summary := t.summary.cur, oldSummary := t.oldSummary.cur, gas := t.gas.cur, oldGas := t.oldGas.cur,
    deriv := fun n => ⟨(t.derivFiles n).blocks.cur, (t.derivFiles n).heightReference.cur, (t.derivFiles n).config⟩ }

/-- States a node can reach without ever being stopped: from an empty directory, by any of the allowed
calls, whatever their outcome (a caught panic included). -/
inductive RunWith (E : Env) (allowed : Op → Prop) : Tree → Prop where
  | fresh : RunWith E allowed (openTree E Disk.empty).final
  | call (s : Tree) (op : Op) : RunWith E allowed s → allowed op → RunWith E allowed (op.run E s).final

/-- States a node can reach without ever being stopped, all calls allowed. -/
abbrev Run (E : Env) : Tree → Prop := RunWith E (fun _ => True)

/-- `Later E s s'`: from `s` some further calls lead to `s'`. -/
inductive Later (E : Env) (s : Tree) : Tree → Prop where
  | refl : Later E s s
  | call (s' : Tree) (op : Op) : Later E s s' → Later E s (op.run E s').final

/-- What can be observed of a node over time. -/
inductive Moment where
  /-- the node is open and no call is running -/
  | idle (t : Tree)
  /-- a call, or `new`, is running -/
  | busy (t : Tree)
  /-- the node is down -/
  | down (d : Disk)

/-- Moments that can occur in the life of a node with crashes at any point and restarts. -/
inductive Life (E : Env) : Moment → Prop where
  | start : Life E (.down Disk.empty)
  | opening (d : Disk) (t : Tree) : Life E (.down d) → t ∈ (openTree E d).trace → Life E (.busy t)
  | opened (d : Disk) : Life E (.down d) → (openTree E d).out = .ok () → Life E (.idle (openTree E d).final)
  | running (s t : Tree) (op : Op) : Life E (.idle s) → t ∈ (op.run E s).trace → Life E (.busy t)
  | call (s : Tree) (op : Op) : Life E (.idle s) → Life E (.idle (op.run E s).final)
  | crashIdle (s : Tree) (d : Disk) : Life E (.idle s) → Crash s d → Life E (.down d)
  | crashBusy (s : Tree) (d : Disk) : Life E (.busy s) → Crash s d → Life E (.down d)

end BCT
