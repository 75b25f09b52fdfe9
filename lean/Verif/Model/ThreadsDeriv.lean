import Verif.Model.Threads
/-!
# A derivative chain shared by threads (chain.rs:440-738, blockchaintree.rs:85-101, 369-413)

`get_derivative_chain` returns clones of one handle (blockchaintree.rs:89-91), which share the databases, the height
behind its lock and the anchor; other threads can keep such clones, and clones of the main chain handle, while the
tree emits.
-/

namespace BCT

/-- What threads share that work on the node and on one open derivative chain. `deriv.held`: some thread holds the
height lock of the derivative chain (chain.rs:443) for writing. -/
structure Shared where
  node : Node
  deriv : Locked DerivativeChain

namespace Shared

/-- A call that does not touch the derivative chain. -/
def onNode {α : Type} : Prog Node α → Prog Shared α
  | .done o => .done o
  | .step next rest => .step (fun s => (next s.node).map fun n => { s with node := n }) (fun s => onNode (rest s.node))

/-- Reading shared data of the derivative chain. -/
def read {α : Type} (f : DerivativeChain → Outcome α) : Prog Shared α :=
  .step (fun s => some s) (fun s => .done (f s.deriv.data))

/-- Writing shared data of the derivative chain. -/
def write (f : DerivativeChain → DerivativeChain) : Prog Shared Unit :=
  .step (fun s => some { s with deriv := { s.deriv with data := f s.deriv.data } }) (fun _ => .done (.ok ()))

/-- `*self.height.read()`. -/
def readHeight : Prog Shared U256 :=
  .step (fun s => if s.deriv.held then none else some s) (fun s => .done (.ok s.deriv.data.chain.height))

/-- `self.height.write()`. -/
def lock : Prog Shared Unit :=
  .step (fun s => if s.deriv.held then none else some { s with deriv := { s.deriv with held := true } })
    (fun _ => .done (.ok ()))

/-- The guard of the lock is dropped. -/
def unlock : Prog Shared Unit :=
  .step (fun s => some { s with deriv := { s.deriv with held := false } }) (fun _ => .done (.ok ()))

/-- The chain's fields, replaced. -/
def setChain (f : Chain → Chain) (d : DerivativeChain) : DerivativeChain := { d with chain := f d.chain }

/-- chain.rs:582-614 `DerivativeChain::add_block`. The lock is held from line 589 to the end. -/
def addBlock (E : Env) (b : DerivativeBlock) : Prog Shared Unit := do
  lock
  let h ← read (fun d => .ok d.chain.height)
  if b.defaultInfo.height ≠ h then do
    unlock
    .lift (.err .chainAddingBlock)
  else do
    write (setChain fun s => { s with blocks := s.blocks.insert h.toBE.val b.dump })
    write (setChain fun s =>
      { s with heightReference := s.heightReference.insert (E.sha256 b.dump).val h.toBE.val })
    match h.add U256.one with
    | .ok h' => do
      write (setChain fun s => { s with height := h' })
      unlock
    | o => do
      unlock
      let _ ← .lift o
      pure ()

/-- chain.rs:617-638 `find_raw_by_height`. -/
def findRawByHeight (height : U256) : Prog Shared (Option Bytes) := do
  let h ← readHeight
  if h.val < height.val then pure none
  else read (fun d => .ok (d.chain.blocks.get height.toBE.val))

/-- chain.rs:641-661 `find_raw_by_hash`. -/
def findRawByHash (hash : Hash) : Prog Shared (Option Bytes) := do
  let r ← read (fun d => .ok (d.chain.heightReference.get hash.val))
  match r with
  | none => pure none
  | some h => do
    let k ← .lift (U256.fromBE h)
    findRawByHeight k

/-- chain.rs:686-695 `get_last_raw_block`. -/
def getLastRawBlock : Prog Shared (Option Bytes) := do
  let h ← readHeight
  if h.val = 0 then pure none
  else do
    let i ← .lift (h.sub U256.one)
    findRawByHeight i

/-- chain.rs:698-714 `get_last_block`. -/
def getLastBlock : Prog Shared (Option DerivativeBlock) := do
  let dump ← getLastRawBlock
  .lift (DerivativeChain.decode dump)

/-- The config file with `data` written at position `off`. -/
def writeConfigAt (off : Nat) (data : DerivativeChain → Bytes) (d : DerivativeChain) : DerivativeChain :=
  { d with chain := { d.chain with config := d.chain.config.map (Node.writeAt off (data d)) } }

/-- chain.rs:527-556 `dump_config`: the height and the difficulty are read one after the other, after the file was
truncated. Every call has its own handle and so its own position in the file. -/
def dumpConfig : Prog Shared Unit := do
  write (setChain fun s => { s with config := some [] })
  let h ← readHeight
  write (writeConfigAt 0 fun _ => h.toBE.val)
  let y ← read (fun d => .ok d.chain.difficulty)
  write (writeConfigAt 32 fun _ => y.val)
  write (writeConfigAt 64 fun d => d.genesisHash.val)

/-- chain.rs:559-575 `flush`. -/
def flush : Prog Shared Unit := do
  dumpConfig
  write (setChain fun s => { s with blocks := s.blocks.flush })
  write (setChain fun s => { s with heightReference := s.heightReference.flush })

/-- chain.rs:365-386 `find_by_hash` of the main chain. -/
def findMainByHash (hash : Hash) : Prog Shared (Option Block) := do
  let dump ← onNode (Node.findRawByHash hash)
  .lift (MainChain.decode dump)

/-- blockchaintree.rs:376-395: what the new block is built on. -/
def derivBase (E : Env) : Prog Shared (Hash × Hash × UInt64 × U256) := do
  let last ← getLastBlock
  match last with
  | some block => do
    let h ← .lift (block.defaultInfo.height.add U256.one)
    pure (block.hash E, block.defaultInfo.difficulty, block.defaultInfo.timestamp, h)
  | none => do
    let g ← read (fun d => .ok d.genesisHash)
    let found ← findMainByHash g
    match found with
    | none => .lift (.err .chainFindByHashE)
    | some block => pure (block.hash E, BEGINNING_DIFFICULTY, block.info.timestamp, U256.zero)

/-- blockchaintree.rs:369-413 `emmit_new_derivative_block` for the founder whose chain this is; the chain is open, so
`get_derivative_chain` (line 375) returns the handle from the map. -/
def emitDerivative (E : Env) (pow : BytesN 32) (founder : Address) (timestamp : UInt64) : Prog Shared DerivativeBlock := do
  let r ← derivBase E
  let good ← .lift (checkPow E r.1 r.2.1 [] pow.val)
  if !good then .lift (.err .treeWrongPow)
  else do
    let difficulty ← .lift (recalculateDifficulty E r.2.2.1 timestamp r.2.1)
    let block : DerivativeBlock := ⟨{ timestamp, pow, previousHash := r.1, height := r.2.2.2, difficulty, founder }⟩
    addBlock E block
    pure block

/-- The calls other threads make: on the node, or on the derivative chain. -/
inductive Call where
  | node (k : Node.AnyCall)
  | addBlock (b : DerivativeBlock)
  | flush
  | byHeight (height : U256)
  | byHash (hash : Hash)
  | last
  | emit (pow : BytesN 32) (founder : Address) (timestamp : UInt64)

/-- The steps of the call. -/
def Call.prog (E : Env) : Call → Prog Shared (Option Bytes)
  | .node k => onNode (k.prog E)
  | .addBlock b => do let _ ← Shared.addBlock E b; pure none
  | .flush => do let _ ← Shared.flush; pure none
  | .byHeight h => findRawByHeight h
  | .byHash h => findRawByHash h
  | .last => getLastRawBlock
  | .emit pow founder ts => do let b ← emitDerivative E pow founder ts; pure (some b.dump)

end Shared

end BCT
