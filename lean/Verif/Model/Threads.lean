import Mathlib.Logic.Function.Basic
import Verif.Model.Tree
/-!
# Concurrent calls

A call is a `Prog`: a tree of atomic steps on the shared state. A step may have to wait (for a lock). Between two
steps of a call any other thread may make steps. What is one step: one access to a sled database, one sled
transaction (sled runs transactions one at a time), one access to a lock.

The programs below are the functions of `Model.Chain` and `Model.Tree` again, cut into steps; `Lemmas.Threads` proves
that without interference each program does what the sequential function does.
-/

namespace BCT

/-- A call in progress. -/
inductive Prog (σ α : Type) where
  /-- the call has returned, failed or panicked -/
  | done (o : Outcome α)
  /-- one atomic step: the new shared state (`none`: the thread has to wait), and how to go on, given the state
  the step found -/
  | step (next : σ → Option σ) (rest : σ → Prog σ α)

namespace Prog
variable {σ α β : Type}

/-- Sequencing; errors (`?`) and panics end the call. -/
def bind : Prog σ α → (α → Prog σ β) → Prog σ β
  | done (.ok a), f => f a
  | done (.err e), _ => done (.err e)
  | done (.panic p), _ => done (.panic p)
  | done .ub, _ => done .ub
  | step next rest, f => step next (fun s => bind (rest s) f)

instance : Monad (Prog σ) where
  pure a := done (.ok a)
  bind := bind

/-- A computation without access to shared state. -/
def lift (o : Outcome α) : Prog σ α := done o

/-- A whole effectful call as one atomic step. -/
def atomic (x : Act σ α) : Prog σ α := step (fun s => some (x s).final) (fun s => done (x s).out)

/-- `change_context`. -/
def mapErr (e : Err) : Prog σ α → Prog σ α
  | done o => done (o.mapErr e)
  | step next rest => step next (fun s => mapErr e (rest s))

/-- The call without interference by other threads; `none` if it has to wait. -/
def solo : Prog σ α → σ → Option (Outcome α × σ)
  | done o, s => some (o, s)
  | step next rest, s =>
    match next s with
    | none => none
    | some s' => solo (rest s) s'

end Prog

/-! ## Schedules -/

/-- Threads (any number of them, indexed by `ι`) and what they share. -/
structure Config (ι σ α : Type) where
  shared : σ
  threads : ι → Prog σ α

/-- A step taken: by which thread, and the shared state before and after. -/
structure Event (ι σ : Type) where
  thread : ι
  before : σ
  after : σ

/-- All executions: in each step some thread that need not wait makes one step. -/
inductive Exec {ι σ α : Type} [DecidableEq ι] (start : Config ι σ α) :
    List (Event ι σ) → Config ι σ α → Prop where
  | refl : Exec start [] start
  | step {log : List (Event ι σ)} {c : Config ι σ α} (i : ι) {next : σ → Option σ} {rest : σ → Prog σ α} {s' : σ} :
      Exec start log c → c.threads i = .step next rest → next c.shared = some s' →
      Exec start (log ++ [⟨i, c.shared, s'⟩]) ⟨s', Function.update c.threads i (rest c.shared)⟩

/-! ## The node -/

/-- Shared data and a lock: whether some thread holds it. -/
structure Locked (τ : Type) where
  data : τ
  held : Bool

/-- What the threads of a node share: the state of the tree and whether some thread holds the main chain's height
lock for writing (`Arc<RwLock<U256>>`, chain.rs:56). A thread reading the height copies it and lets go of the lock
at once, so reading is one step that has to wait for a writer. -/
abbrev Node := Locked Tree

namespace Node

/-- One access to shared data that needs no lock. -/
def onTree {α : Type} (x : Act Tree α) : Prog Node α :=
  .atomic (x.zoom (·.data) (fun t n => { n with data := t }))

/-- Reading shared data. -/
def read {α : Type} (f : Tree → Outcome α) : Prog Node α :=
  .step (fun n => some n) (fun n => .done (f n.data))

/-- Writing shared data. -/
def write (f : Tree → Tree) : Prog Node Unit :=
  .step (fun n => some { n with data := f n.data }) (fun _ => .done (.ok ()))

/-- `*self.height.read()`. -/
def readHeight : Prog Node U256 :=
  .step (fun n => if n.held then none else some n) (fun n => .done (.ok n.data.main.chain.height))

/-- `self.height.write()`. -/
def lock : Prog Node Unit :=
  .step (fun n => if n.held then none else some { n with held := true }) (fun _ => .done (.ok ()))

/-- The guard of the lock is dropped: at the end of the call, also when it panics. -/
def unlock : Prog Node Unit :=
  .step (fun n => some { n with held := false }) (fun _ => .done (.ok ()))

/-- The main chain's fields, replaced. -/
def setChain (f : Chain → Chain) (t : Tree) : Tree := { t with main := { t.main with chain := f t.main.chain } }

/-- chain.rs:285-316 `MainChain::add_block`. The lock is held from line 292 to the end. -/
def addBlock (E : Env) (b : Block) : Prog Node Unit := do
  lock
  let h ← read (fun t => .ok t.main.chain.height)
  if b.info.height ≠ h then do
    unlock
    .lift (.err .chainAddingBlock)
  else do
    write (setChain fun s => { s with blocks := s.blocks.insert h.toBE.val b.dump })
    write (setChain fun s =>
      { s with heightReference := s.heightReference.insert (E.sha256 b.dump).val h.toBE.val })
    match h.add U256.one with
    | .ok h' => do
      write (setChain fun s => { s with height := h' })
      unlock
    | o => do
      unlock
      let _ ← .lift o
      pure ()

/-- chain.rs:319-340 `find_raw_by_height`. -/
def findRawByHeight (height : U256) : Prog Node (Option Bytes) := do
  let h ← readHeight
  if h.val < height.val then pure none
  else read (fun t => .ok (t.main.chain.blocks.get height.toBE.val))

/-- chain.rs:388-394 `get_last_raw_block`. -/
def getLastRawBlock : Prog Node (Option Bytes) := do
  let h ← readHeight
  let i ← .lift (h.sub U256.one)
  findRawByHeight i

/-- chain.rs:397-413 `get_last_block`. -/
def getLastBlock : Prog Node (Option Block) := do
  let dump ← getLastRawBlock
  .lift (MainChain.decode dump)

/-- chain.rs:343-363 `find_raw_by_hash`: the reference is read without the lock. -/
def findRawByHash (hash : Hash) : Prog Node (Option Bytes) := do
  let r ← read (fun t => .ok (t.main.chain.heightReference.get hash.val))
  match r with
  | none => pure none
  | some h => do
    let height ← .lift (U256.fromBE h)
    findRawByHeight height

/-- chain.rs:223-239 `add_transaction`. -/
def addTransaction (E : Env) (t : Transaction) : Prog Node Unit := onTree (Tree.onMain (MainChain.addTransaction E t))

/-- blockchaintree.rs:484-514 `send_transaction`. -/
def sendTransaction (E : Env) (tx : Transaction) : Prog Node Unit := do
  let senderGas ← read (fun t => t.getGas tx.sender)
  let senderAmount ← read (fun t => t.getAmount tx.sender)
  let gasRequired ← .lift (BYTE_GAS_PRICE.mulNat tx.getDumpSize)
  if senderGas.val < gasRequired.val then .lift (.err .treeNewTransaction)
  else do
    let last ← getLastBlock
    let lastBlock ← .lift (Outcome.ofOption last)
    let fee ← .lift (recalculateFee lastBlock.info.difficulty)
    let needed ← .lift (fee.add tx.amount)
    if senderAmount.val < needed.val then .lift (.err .treeNewTransaction)
    else do
      addTransaction E tx
      onTree (Tree.sendAmount tx.sender.val tx.receiver.val tx.amount)
      onTree (Tree.subGas tx.sender.val gasRequired)

/-- Writing to an open file at position `off`, whatever other handles have made of the file; a gap reads as zeros. -/
def writeAt (off : Nat) (data file : Bytes) : Bytes :=
  (file ++ List.replicate (off - file.length) 0).take off ++ data ++ file.drop (off + data.length)

/-- The config file with `data` written at position `off`. -/
def writeConfigAt (off : Nat) (data : Bytes) : Tree → Tree :=
  setChain fun c => { c with config := c.config.map (writeAt off data) }

/-- chain.rs:148-172 `dump_config`. The height is read under the lock, after the file was truncated. Every call has
its own handle and so its own position in the file. -/
def dumpConfig : Prog Node Unit := do
  write (setChain fun c => { c with config := some [] })
  let h ← readHeight
  write (writeConfigAt 0 h.toBE.val)
  let d ← read (fun t => .ok t.main.chain.difficulty)
  write (writeConfigAt 32 d.val)

/-- chain.rs:179-201 `flush` of the main chain. -/
def mainFlush : Prog Node Unit := do
  dumpConfig
  write (setChain fun c => { c with blocks := c.blocks.flush })
  write (setChain fun c => { c with heightReference := c.heightReference.flush })
  write (fun t => { t with main := { t.main with transactions := t.main.transactions.flush } })

/-- blockchaintree.rs:516-543 `flush`. -/
def flush : Prog Node Unit := do
  mainFlush
  write (fun t => { t with summary := t.summary.flush })
  write (fun t => { t with oldSummary := t.oldSummary.flush })
  write (fun t => { t with gas := t.gas.flush })
  write (fun t => { t with oldGas := t.oldGas.flush })

/-- blockchaintree.rs:545-600 `rotate_dbs`. -/
def rotateDbs : Prog Node Unit := do
  flush
  write (fun t => { t with oldSummary := Db.open' KV.empty })
  write (fun t => { t with oldGas := Db.open' KV.empty })
  write (fun t => { t with oldSummary := Db.open' t.summary.cur })
  write (fun t => { t with oldGas := Db.open' t.gas.cur })

/-- blockchaintree.rs:415-482 `emmit_new_main_block`. It has `&mut self`, so the only calls that can run at the same
time are those of main chain handles given out by `get_main_chain` (:103-105); `summarize` is one step, since
none of these touches the databases it iterates over. -/
def emitMain (E : Env) (pow : BytesN 32) (founder : Address) (transactions : List Hash)
    (timestamp : UInt64) : Prog Node Block := do
  let last ← getLastBlock
  let lastBlock ← .lift (Outcome.ofOption last)
  let prevHash := lastBlock.hash E
  let difficulty := lastBlock.info.difficulty
  let good ← .lift (checkPow E prevHash difficulty transactions pow.val)
  if !good then .lift (.err .treeWrongPow)
  else do
    let difficulty ← .lift (recalculateDifficulty E lastBlock.info.timestamp timestamp difficulty)
    let fee ← .lift (recalculateFee difficulty)
    let height ← .lift (lastBlock.info.height.add U256.one)
    let defaultInfo : BasicInfo :=
      { timestamp, pow, previousHash := prevHash, height, difficulty, founder }
    let newBlock ←
      (if height.val % BLOCKS_PER_EPOCH = 0 then
        (if !transactions.isEmpty then .lift (.err .treeSummarizeBlockWrongTransactionsAmount)
        else do
          let merkleTreeRoot ← read (fun t => t.summarize E)
          rotateDbs
          onTree (Tree.setAmount ROOT_PUBLIC_ADDRESS.val COINS_PER_CYCLE)
          pure (Block.summarize ⟨defaultInfo, merkleTreeRoot⟩))
      else
        (if transactions.isEmpty then .lift (.err .treeCreateMainChainBlock)
        else do
          let root ← .lift (merkleRoot E transactions)
          pure (Block.transaction ⟨fee, root, defaultInfo, transactions⟩)) : Prog Node Block)
    addBlock E newBlock
    pure newBlock

/-- Calls a main chain handle (`Arc<MainChain>`, blockchaintree.rs:103-105) offers other threads and that change
something. -/
inductive HandleCall where
  | addBlock (b : Block)
  | addTransaction (t : Transaction)
  | flush

/-- The steps of the call. -/
def HandleCall.prog (E : Env) : HandleCall → Prog Node Unit
  | .addBlock b => Node.addBlock E b
  | .addTransaction t => Node.addTransaction E t
  | .flush => Node.mainFlush

/-- Calls threads sharing the tree (`&self`) can make while transactions are sent. -/
inductive SharedCall where
  | send (tx : Transaction)
  | flush
  | handle (h : HandleCall)

/-- The steps of the call. -/
def SharedCall.prog (E : Env) : SharedCall → Prog Node Unit
  | .send tx => Node.sendTransaction E tx
  | .flush => Node.flush
  | .handle h => h.prog E

/-- Lookups of a main chain handle. -/
inductive Lookup where
  | byHeight (height : U256)
  | byHash (hash : Hash)
  | last

/-- The steps of the lookup. -/
def Lookup.prog : Lookup → Prog Node (Option Bytes)
  | .byHeight k => Node.findRawByHeight k
  | .byHash h => Node.findRawByHash h
  | .last => Node.getLastRawBlock

/-- A call of some thread: any of the above. -/
inductive AnyCall where
  | shared (k : SharedCall)
  | emit (pow : BytesN 32) (founder : Address) (transactions : List Hash) (timestamp : UInt64)
  | lookup (l : Lookup)

/-- The steps of the call; only lookups return something that is used. -/
def AnyCall.prog (E : Env) : AnyCall → Prog Node (Option Bytes)
  | .shared k => do k.prog E; pure none
  | .emit pow founder txs ts => do let _ ← Node.emitMain E pow founder txs ts; pure none
  | .lookup l => l.prog

end Node

/-! ## A sled transaction, cut further -/

namespace LockedDb

/-- `db.transaction(closure).unwrap()` in three steps: wait until no transaction runs and enter; run the closure
on the contents; commit what it returned, or, if it aborted or panicked, nothing, and leave. Other transactions may
attempt to run between these steps. -/
def transact (closure : KV → Outcome KV) : Prog (Locked Db) Unit :=
  .step (fun s => if s.held then none else some { s with held := true }) fun _ =>
  .step (fun s => some s) fun s =>
  match (closure s.data.cur).unwrap with
  | .ok m => .step (fun s => some ⟨s.data.commit (fun _ => m), false⟩) fun _ => .done (.ok ())
  | .err e => .step (fun s => some { s with held := false }) fun _ => .done (.err e)
  | .panic p => .step (fun s => some { s with held := false }) fun _ => .done (.panic p)
  | .ub => .step (fun s => some { s with held := false }) fun _ => .done .ub

/-- blockchaintree.rs:107-129 `add_amount` and :232-249 `add_gas`, in a thread. -/
def add (owner : Bytes) (amount : U256) : Prog (Locked Db) Unit := transact (Ledger.addClosure owner amount)

/-- blockchaintree.rs:150-175 `sub_amount` and :251-272 `sub_gas`, in a thread. -/
def sub (owner : Bytes) (amount : U256) : Prog (Locked Db) Unit := transact (Ledger.subClosure owner amount)

/-- The transaction of blockchaintree.rs:190-230 `send_amount` and :287-324 `send_gas`, in a thread. -/
def transfer (source target : Bytes) (amount : U256) : Prog (Locked Db) Unit :=
  transact (Ledger.transferClosure source target amount)

/-- blockchaintree.rs:131-148 `set_amount`, in a thread. -/
def set (owner : Bytes) (amount : U256) : Prog (Locked Db) Unit := transact (Ledger.setClosure owner amount)

/-- blockchaintree.rs:190-230 `send_amount`, in a thread. -/
def sendAmount (source target : Bytes) (amount : U256) : Prog (Locked Db) Unit :=
  if source = target then pure () else transfer source target amount

/-- blockchaintree.rs:176-188 `get_amount` and :273-285 `get_gas`, in a thread: one access to the database, which waits
for a transaction under way. -/
def get (owner : Bytes) : Prog (Locked Db) U256 :=
  .step (fun s => if s.held then none else some s) fun s => .done (Ledger.balance (s.data.get owner))

end LockedDb

end BCT
