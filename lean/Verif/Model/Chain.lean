import Verif.Model.Store
import Verif.Model.Block
/-!
# chain.rs

Every database call succeeds here. Calls cut short by I/O errors: `Model/Faults.lean`.
-/

namespace BCT

/-- The fields `MainChain` (chain.rs:52-59) and `DerivativeChain` (chain.rs:440-448) share. `config` is the
content of the file `Chain.config` of the chain's directory, `none` when there is no such file.
The `RwLock`s are not part of the sequential model. -/
structure Chain where
  blocks : Db
  heightReference : Db
  height : U256
  difficulty : Hash
  config : Option Bytes

namespace Chain

/-- chain.rs:285-316 `MainChain::add_block` and chain.rs:582-614 `DerivativeChain::add_block`
(the same code up to a `println!`). -/
def addBlock (E : Env) (blockHeight : U256) (dump : Bytes) : Act Chain Unit := do
  let hash := E.sha256 dump
  let s ← Act.get
  if blockHeight ≠ s.height then Act.lift (.err .chainAddingBlock)
  else do
    let heightBytes := s.height.toBE
    Act.step (fun s => { s with blocks := s.blocks.insert heightBytes.val dump })
    Act.step (fun s => { s with heightReference := s.heightReference.insert hash.val heightBytes.val })
    let h ← Act.lift (s.height.add U256.one)
    Act.step (fun s => { s with height := h })

/-- chain.rs:319-340 and chain.rs:617-638 `find_raw_by_height`. -/
def findRawByHeight (s : Chain) (height : U256) : Option Bytes :=
  if s.height.val < height.val then none
  else s.blocks.get height.toBE.val

/-- chain.rs:343-363 and chain.rs:641-661 `find_raw_by_hash`. -/
def findRawByHash (s : Chain) (hash : Hash) : Outcome (Option Bytes) :=
  match s.heightReference.get hash.val with
  | none => .ok none
  | some h => do
    let height ← U256.fromBE h
    .ok (s.findRawByHeight height)

end Chain

/-- `MainChain` (chain.rs:52-59). -/
structure MainChain where
  chain : Chain
  transactions : Db

namespace MainChain

/-- A call on the shared part. -/
def onChain {α : Type} (x : Act Chain α) : Act MainChain α :=
  x.zoom (·.chain) (fun c m => { m with chain := c })

/-- chain.rs:285-316 `add_block`. -/
def addBlock (E : Env) (b : Block) : Act MainChain Unit := onChain (Chain.addBlock E b.info.height b.dump)

/-- Decimal digits, `U256::to_string`. -/
def decimal (n : Nat) : Bytes := (Nat.toDigits 10 n).map (fun c => UInt8.ofNat c.toNat)

/-- chain.rs:126-131: what the genesis block commits to. -/
def initialAmount : Bytes :=
  ROOT_PUBLIC_ADDRESS.val ++ [0x7C] ++ decimal COINS_PER_CYCLE.val ++ [0x7C] ++ [0x30]

/-- chain.rs:118-125: the header of the genesis block. -/
def genesisInfo : BasicInfo :=
  { timestamp := INCEPTION_TIMESTAMP, pow := BytesN.fill 32 0, previousHash := BytesN.fill 32 0,
    height := U256.zero, difficulty := BEGINNING_DIFFICULTY, founder := ROOT_PUBLIC_ADDRESS }

/-- chain.rs:90-107: reading (a file that cannot be opened counts as missing) `Chain.config`. -/
def readConfig : Option Bytes → Outcome (U256 × Hash)
  | none => .ok (U256.zero, BEGINNING_DIFFICULTY)
  | some file =>
    if 32 ≤ file.length then
      if h : 64 ≤ file.length then do
        let height ← U256.fromBE (file.take 32)
        .ok (height, ⟨(file.drop 32).take 32, by simp; omega⟩)
      else .err .chainInit
    else .err .chainInit

/-- chain.rs:62-144 `MainChain::new`, on a state whose databases are those found on disk (`sled::open`
creates missing ones) and whose other fields are about to be set. -/
def new (E : Env) : Act MainChain Unit := do
  let s ← Act.get
  let hd ← Act.lift (readConfig s.chain.config)
  Act.step (fun m => { m with chain := { m.chain with height := hd.1, difficulty := hd.2 } })
  if hd.1.val = 0 then do
    let root ← Act.lift (merkleRoot E [E.sha256 initialAmount])
    (addBlock E (.summarize ⟨genesisInfo, root⟩)).mapErr .chainInit
  else pure ()

/-- A call that only rewrites the config file. -/
def writeConfig (f : MainChain → Bytes) : Act MainChain Unit :=
  Act.step (fun m => { m with chain := { m.chain with config := some (f m) } })

/-- chain.rs:148-172 `dump_config`: truncate, write the height, write the difficulty. -/
def dumpConfig : Act MainChain Unit := do
  writeConfig (fun _ => [])
  writeConfig (fun m => m.chain.height.toBE.val)
  writeConfig (fun m => m.chain.height.toBE.val ++ m.chain.difficulty.val)

/-- chain.rs:174-176 `get_height`. -/
def getHeight (m : MainChain) : U256 := m.chain.height

/-- chain.rs:179-201 `flush`. -/
def flush : Act MainChain Unit := do
  dumpConfig
  Act.step (fun m => { m with chain := { m.chain with blocks := m.chain.blocks.flush } })
  Act.step (fun m => { m with chain := { m.chain with heightReference := m.chain.heightReference.flush } })
  Act.step (fun m => { m with transactions := m.transactions.flush })

/-- chain.rs:223-239 `add_transaction`. -/
def addTransaction (E : Env) (t : Transaction) : Act MainChain Unit :=
  let dump := t.dump
  Act.step (fun m => { m with transactions := m.transactions.insert (E.sha256 dump).val dump })

/-- chain.rs:203-221 `add_transactions`. -/
def addTransactions (E : Env) (ts : List Transaction) : Act MainChain Unit :=
  Act.forEach ts (addTransaction E)

/-- chain.rs:241-248 `transaction_exists`. -/
def transactionExists (m : MainChain) (h : Hash) : Bool := (m.transactions.get h.val).isSome

/-- chain.rs:250-259 `get_transaction_raw`. -/
def getTransactionRaw (m : MainChain) (h : Hash) : Option Bytes := m.transactions.get h.val

/-- chain.rs:261-278 `get_transaction`. -/
def getTransaction (E : Env) (m : MainChain) (h : Hash) : Outcome (Option Transaction) :=
  match m.getTransactionRaw h with
  | none => .ok none
  | some tr =>
    if tr.head?.getD 10 ≠ Headers.transaction.toU8 then .err .chainFindByHashE
    else do
      let body ← sliceFrom tr 1
      let t ← (Transaction.parse E body).mapErr .chainFindByHashE
      .ok (some t)

/-- chain.rs:319-340. -/
def findRawByHeight (m : MainChain) (height : U256) : Option Bytes := m.chain.findRawByHeight height

/-- chain.rs:343-363. -/
def findRawByHash (m : MainChain) (hash : Hash) : Outcome (Option Bytes) := m.chain.findRawByHash hash

/-- The decoding step of `find_by_hash`, `get_last_block` and `find_by_height`. -/
def decode : Option Bytes → Outcome (Option Block)
  | none => .ok none
  | some data => do
    let b ← (deserializeMainChainBlock data).mapErr .chainFindByHeight
    .ok (some b)

/-- chain.rs:365-385 `find_by_hash`. -/
def findByHash (m : MainChain) (hash : Hash) : Outcome (Option Block) := do
  let dump ← m.findRawByHash hash
  decode dump

/-- chain.rs:388-394 `get_last_raw_block`: `*height - 1` panics at height zero. -/
def getLastRawBlock (m : MainChain) : Outcome (Option Bytes) := do
  let i ← m.chain.height.sub U256.one
  .ok (m.findRawByHeight i)

/-- chain.rs:397-413 `get_last_block`. -/
def getLastBlock (m : MainChain) : Outcome (Option Block) := do
  let dump ← m.getLastRawBlock
  decode dump

/-- chain.rs:416-436 `find_by_height`. -/
def findByHeight (m : MainChain) (height : U256) : Outcome (Option Block) :=
  decode (m.findRawByHeight height)

end MainChain

/-- `DerivativeChain` (chain.rs:440-448). -/
structure DerivativeChain where
  chain : Chain
  genesisHash : Hash

namespace DerivativeChain

/-- A call on the shared part. -/
def onChain {α : Type} (x : Act Chain α) : Act DerivativeChain α :=
  x.zoom (·.chain) (fun c m => { m with chain := c })

/-- chain.rs:478-506: reading `Chain.config`. -/
def readConfig (provided : Hash) : Option Bytes → Outcome (U256 × Hash × Hash)
  | none => .ok (U256.zero, BEGINNING_DIFFICULTY, provided)
  | some file =>
    if 32 ≤ file.length then
      if 64 ≤ file.length then
        if h : 96 ≤ file.length then do
          let height ← U256.fromBE (file.take 32)
          .ok (height, ⟨(file.drop 32).take 32, by simp; omega⟩, ⟨(file.drop 64).take 32, by simp; omega⟩)
        else .err .chainInit
      else .err .chainInit
    else .err .chainInit

/-- chain.rs:451-518 `DerivativeChain::new` on the databases and the config file found in the directory. -/
def new (provided : Hash) (blocks heightReference : Db) (config : Option Bytes) : Outcome DerivativeChain := do
  let r ← readConfig provided config
  .ok { chain := { blocks, heightReference, height := r.1, difficulty := r.2.1, config }, genesisHash := r.2.2 }

/-- A call that only rewrites the config file. -/
def writeConfig (f : DerivativeChain → Bytes) : Act DerivativeChain Unit :=
  Act.step (fun m => { m with chain := { m.chain with config := some (f m) } })

/-- chain.rs:527-556 `dump_config`. -/
def dumpConfig : Act DerivativeChain Unit := do
  writeConfig (fun _ => [])
  writeConfig (fun m => m.chain.height.toBE.val)
  writeConfig (fun m => m.chain.height.toBE.val ++ m.chain.difficulty.val)
  writeConfig (fun m => m.chain.height.toBE.val ++ m.chain.difficulty.val ++ m.genesisHash.val)

/-- chain.rs:559-575 `flush`. -/
def flush : Act DerivativeChain Unit := do
  dumpConfig
  Act.step (fun m => { m with chain := { m.chain with blocks := m.chain.blocks.flush } })
  Act.step (fun m => { m with chain := { m.chain with heightReference := m.chain.heightReference.flush } })

/-- chain.rs:582-614 `add_block`. -/
def addBlock (E : Env) (b : DerivativeBlock) : Act DerivativeChain Unit :=
  onChain (Chain.addBlock E b.defaultInfo.height b.dump)

/-- `DerivativeBlock::parse(&data[1..])` as used by the finders. -/
def decode : Option Bytes → Outcome (Option DerivativeBlock)
  | none => .ok none
  | some data => do
    let body ← sliceFrom data 1
    let b ← (DerivativeBlock.parse body).mapErr .chainFindByHeight
    .ok (some b)

/-- chain.rs:663-683 `find_by_hash` of the derivative chain. -/
def findByHash (m : DerivativeChain) (hash : Hash) : Outcome (Option DerivativeBlock) := do
  let dump ← m.chain.findRawByHash hash
  decode dump

/-- chain.rs:686-695 `get_last_raw_block` of the derivative chain: `None` at height zero. -/
def getLastRawBlock (m : DerivativeChain) : Outcome (Option Bytes) :=
  if m.chain.height.val = 0 then .ok none
  else do
    let i ← m.chain.height.sub U256.one
    .ok (m.chain.findRawByHeight i)

/-- chain.rs:698-714 `get_last_block` of the derivative chain. -/
def getLastBlock (m : DerivativeChain) : Outcome (Option DerivativeBlock) := do
  let dump ← m.getLastRawBlock
  decode dump

/-- chain.rs:717-737 `find_by_height` of the derivative chain. -/
def findByHeight (m : DerivativeChain) (height : U256) : Outcome (Option DerivativeBlock) :=
  decode (m.chain.findRawByHeight height)

end DerivativeChain

end BCT
