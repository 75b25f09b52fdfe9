import Verif.Model.Merkle
import Verif.Model.Transaction
/-!
# block.rs
-/

namespace BCT

/-- block.rs:27-35 `BasicInfo`. -/
structure BasicInfo where
  timestamp : UInt64
  pow : BytesN 32
  previousHash : Hash
  height : U256
  difficulty : Hash
  founder : Address
  deriving DecidableEq

namespace BasicInfo

/-- block.rs:56-58 `get_dump_size`. -/
def getDumpSize (i : BasicInfo) : Nat := 8 + 32 + 32 + u256Size i.height + 32 + 33

/-- block.rs:59-83 `dump` (appends to the buffer; always `Ok`). -/
def dump (i : BasicInfo) (buffer : Bytes) : Bytes :=
  let b := buffer ++ u64BE i.timestamp
  let b := b ++ i.previousHash.val
  let b := b ++ i.pow.val
  let b := b ++ i.difficulty.val
  let b := b ++ i.founder.val
  dumpU256 i.height b

/-- block.rs:85-128 `parse`. -/
def parse (data : Bytes) : Outcome BasicInfo := do
  let index := 0
  if data.length ≤ 105 then .err .basicInfoParse                                     -- :88-93
  else do
    let ts ← sliceN data index 8
    let timestamp := u64FromBE ts
    let index := index + 8
    let previousHash ← sliceN data index 32
    let index := index + 32
    let pow ← sliceN data index 32
    let index := index + 32
    let difficulty ← sliceN data index 32
    let index := index + 32
    let founder ← sliceN data index 33
    let index := index + 33
    let rest ← sliceFrom data index
    let (height, _) ← (loadU256 rest).mapErr .basicInfoParse                         -- :116-117
    .ok { timestamp, pow, previousHash, height, difficulty, founder }

end BasicInfo

/-- block.rs:131-137 `TransactionBlock`. -/
structure TransactionBlock where
  fee : U256
  merkleTreeRoot : Hash
  defaultInfo : BasicInfo
  transactions : List Hash
  deriving DecidableEq

namespace TransactionBlock

/-- block.rs:154-159 `get_dump_size`. -/
def getDumpSize (b : TransactionBlock) : Nat :=
  1 + u256Size b.fee + 32 + b.defaultInfo.getDumpSize + b.transactions.length * 32

/-- block.rs:161-189 `dump`. -/
def dump (b : TransactionBlock) : Bytes :=
  let o : Bytes := [Headers.transactionBlock.toU8]
  let o := o ++ b.merkleTreeRoot.val
  let o := b.defaultInfo.dump o
  let o := dumpU256 b.fee o
  b.transactions.foldl (fun o t => o ++ t.val) o

/-- block.rs:217-220: reading hashes until the end. -/
def readHashes (data : Bytes) (index : Nat) (acc : List Hash) : Outcome (List Hash) :=
  if index < data.length then do
    let h ← sliceN data index 32
    readHashes data (index + 32) (acc ++ [h])
  else .ok acc
  termination_by data.length - index

/-- block.rs:191-228 `parse`. -/
def parse (data : Bytes) : Outcome TransactionBlock := do
  let index := 0
  let merkleTreeRoot ← sliceN data 0 32
  let index := index + 32
  let infoData ← sliceFrom data index
  let defaultInfo ← (BasicInfo.parse infoData).mapErr .txBlockParse
  let index := index + defaultInfo.getDumpSize                                        -- :200
  let feeData ← sliceFrom data index
  let (fee, feeSize) ← (loadU256 feeData).mapErr .txBlockParse
  let index := index + (feeSize + 1)
  if (data.length - index) % 32 ≠ 0 then .err .txBlockParse                           -- :208-213
  else do
    let transactions ← readHashes data index []
    .ok { fee, merkleTreeRoot, defaultInfo, transactions }

/-- block.rs:230-234 `hash`. -/
def hash (E : Env) (b : TransactionBlock) : Hash := E.sha256 b.dump

end TransactionBlock

/-- block.rs:237-241 `DerivativeBlock`. -/
structure DerivativeBlock where
  defaultInfo : BasicInfo
  deriving DecidableEq

namespace DerivativeBlock

/-- block.rs:258-260. -/
def getDumpSize (b : DerivativeBlock) : Nat := b.defaultInfo.getDumpSize + 1

/-- block.rs:267-275 `dump`. -/
def dump (b : DerivativeBlock) : Bytes := b.defaultInfo.dump [Headers.derivativeBlock.toU8]

/-- block.rs:276-278 `hash`. -/
def hash (E : Env) (b : DerivativeBlock) : Hash := E.sha256 b.dump

/-- block.rs:337-349 `parse`. -/
def parse (data : Bytes) : Outcome DerivativeBlock := do
  if data.length < 32 then .err .derivBlockParse
  else do
    let defaultInfo ← BasicInfo.parse data
    .ok { defaultInfo }

end DerivativeBlock

/-- block.rs:431-435 `SummarizeBlock`. -/
structure SummarizeBlock where
  defaultInfo : BasicInfo
  merkleTreeRoot : Hash
  deriving DecidableEq

namespace SummarizeBlock

/-- block.rs:476-478. -/
def getDumpSize (b : SummarizeBlock) : Nat := 1 + 32 + b.defaultInfo.getDumpSize

/-- block.rs:480-496 `dump`. -/
def dump (b : SummarizeBlock) : Bytes :=
  let o : Bytes := [Headers.summarizeBlock.toU8]
  let o := o ++ b.merkleTreeRoot.val
  b.defaultInfo.dump o

/-- block.rs:466-474 `hash`. -/
def hash (E : Env) (b : SummarizeBlock) : Hash := E.sha256 b.dump

/-- block.rs:438-459 `parse`. -/
def parse (data : Bytes) : Outcome SummarizeBlock := do
  if data.length ≤ 32 then .err .sumBlockParse
  else do
    let merkleTreeRoot ← sliceN data 0 32
    let infoData ← sliceFrom data 32
    let defaultInfo ← (BasicInfo.parse infoData).mapErr .sumBlockParse
    .ok { defaultInfo, merkleTreeRoot }

end SummarizeBlock

/-- block.rs:593 `BlockArc = Arc<dyn Block + Send + Sync>`: the three implementors of `Block`. -/
inductive Block where
  | transaction (b : TransactionBlock)
  | derivative (b : DerivativeBlock)
  | summarize (b : SummarizeBlock)
  deriving DecidableEq

namespace Block

/-- `Block::get_info`, block.rs:261-263, :362-364, :498-500. -/
def info : Block → BasicInfo
  | transaction b => b.defaultInfo
  | derivative b => b.defaultInfo
  | summarize b => b.defaultInfo

/-- `Block::dump`. -/
def dump : Block → Bytes
  | transaction b => b.dump
  | derivative b => b.dump
  | summarize b => b.dump

/-- `Block::hash`. -/
def hash (E : Env) (b : Block) : Hash := E.sha256 b.dump

/-- `Block::get_dump_size`. -/
def getDumpSize : Block → Nat
  | transaction b => b.getDumpSize
  | derivative b => b.getDumpSize
  | summarize b => b.getDumpSize

/-- `Block::get_type`, block.rs:264-266, :378-380, :463-465. -/
def type : Block → Headers
  | transaction _ => .transactionBlock
  | derivative _ => .derivativeBlock
  | summarize _ => .summarizeBlock

/-- `Block::get_merkle_root`, block.rs:279-282 (`unimplemented!()`), :365-367, :502-504. -/
def merkleRoot : Block → Outcome Hash
  | transaction b => .ok b.merkleTreeRoot
  | derivative _ => .panic .unimplemented
  | summarize b => .ok b.merkleTreeRoot

/-- `Block::get_fee`, block.rs:289-291, :374-376, :514-516. -/
def fee : Block → U256
  | transaction b => b.fee
  | derivative _ => U256.zero
  | summarize _ => U256.zero

/-- `Block::transactions`, block.rs:331-333, :426-428, :562-564. -/
def transactions : Block → Option (List Hash)
  | transaction b => some b.transactions
  | derivative _ => none
  | summarize _ => none

/-- `Block::get_founder`. -/
def founder (b : Block) : Address := b.info.founder

/-- `Block::verify_block`, block.rs:283-285, :368-370, :506-508. -/
def verifyBlock (b : Block) (prevHash : Hash) : Bool := decide (b.info.previousHash = prevHash)

end Block

/-- block.rs:382-424 `TransactionBlock::validate`. -/
def TransactionBlock.validate (E : Env) (b : TransactionBlock) (prev : Option Block) : Outcome Bool :=
  match prev with
  | none => .ok true
  | some prev => do
    if b.defaultInfo.previousHash ≠ prev.hash E then .ok false
    else do
      let root ← BCT.merkleRoot E b.transactions
      if b.merkleTreeRoot ≠ root then .ok false
      else do
        let d ← recalculateDifficulty E prev.info.timestamp b.defaultInfo.timestamp prev.info.difficulty
        if b.defaultInfo.difficulty ≠ d then .ok false
        else checkPow E b.merkleTreeRoot prev.info.difficulty b.transactions b.defaultInfo.pow.val

/-- block.rs:518-560 `SummarizeBlock::validate`. -/
def SummarizeBlock.validate (E : Env) (b : SummarizeBlock) (prev : Option Block) : Outcome Bool :=
  match prev with
  | none => .ok true
  | some prev => do
    if b.defaultInfo.previousHash ≠ prev.hash E then .ok false
    else do
      let d ← recalculateDifficulty E prev.info.timestamp b.defaultInfo.timestamp prev.info.difficulty
      if b.defaultInfo.difficulty ≠ d then .ok false
      else checkPow E b.merkleTreeRoot prev.info.difficulty [] b.defaultInfo.pow.val

/-- block.rs:292-329 `DerivativeBlock::validate`. The first argument of `check_pow` is
`self.get_merkle_root()`, which is `unimplemented!()`. -/
def DerivativeBlock.validate (E : Env) (b : DerivativeBlock) (prev : Option Block) : Outcome Bool :=
  match prev with
  | none => .ok true
  | some prev => do
    if b.defaultInfo.previousHash ≠ prev.hash E then .ok false
    else do
      let d ← recalculateDifficulty E prev.info.timestamp b.defaultInfo.timestamp prev.info.difficulty
      if b.defaultInfo.difficulty ≠ d then .ok false
      else do
        let root ← (Block.derivative b).merkleRoot
        checkPow E root prev.info.difficulty [] b.defaultInfo.pow.val

/-- `Block::validate`. -/
def Block.validate (E : Env) (b : Block) (prev : Option Block) : Outcome Bool :=
  match b with
  | transaction b => b.validate E prev
  | derivative b => b.validate E prev
  | summarize b => b.validate E prev

/-- block.rs:568-591 `deserialize_main_chain_block`. -/
def deserializeMainChainBlock (dump : Bytes) : Outcome Block :=
  match dump with
  | [] => .err .headerWrong
  | h :: rest => do
    let header ← (Headers.fromU8 h).mapErr .headerUnknown
    match header with
    | .transactionBlock => do
      let b ← TransactionBlock.parse rest
      .ok (.transaction b)
    | .summarizeBlock => do
      let b ← SummarizeBlock.parse rest
      .ok (.summarize b)
    | _ => .err .headerWrong

end BCT
