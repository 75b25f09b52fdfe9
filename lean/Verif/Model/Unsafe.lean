import Verif.Model.Block
/-!
# The `unsafe` blocks of the crate

The other modules read most `unsafe` expressions as their safe counterparts (a slice of the right length is an
array, the argument of `unwrap_unchecked` is a `Some`, …). Here the functions that contain them are written down
again with the precondition of every `unsafe` expression in place: where it is violated the result is `Outcome.ub`.
`Verif.Props.Unsafe` compares the two.

Sites: block.rs:100, 104, 108, 112, 194, 218, 296, 386, 448, 522, 576; merkletree.rs:37, 43, 50, 86, 100, 109, 125,
131, 134, 138, 148; tools.rs:53, 229, 233, 238; transaction.rs:26, 27, 123, 226, 312, 316, 324. The `transmute`s of
transaction.rs:26-27 turn `[u8; 32]` into `[u64; 4]`: the sizes agree and every bit pattern is a value, so they have
no precondition. Lines 86, 100, 109, 148 of merkletree.rs and 229, 233, 238 of tools.rs are written with their
preconditions in `Verif.Model.Merkle` and `Verif.Model.Tools` already.
-/

namespace BCT.Unsafe

/-- `b.try_into().unwrap_unchecked()` from `&[u8]` into `[u8; n]`: the conversion fails when the lengths differ. -/
def intoUnchecked (n : Nat) (b : Bytes) : Outcome (BytesN n) :=
  if h : b.length = n then .ok ⟨b, h⟩ else .ub

/-- `data[i..i + n].try_into().unwrap_unchecked()`; slicing is checked. -/
def takeUnchecked (data : Bytes) (i n : Nat) : Outcome (BytesN n) := do
  let s ← slice data i (i + n)
  intoUnchecked n s

/-- `unwrap_unchecked` on an `Option`. -/
def unwrapUnchecked {α : Type} : Option α → Outcome α
  | some a => .ok a
  | none => .ub

/-- `hasher.finalize().as_slice().try_into().unwrap_unchecked()`. -/
def digest (E : Env) (data : Bytes) : Outcome Hash := intoUnchecked 32 (E.sha256 data).val

/-- tools.rs:32-56 `dump_u256`; :53 is the site. -/
def dumpU256 (number : U256) (buffer : Bytes) : Outcome Bytes :=
  let ind := buffer.length
  let s0 : DumpState := ⟨buffer ++ [0], false, 0⟩
  let s := number.limbs.reverse.foldl (fun s num => (beBytes 8 num).foldl dumpStep s) s0
  setUnchecked s.buffer ind (UInt8.ofNat s.counter)

/-- block.rs:85-128 `BasicInfo::parse`; sites :100, :104, :108, :112. -/
def basicInfo (data : Bytes) : Outcome BasicInfo := do
  let index := 0
  if data.length ≤ 105 then .err .basicInfoParse
  else do
    let ts ← sliceN data index 8
    let timestamp := u64FromBE ts
    let index := index + 8
    let previousHash ← takeUnchecked data index 32
    let index := index + 32
    let pow ← takeUnchecked data index 32
    let index := index + 32
    let difficulty ← takeUnchecked data index 32
    let index := index + 32
    let founder ← takeUnchecked data index 33
    let index := index + 33
    let rest ← sliceFrom data index
    let (height, _) ← (loadU256 rest).mapErr .basicInfoParse
    .ok { timestamp, pow, previousHash, height, difficulty, founder }

/-- block.rs:217-220; site :218. -/
def readHashes (data : Bytes) (index : Nat) (acc : List Hash) : Outcome (List Hash) :=
  if index < data.length then do
    let h ← takeUnchecked data index 32
    readHashes data (index + 32) (acc ++ [h])
  else .ok acc
  termination_by data.length - index

/-- block.rs:191-228 `TransactionBlock::parse`; sites :194, :218. -/
def transactionBlock (data : Bytes) : Outcome TransactionBlock := do
  let index := 0
  let merkleTreeRoot ← takeUnchecked data 0 32
  let index := index + 32
  let infoData ← sliceFrom data index
  let defaultInfo ← (basicInfo infoData).mapErr .txBlockParse
  let index := index + defaultInfo.getDumpSize
  let feeData ← sliceFrom data index
  let (fee, feeSize) ← (loadU256 feeData).mapErr .txBlockParse
  let index := index + (feeSize + 1)
  if (data.length - index) % 32 ≠ 0 then .err .txBlockParse
  else do
    let transactions ← readHashes data index []
    .ok { fee, merkleTreeRoot, defaultInfo, transactions }

/-- block.rs:337-349 `DerivativeBlock::parse`. -/
def derivativeBlock (data : Bytes) : Outcome DerivativeBlock := do
  if data.length < 32 then .err .derivBlockParse
  else do
    let defaultInfo ← basicInfo data
    .ok { defaultInfo }

/-- block.rs:438-459 `SummarizeBlock::parse`; site :448. -/
def summarizeBlock (data : Bytes) : Outcome SummarizeBlock := do
  if data.length ≤ 32 then .err .sumBlockParse
  else do
    let merkleTreeRoot ← takeUnchecked data 0 32
    let infoData ← sliceFrom data 32
    let defaultInfo ← (basicInfo infoData).mapErr .sumBlockParse
    .ok { defaultInfo, merkleTreeRoot }

/-- block.rs:568-591 `deserialize_main_chain_block`; site :576. -/
def mainChainBlock (dump : Bytes) : Outcome Block := do
  if dump.isEmpty then .err .headerWrong
  else do
    let h ← getUnchecked dump 0
    let header ← (Headers.fromU8 h).mapErr .headerUnknown
    match header with
    | .transactionBlock => do
      let rest ← sliceFrom dump 1
      let b ← transactionBlock rest
      .ok (.transaction b)
    | .summarizeBlock => do
      let rest ← sliceFrom dump 1
      let b ← summarizeBlock rest
      .ok (.summarize b)
    | _ => .err .headerWrong

/-- transaction.rs:303-351 `Transaction::parse`; sites :312, :316, :324. -/
def transaction (E : Env) (data : Bytes) : Outcome Transaction := do
  if data.length < 139 then .err .txParse
  else do
    let index := 0
    let sender ← takeUnchecked data index 33
    let index := index + 33
    let receiver ← takeUnchecked data index 33
    let index := index + 33
    let ts ← sliceN data index 8
    let timestamp := u64FromBE ts
    let index := index + 8
    let signature ← takeUnchecked data index 64
    let index := index + 64
    let rest ← sliceFrom data index
    let (amount, idx) ← (loadU256 rest).mapErr .txParse
    let index := index + (idx + 1)
    if index = data.length then
      .ok (Transaction.newSigned E sender receiver timestamp amount none signature)
    else do
      let newData ← sliceFrom data index
      let index := index + newData.length
      if index ≠ data.length then .err .txParse
      else .ok (Transaction.newSigned E sender receiver timestamp amount (some newData) signature)

/-- `Message::from_digest_slice` of secp256k1: fails on anything but 32 bytes. -/
def messageFromDigest (b : Bytes) : Option Hash := if h : b.length = 32 then some ⟨b, h⟩ else none

/-- transaction.rs:103-119: the buffer `generate_signature` fills, with `dump_u256` as above. -/
def signingBytes (sender receiver : Address) (timestamp : UInt64) (amount : U256) (data : Option Bytes) :
    Outcome Bytes := do
  let b : Bytes := [Headers.transaction.toU8] ++ sender.val ++ receiver.val ++ u64BE timestamp
  let b ← dumpU256 amount b
  .ok (match data with
    | some d => b ++ d
    | none => b)

/-- transaction.rs:89-134 `generate_signature`; site :123. -/
def generateSignature (E : Env) (S : SigScheme) (sender receiver : Address) (timestamp : UInt64)
    (amount : U256) (data : Option Bytes) (privateKey : BytesN 32) : Outcome Signature := do
  let input ← signingBytes sender receiver timestamp amount data
  let result := E.sha256 input
  let message ← unwrapUnchecked (messageFromDigest result.val)
  if S.parseSec privateKey then .ok (S.sign privateKey message) else .err .txParse

/-- transaction.rs:195-227 `hash_without_signature`; site :226. -/
def hashWithoutSignature (E : Env) (t : Transaction) : Outcome Hash := do
  let input ← signingBytes t.sender t.receiver t.timestamp t.amount t.data
  digest E input

/-- merkletree.rs:49-58: the bytewise AND, written into `to_hash` position by position. -/
def andBytes (left right : Hash) : Outcome Bytes :=
  (left.val.zip right.val).zipIdx.foldlM (fun a (p, index) => setUnchecked a index (p.1 &&& p.2))
    (List.replicate 32 (0 : UInt8))

/-- merkletree.rs:48-65, body of the hashing loop; site :50. -/
def hashStep (E : Env) (a : List Hash) (leftIndex : Nat) : Outcome (List Hash) := do
  let left ← getUnchecked a leftIndex
  let right ← getUnchecked a (leftIndex + 1)
  let toHash ← andBytes left right
  let hash ← digest E toHash
  setUnchecked a ((leftIndex - 1) / 2) hash

/-- merkletree.rs:28-72 `MerkleTree::build_tree`; sites :37, :43, :50. -/
def buildTree (E : Env) (items : List Hash) : Outcome MerkleTree := do
  let closestPower2 := findClosestPowerOf2 items.length
  let depth := closestPower2 + 1
  let leavesAmount := 2 ^ closestPower2
  let nodesTotal := leavesAmount * 2 - 1
  let a := List.replicate nodesTotal PADDING_HASH
  let a ← (items.zip (List.range' (nodesTotal - leavesAmount) leavesAmount)).foldlM
    (fun a (item, leafIndex) => setUnchecked a leafIndex item) a
  let start := nodesTotal - (leavesAmount - items.length)
  let a ← (List.range' start (nodesTotal - start)).foldlM
    (fun a index => setUnchecked a index PADDING_HASH) a
  let a ← (oddsBelow (nodesTotal - 1)).reverse.foldlM (hashStep E) a
  pure { arrayRepresentation := a, depth := depth, initialAmountOfInputs := items.length }

/-- merkletree.rs:121-123: the first AND, with checked indexing of `hash[n]` and `proof[0][n]`. -/
def andChecked (hash p0 : Hash) : Outcome Bytes :=
  (List.range 32).mapM (fun n => do
    let x ← idx hash.val n
    let y ← idx p0.val n
    .ok (x &&& y))

/-- merkletree.rs:130-132; site :131. -/
def andProof (calculated p : Hash) : Outcome Bytes :=
  calculated.val.zipIdx.mapM (fun (item, n) => do
    let y ← getUnchecked p.val n
    .ok (item &&& y))

/-- merkletree.rs:137-143; site :138. -/
def sameFrom (root calculated : Bytes) : List Nat → Outcome Bool
  | [] => .ok true
  | i :: rest => do
    let x ← getUnchecked root i
    let y ← getUnchecked calculated i
    if x ≠ y then .ok false else sameFrom root calculated rest

/-- merkletree.rs:117-145 `verify_proof`; sites :125, :131, :134, :138. -/
def verifyProof (E : Env) (hash root : Hash) : List Hash → Outcome Bool
  | [] => .panic .index
  | p0 :: rest => do
    let first ← andChecked hash p0
    let calculated ← digest E first
    let calculated ← rest.foldlM (fun c p => do
      let next ← andProof c p
      digest E next) calculated
    sameFrom root.val calculated.val (List.range 32)

/-- block.rs:382-424 `TransactionBlock::validate`; site :386. -/
def validateTransaction (E : Env) (b : TransactionBlock) (prev : Option Block) : Outcome Bool := do
  if prev.isNone then .ok true
  else do
    let prev ← unwrapUnchecked prev
    if b.defaultInfo.previousHash ≠ prev.hash E then .ok false
    else do
      let t ← buildTree E b.transactions
      let root ← t.getRoot
      if b.merkleTreeRoot ≠ root then .ok false
      else do
        let d ← recalculateDifficulty E prev.info.timestamp b.defaultInfo.timestamp prev.info.difficulty
        if b.defaultInfo.difficulty ≠ d then .ok false
        else checkPow E b.merkleTreeRoot prev.info.difficulty b.transactions b.defaultInfo.pow.val

/-- block.rs:518-560 `SummarizeBlock::validate`; site :522. -/
def validateSummarize (E : Env) (b : SummarizeBlock) (prev : Option Block) : Outcome Bool := do
  if prev.isNone then .ok true
  else do
    let prev ← unwrapUnchecked prev
    if b.defaultInfo.previousHash ≠ prev.hash E then .ok false
    else do
      let d ← recalculateDifficulty E prev.info.timestamp b.defaultInfo.timestamp prev.info.difficulty
      if b.defaultInfo.difficulty ≠ d then .ok false
      else checkPow E b.merkleTreeRoot prev.info.difficulty [] b.defaultInfo.pow.val

/-- block.rs:292-329 `DerivativeBlock::validate`; site :296. -/
def validateDerivative (E : Env) (b : DerivativeBlock) (prev : Option Block) : Outcome Bool := do
  if prev.isNone then .ok true
  else do
    let prev ← unwrapUnchecked prev
    if b.defaultInfo.previousHash ≠ prev.hash E then .ok false
    else do
      let d ← recalculateDifficulty E prev.info.timestamp b.defaultInfo.timestamp prev.info.difficulty
      if b.defaultInfo.difficulty ≠ d then .ok false
      else do
        let root ← (Block.derivative b).merkleRoot
        checkPow E root prev.info.difficulty [] b.defaultInfo.pow.val

/-- `Block::validate`. -/
def validate (E : Env) (b : Block) (prev : Option Block) : Outcome Bool :=
  match b with
  | .transaction b => validateTransaction E b prev
  | .derivative b => validateDerivative E b prev
  | .summarize b => validateSummarize E b prev

end BCT.Unsafe
