import Verif.Model.Chain
/-!
# blockchaintree.rs
-/

namespace BCT

/-! ## Balance databases -/

namespace Ledger

/-- `match db.get(k)? { Some(v) => tools::load_u256(&v).unwrap().0, None => U256::zero() }`. -/
def balance : Option Bytes → Outcome U256
  | some v => do
    let r ← (loadU256 v).unwrap
    .ok r.1
  | none => .ok U256.zero

/-- `tools::dump_u256(&amount, &mut buf).unwrap()` into a new buffer. -/
def encode (amount : U256) : Bytes := dumpU256 amount []

/-- `db.transaction(closure).unwrap()`: the closure's writes are committed together, an abort or a panic
commits nothing. -/
def transact (closure : KV → Outcome KV) : Act Db Unit := do
  let d ← Act.get
  let m ← Act.lift (closure d.cur).unwrap
  Act.step (fun d => d.commit (fun _ => m))

/-- The closure of blockchaintree.rs:107-129 `add_amount` and :232-249 `add_gas`. -/
def addClosure (owner : Bytes) (amount : U256) (db : KV) : Outcome KV := do
  let prev ← balance (db.get owner)
  let new ← prev.add amount
  .ok (db.insert owner (encode new))

/-- The closure of blockchaintree.rs:131-148 `set_amount`. -/
def setClosure (owner : Bytes) (amount : U256) (db : KV) : Outcome KV :=
  .ok (db.insert owner (encode amount))

/-- The closure of blockchaintree.rs:150-175 `sub_amount` and :251-272 `sub_gas`. -/
def subClosure (owner : Bytes) (amount : U256) (db : KV) : Outcome KV := do
  let prev ← balance (db.get owner)
  if prev.val < amount.val then .err .txnAbort
  else do
    let new ← prev.sub amount
    .ok (db.insert owner (encode new))

/-- The closure of `send_amount` (blockchaintree.rs:199-225) and `send_gas` (:294-319). Both
balances are read before either is written. -/
def transferClosure (source target : Bytes) (amount : U256) (db : KV) : Outcome KV := do
  let fromAmount ← balance (db.get source)
  let toAmount ← balance (db.get target)
  if fromAmount.val < amount.val then .err .txnAbort
  else do
    let fromAmount ← fromAmount.sub amount
    let toAmount ← toAmount.add amount
    let db := db.insert source (encode fromAmount)
    let db := db.insert target (encode toAmount)
    .ok db

/-- blockchaintree.rs:107-129 `add_amount` and :232-249 `add_gas`. -/
def add (owner : Bytes) (amount : U256) : Act Db Unit := transact (addClosure owner amount)

/-- blockchaintree.rs:131-148 `set_amount`. -/
def set (owner : Bytes) (amount : U256) : Act Db Unit := transact (setClosure owner amount)

/-- blockchaintree.rs:150-175 `sub_amount` and :251-272 `sub_gas`. -/
def sub (owner : Bytes) (amount : U256) : Act Db Unit := transact (subClosure owner amount)

/-- The transaction of `send_amount` (blockchaintree.rs:199-225) and `send_gas` (:294-319). -/
def transfer (source target : Bytes) (amount : U256) : Act Db Unit := transact (transferClosure source target amount)

end Ledger

/-! ## Derivative chain files -/

/-- `hex::encode`: two lower-case digits per byte. -/
def hexDigit (n : Nat) : UInt8 := UInt8.ofNat (if n < 10 then 0x30 + n else 0x61 + (n - 10))

/-- `hex::encode`. -/
def hexEncode : Bytes → Bytes
  | [] => []
  | b :: bs => hexDigit (b.toNat / 16) :: hexDigit (b.toNat % 16) :: hexEncode bs

/-- What the directory of a derivative chain holds. -/
structure DerivFiles where
  blocks : Db
  heightReference : Db
  config : Option Bytes

/-- A directory not used yet. -/
def DerivFiles.fresh : DerivFiles := ⟨Db.open' KV.empty, Db.open' KV.empty, none⟩

/-- The in-memory part of an open derivative chain. All clones of the handle share it. -/
structure DerivMem where
  height : U256
  difficulty : Hash
  genesisHash : Hash

/-- blockchaintree.rs:22-30 `BlockChainTree`. `derivFiles` is indexed by directory name (below
`DERIVATIVES/`), `derivMem` is the map `derivative_chains`. -/
structure Tree where
  main : MainChain
  summary : Db
  oldSummary : Db
  gas : Db
  oldGas : Db
  derivFiles : Bytes → DerivFiles
  derivMem : Address → Option DerivMem

namespace Tree

/-- A call on the main chain. -/
def onMain {α : Type} (x : Act MainChain α) : Act Tree α := x.zoom (·.main) (fun m t => { t with main := m })
/-- A call on the coin database. -/
def onSummary {α : Type} (x : Act Db α) : Act Tree α := x.zoom (·.summary) (fun d t => { t with summary := d })
/-- A call on the gas database. -/
def onGas {α : Type} (x : Act Db α) : Act Tree α := x.zoom (·.gas) (fun d t => { t with gas := d })

/-- blockchaintree.rs:107-129. -/
def addAmount (owner : Bytes) (amount : U256) : Act Tree Unit := onSummary (Ledger.add owner amount)
/-- blockchaintree.rs:131-148. -/
def setAmount (owner : Bytes) (amount : U256) : Act Tree Unit := onSummary (Ledger.set owner amount)
/-- blockchaintree.rs:150-175. -/
def subAmount (owner : Bytes) (amount : U256) : Act Tree Unit := onSummary (Ledger.sub owner amount)
/-- blockchaintree.rs:176-188. -/
def getAmount (t : Tree) (owner : Address) : Outcome U256 := Ledger.balance (t.summary.get owner.val)
/-- blockchaintree.rs:190-230. -/
def sendAmount (source target : Bytes) (amount : U256) : Act Tree Unit :=
  if source = target then pure () else onSummary (Ledger.transfer source target amount)
/-- blockchaintree.rs:232-249. -/
def addGas (owner : Bytes) (amount : U256) : Act Tree Unit := onGas (Ledger.add owner amount)
/-- blockchaintree.rs:251-272. -/
def subGas (owner : Bytes) (amount : U256) : Act Tree Unit := onGas (Ledger.sub owner amount)
/-- blockchaintree.rs:273-285. -/
def getGas (t : Tree) (owner : Address) : Outcome U256 := Ledger.balance (t.gas.get owner.val)
/-- blockchaintree.rs:287-324 (no check for `from == to`). -/
def sendGas (source target : Bytes) (amount : U256) : Act Tree Unit := onGas (Ledger.transfer source target amount)

/-- blockchaintree.rs:326-334 `add_new_block`. -/
def addNewBlock (E : Env) (b : Block) (txs : List Transaction) : Act Tree Unit := do
  onMain (MainChain.addBlock E b)
  onMain (MainChain.addTransactions E txs)

/-- blockchaintree.rs:350-358: the bytes hashed for one account. -/
def leafBytes (address amount gas : Bytes) : Bytes := address ++ [0x7C] ++ amount ++ [0x7C] ++ gas

/-- blockchaintree.rs:336-367 `summarize`: iterates the coin database in key order. -/
def summarize (E : Env) (t : Tree) : Outcome Hash :=
  merkleRoot E (t.summary.cur.entries.map (fun e => E.sha256 (leafBytes e.1 e.2 ((t.gas.get e.1).getD []))))

/-- blockchaintree.rs:516-543 `flush`. -/
def flush : Act Tree Unit := do
  onMain MainChain.flush
  Act.step (fun t => { t with summary := t.summary.flush })
  Act.step (fun t => { t with oldSummary := t.oldSummary.flush })
  Act.step (fun t => { t with gas := t.gas.flush })
  Act.step (fun t => { t with oldGas := t.oldGas.flush })

/-- blockchaintree.rs:545-600 `rotate_dbs`: flush, empty the old databases' directories, copy the
current ones over them and open the copies. Copying is atomic per database here (a half-copied
sled directory is not modelled). -/
def rotateDbs : Act Tree Unit := do
  flush
  Act.step (fun t => { t with oldSummary := Db.open' KV.empty })
  Act.step (fun t => { t with oldGas := Db.open' KV.empty })
  Act.step (fun t => { t with oldSummary := Db.open' t.summary.cur })
  Act.step (fun t => { t with oldGas := Db.open' t.gas.cur })

/-- The handle of an owner's derivative chain; only used for owners in `derivMem`. -/
def handle (t : Tree) (owner : Address) : DerivativeChain :=
  let f := t.derivFiles (hexEncode owner.val)
  let m := (t.derivMem owner).getD ⟨U256.zero, BEGINNING_DIFFICULTY, BytesN.fill 32 0⟩
  { chain := { blocks := f.blocks, heightReference := f.heightReference, height := m.height,
               difficulty := m.difficulty, config := f.config },
    genesisHash := m.genesisHash }

/-- Storing a handle back (databases and shared memory of the chain). -/
def putHandle (owner : Address) (c : DerivativeChain) (t : Tree) : Tree :=
  { t with
    derivFiles := fun n => if n = hexEncode owner.val then
      ⟨c.chain.blocks, c.chain.heightReference, c.chain.config⟩ else t.derivFiles n
    derivMem := fun a => if a = owner then some ⟨c.chain.height, c.chain.difficulty, c.genesisHash⟩
      else t.derivMem a }

/-- A call on an owner's derivative chain. -/
def onDeriv {α : Type} (owner : Address) (x : Act DerivativeChain α) : Act Tree α :=
  x.zoom (·.handle owner) (putHandle owner)

/-- blockchaintree.rs:85-101 `get_derivative_chain`. -/
def getDerivativeChain (E : Env) (owner : Address) : Act Tree Unit := do
  let t ← Act.get
  if (t.derivMem owner).isSome then pure ()
  else do
    let last ← Act.lift t.main.getLastBlock
    let lastBlock ← Act.lift (Outcome.ofOption last)
    let f := t.derivFiles (hexEncode owner.val)
    let c ← Act.lift (DerivativeChain.new (lastBlock.hash E) f.blocks f.heightReference f.config)
    Act.step (putHandle owner c)

/-- blockchaintree.rs:369-413 `emmit_new_derivative_block`. -/
def emitDerivative (E : Env) (pow : BytesN 32) (founder : Address) (timestamp : UInt64) :
    Act Tree Block := do
  getDerivativeChain E founder
  let t ← Act.get
  let last ← Act.lift (t.handle founder).getLastBlock
  let (prevHash, difficulty, prevTimestamp, height) ← Act.lift (match last with
    | some block => do
      let h ← block.defaultInfo.height.add U256.one
      Outcome.ok (block.hash E, block.defaultInfo.difficulty, block.defaultInfo.timestamp, h)
    | none => do
      let found ← t.main.findByHash (t.handle founder).genesisHash
      match found with
      | none => Outcome.err .chainFindByHashE
      | some block => Outcome.ok (block.hash E, BEGINNING_DIFFICULTY, block.info.timestamp, U256.zero))
  let good ← Act.lift (checkPow E prevHash difficulty [] pow.val)
  if !good then Act.lift (.err .treeWrongPow)
  else do
    let difficulty ← Act.lift (recalculateDifficulty E prevTimestamp timestamp difficulty)
    let block : DerivativeBlock :=
      ⟨{ timestamp, pow, previousHash := prevHash, height, difficulty, founder }⟩
    onDeriv founder (DerivativeChain.addBlock E block)
    pure (Block.derivative block)

/-- blockchaintree.rs:415-482 `emmit_new_main_block`. -/
def emitMain (E : Env) (pow : BytesN 32) (founder : Address) (transactions : List Hash)
    (timestamp : UInt64) : Act Tree Block := do
  let t ← Act.get
  let last ← Act.lift t.main.getLastBlock
  let lastBlock ← Act.lift (Outcome.ofOption last)
  let prevHash := lastBlock.hash E
  let difficulty := lastBlock.info.difficulty
  let good ← Act.lift (checkPow E prevHash difficulty transactions pow.val)
  if !good then Act.lift (.err .treeWrongPow)
  else do
    let difficulty ← Act.lift (recalculateDifficulty E lastBlock.info.timestamp timestamp difficulty)
    let fee ← Act.lift (recalculateFee difficulty)
    let height ← Act.lift (lastBlock.info.height.add U256.one)
    let defaultInfo : BasicInfo :=
      { timestamp, pow, previousHash := prevHash, height, difficulty, founder }
    let newBlock ←
      (if height.val % BLOCKS_PER_EPOCH = 0 then
        (if !transactions.isEmpty then Act.lift (.err .treeSummarizeBlockWrongTransactionsAmount)
        else do
          let merkleTreeRoot ← Act.lift (t.summarize E)
          rotateDbs
          setAmount ROOT_PUBLIC_ADDRESS.val COINS_PER_CYCLE
          pure (Block.summarize ⟨defaultInfo, merkleTreeRoot⟩))
      else
        (if transactions.isEmpty then Act.lift (.err .treeCreateMainChainBlock)
        else do
          let root ← Act.lift (merkleRoot E transactions)
          pure (Block.transaction ⟨fee, root, defaultInfo, transactions⟩)) : Act Tree Block)
    onMain (MainChain.addBlock E newBlock)
    pure newBlock

/-- blockchaintree.rs:484-514 `send_transaction`, for the crate's only `Transactionable`, whose
`get_amount` is always `Some`. -/
def sendTransaction (E : Env) (tx : Transaction) : Act Tree Unit := do
  let t ← Act.get
  let senderGas ← Act.lift (t.getGas tx.sender)
  let senderAmount ← Act.lift (t.getAmount tx.sender)
  let gasRequired ← Act.lift (BYTE_GAS_PRICE.mulNat tx.getDumpSize)
  if senderGas.val < gasRequired.val then Act.lift (.err .treeNewTransaction)
  else do
    let last ← Act.lift t.main.getLastBlock
    let lastBlock ← Act.lift (Outcome.ofOption last)
    let fee ← Act.lift (recalculateFee lastBlock.info.difficulty)
    let needed ← Act.lift (fee.add tx.amount)
    if senderAmount.val < needed.val then Act.lift (.err .treeNewTransaction)
    else do
      onMain (MainChain.addTransaction E tx)
      sendAmount tx.sender.val tx.receiver.val tx.amount
      subGas tx.sender.val gasRequired

/-- blockchaintree.rs:33-83 `BlockChainTree::new`, on a state whose databases are those found on disk. -/
def new (E : Env) : Act Tree Unit := do
  Act.step (fun t => { t with derivMem := fun _ => none })
  onMain (MainChain.new E)
  let t ← Act.get
  if t.main.getHeight = U256.one then
    onSummary (Ledger.set ROOT_PUBLIC_ADDRESS.val COINS_PER_CYCLE)
  else pure ()

end Tree

end BCT
