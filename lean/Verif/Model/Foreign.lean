import Verif.Model.System
/-!
# Objects from outside the crate

`Transactionable` (transaction.rs:55-74) and `Block` (block.rs:243-255) are public traits; `send_transaction`,
`add_transaction`, `add_transactions`, `add_block` and `add_new_block` take any implementor. An implementor may answer every
question as it likes, differently each time it is asked, fail, or panic. What it answers in one call is given here as data,
one field for each time the call asks; to quantify over these data is to quantify over all implementors. Methods that do
not return, and methods that call the node themselves, are left out.
-/

namespace BCT

/-- What a `Transactionable` answers during one call of `send_transaction` (blockchaintree.rs:484-514), in the order in which
it is asked. -/
structure TxAnswers where
  /-- line 488 -/
  gasSender : Outcome Address
  /-- line 489 -/
  coinSender : Outcome Address
  /-- line 490, `get_dump_size` -/
  size : Outcome Nat
  /-- line 500, `get_amount` -/
  amountAsked : Outcome (Option U256)
  /-- chain.rs:227, `dump` -/
  dump : Outcome Bytes
  /-- line 507, `get_amount` -/
  amountMoved : Outcome (Option U256)
  /-- line 509 -/
  payer : Outcome Address
  /-- line 509 -/
  receiver : Outcome Address
  /-- line 511 -/
  gasPayer : Outcome Address

/-- What a transaction of the crate answers. -/
def TxAnswers.own (tx : Transaction) : TxAnswers :=
  ⟨.ok tx.sender, .ok tx.sender, .ok tx.getDumpSize, .ok (some tx.amount), .ok tx.dump, .ok (some tx.amount),
    .ok tx.sender, .ok tx.receiver, .ok tx.sender⟩

/-- What a `Block` answers during one call of `add_block` (chain.rs:285-316). -/
structure BlockAnswers where
  /-- line 287, `dump` -/
  dump : Outcome Bytes
  /-- line 294, `get_info().height` -/
  height : Outcome U256

/-- What a block of the crate answers. -/
def BlockAnswers.own (b : Block) : BlockAnswers := ⟨.ok b.dump, .ok b.info.height⟩

/-- chain.rs:285-316 `add_block` for any `Block`. -/
def MainChain.addForeignBlock (E : Env) (a : BlockAnswers) : Act MainChain Unit := do
  let dump ← Act.lift (a.dump.mapErr .chainAddingBlock)
  let height ← Act.lift a.height
  MainChain.onChain (Chain.addBlock E height dump)

/-- chain.rs:223-239 `add_transaction` for any `Transactionable`: only `dump` is asked. -/
def MainChain.addForeignTransaction (E : Env) (dump : Outcome Bytes) : Act MainChain Unit := do
  let dump ← Act.lift (dump.mapErr .chainAddingTransaction)
  Act.step (fun m => { m with transactions := m.transactions.insert (E.sha256 dump).val dump })

/-- chain.rs:203-221 `add_transactions` for any `Transactionable`. -/
def MainChain.addForeignTransactions (E : Env) (dumps : List (Outcome Bytes)) : Act MainChain Unit :=
  Act.forEach dumps (MainChain.addForeignTransaction E)

namespace Tree

/-- blockchaintree.rs:326-334 `add_new_block` for any `Block` (the transactions are the crate's). -/
def addForeignNewBlock (E : Env) (a : BlockAnswers) (txs : List Transaction) : Act Tree Unit := do
  onMain (MainChain.addForeignBlock E a)
  onMain (MainChain.addTransactions E txs)

/-- blockchaintree.rs:484-514 `send_transaction` for any `Transactionable`. -/
def sendForeign (E : Env) (a : TxAnswers) : Act Tree Unit := do
  let t ← Act.get
  let gasSender ← Act.lift a.gasSender
  let senderGas ← Act.lift (t.getGas gasSender)
  let coinSender ← Act.lift a.coinSender
  let senderAmount ← Act.lift (t.getAmount coinSender)
  let size ← Act.lift a.size
  let gasRequired ← Act.lift (BYTE_GAS_PRICE.mulNat size)
  if senderGas.val < gasRequired.val then Act.lift (.err .treeNewTransaction)
  else do
    let last ← Act.lift t.main.getLastBlock
    let lastBlock ← Act.lift (Outcome.ofOption last)
    let fee ← Act.lift (recalculateFee lastBlock.info.difficulty)
    let asked ← Act.lift a.amountAsked
    let needed ← Act.lift (fee.add (asked.getD U256.zero))
    if senderAmount.val < needed.val then Act.lift (.err .treeNewTransaction)
    else do
      onMain (MainChain.addForeignTransaction E a.dump)
      let moved ← Act.lift a.amountMoved
      match moved with
      | none => pure ()
      | some amount => do
        let payer ← Act.lift a.payer
        let receiver ← Act.lift a.receiver
        sendAmount payer.val receiver.val amount
        let gasPayer ← Act.lift a.gasPayer
        subGas gasPayer.val gasRequired

end Tree

/-- The public calls, with objects from anywhere. -/
inductive WideOp where
  | own (op : Op)
  | addBlock (a : BlockAnswers)
  | addNewBlock (a : BlockAnswers) (txs : List Transaction)
  | addTransaction (dump : Outcome Bytes)
  | addTransactions (dumps : List (Outcome Bytes))
  | sendTransaction (a : TxAnswers)

/-- Running one of them. -/
def WideOp.run (E : Env) : WideOp → Act Tree Unit
  | own op => op.run E
  | addBlock a => Tree.onMain (MainChain.addForeignBlock E a)
  | addNewBlock a txs => Tree.addForeignNewBlock E a txs
  | addTransaction d => Tree.onMain (MainChain.addForeignTransaction E d)
  | addTransactions ds => Tree.onMain (MainChain.addForeignTransactions E ds)
  | sendTransaction a => Tree.sendForeign E a

/-- States a node can reach without being stopped, from an empty directory, by calls with objects from anywhere. -/
inductive WideRun (E : Env) : Tree → Prop where
  | fresh : WideRun E (openTree E Disk.empty).final
  | call (s : Tree) (op : WideOp) : WideRun E s → WideRun E (op.run E s).final

/-- From `s` some further calls lead to `s'`. -/
inductive WideLater (E : Env) (s : Tree) : Tree → Prop where
  | refl : WideLater E s s
  | call (s' : Tree) (op : WideOp) : WideLater E s s' → WideLater E s (op.run E s').final

end BCT
