import Verif.Model.System
/-!
# The example programs

`examples/mine.rs`, `examples/mine_derivative.rs` and `examples/send_transaction.rs`. They do not compile at this commit:
they call `tools::check_pow` with three arguments, and tools.rs:200 takes four. They are modelled with the argument they
lack, the transactions that are later given to `emmit_new_main_block` (none for a derivative block), because this is what
`emmit_new_main_block` (blockchaintree.rs:429) and `emmit_new_derivative_block` (blockchaintree.rs:397) check.

What is printed is left out, the calls made for it are not. The clock is a parameter. The endless loops are cut after a
number of rounds, one for each reading of the clock that is given.
-/

namespace BCT

namespace Example

/-- A call whose result is unwrapped. -/
def call (E : Env) (op : Op) : Act Tree Unit := fun t => ⟨(op.run E t).out.unwrap, (op.run E t).final, (op.run E t).trace⟩

/-- A question whose result is unwrapped. -/
def ask {α : Type} (f : Tree → Outcome α) : Act Tree α := fun t => ⟨(f t).unwrap, t, []⟩

/-- The nonce as it is given to `check_pow` (mine.rs:39-40). -/
def nonce (k : Nat) : BytesN 32 := (U256.ofNat k).toBE

/-- mine.rs:38-41, 79, mine_derivative.rs:51-54, 76, send_transaction.rs:56-59, 94: the nonces from zero on,
`U256::MAX` not included, until one is good. -/
@[irreducible] def search (E : Env) (prev difficulty : Hash) (txs : List Hash) : Option (BytesN 32) :=
  ((List.range (U256.size - 1)).find? (fun k => decide (checkPow E prev difficulty txs (nonce k).val = .ok true))).map nonce

/-- mine.rs:42-77 and send_transaction.rs:60-92: what follows the search. If a nonce was found the block is emitted, the miner
is paid from the root account, and gets the fee (for the difficulty of the block before) for every transaction. -/
def finish (E : Env) (wallet : Address) (difficulty : Hash) (txs : List Hash) (clock : UInt64) :
    Option (BytesN 32) → Act Tree Bool
  | none => pure false
  | some pow => do
    call E (.emitMain pow wallet txs clock)
    call E (.sendAmount ROOT_PUBLIC_ADDRESS.val wallet.val MAIN_CHAIN_PAYMENT)
    let fee ← Act.lift (recalculateFee difficulty)
    Act.forEach txs (fun _ => call E (.addAmount wallet.val fee))
    call E .flush
    pure true

/-- mine.rs:30-80 and send_transaction.rs:52-95: one block is mined on the main chain. `content` are the transactions of a
block that does not end an epoch. The result is whether a nonce was found. -/
def mineOnce (E : Env) (wallet : Address) (content : List Hash) (clock : UInt64) : Act Tree Bool := do
  let last ← ask (fun t => t.main.getLastBlock)
  let lastBlock ← Act.lift (Outcome.ofOption last)
  let next ← Act.lift (lastBlock.info.height.add U256.one)
  let txs := if next.val % BLOCKS_PER_EPOCH = 0 then [] else content
  finish E wallet lastBlock.info.difficulty txs clock (search E (lastBlock.hash E) lastBlock.info.difficulty txs)

/-- mine.rs:19-81: one round of the loop. -/
def mineRound (E : Env) (wallet : Address) (clock : UInt64) : Act Tree Bool := do
  let _ ← ask (fun t => t.getAmount wallet)
  let _ ← ask (fun t => t.getAmount ROOT_PUBLIC_ADDRESS)
  mineOnce E wallet [BytesN.fill 32 25] clock

/-- mine_derivative.rs:26-46: what the next block of the chain follows. -/
def follows (E : Env) (wallet : Address) : Act Tree (Hash × Hash) := do
  let t ← Act.get
  let last ← ask (fun t => (t.handle wallet).getLastBlock)
  match last with
  | some block => pure (block.hash E, block.defaultInfo.difficulty)
  | none => do
    let found ← ask (fun t' => t'.main.findByHash (t.handle wallet).genesisHash)
    let block ← Act.lift (Outcome.ofOption found)
    pure (block.hash E, BEGINNING_DIFFICULTY)

/-- `chain.flush()` on the chain that `get_derivative_chain` returned before the loop, its result unwrapped. -/
def flushChain (wallet : Address) : Act Tree Unit := fun t =>
  ⟨(Tree.onDeriv wallet DerivativeChain.flush t).out.unwrap, (Tree.onDeriv wallet DerivativeChain.flush t).final,
    (Tree.onDeriv wallet DerivativeChain.flush t).trace⟩

/-- mine_derivative.rs:55-74: what follows the search. -/
def finishChain (E : Env) (wallet : Address) (clock : UInt64) : Option (BytesN 32) → Act Tree Bool
  | none => pure false
  | some pow => do
    call E (.emitDerivative pow wallet clock)
    call E (.addGas wallet.val MAIN_CHAIN_PAYMENT)
    flushChain wallet
    call E .flush
    pure true

/-- mine_derivative.rs:19-78: one round of the loop. -/
def deriveRound (E : Env) (wallet : Address) (clock : UInt64) : Act Tree Bool := do
  let _ ← ask (fun t => t.getGas wallet)
  let p ← follows E wallet
  finishChain E wallet clock (search E p.1 p.2 [])

/-- A number of rounds; the result is in how many of them a nonce was found. -/
def rounds (round : UInt64 → Act Tree Bool) : List UInt64 → Act Tree Nat
  | [] => pure 0
  | c :: cs => do
    let found ← round c
    let k ← rounds round cs
    pure (if found then k + 1 else k)

/-- What is sent (send_transaction.rs:34-41). -/
def payment (E : Env) (S : SigScheme) (wallet : Address) (secret : BytesN 32) (now : UInt64) : Outcome Transaction :=
  Transaction.new E S wallet ROOT_PUBLIC_ADDRESS now (U256.ofNat 228) secret none

/-- send_transaction.rs:26-95: a transaction is sent and a block is mined for it. The clock is read twice. -/
def send (E : Env) (S : SigScheme) (wallet : Address) (secret : BytesN 32) (now clock : UInt64) : Act Tree Bool := do
  let _ ← ask (fun t => t.getAmount wallet)
  let _ ← ask (fun t => t.getGas wallet)
  let _ ← ask (fun t => t.getAmount ROOT_PUBLIC_ADDRESS)
  let tx ← Act.lift (payment E S wallet secret now).unwrap
  call E (.sendTransaction tx)
  let _ ← ask (fun t => t.getAmount wallet)
  let _ ← ask (fun t => t.getGas wallet)
  let _ ← ask (fun t => t.getAmount ROOT_PUBLIC_ADDRESS)
  mineOnce E wallet [tx.hash] clock

end Example

/-- The programs, with the readings of the clock. -/
inductive Job where
  | mine (clocks : List UInt64)
  | derive (clocks : List UInt64)
  | send (now clock : UInt64)

namespace Job

/-- The readings of the clock that get into blocks. -/
def clocks : Job → List UInt64
  | mine cs => cs
  | derive cs => cs
  | send _ c => [c]

/-- The programs, from the point at which the node has been opened. The result is how many blocks were mined. -/
def run (E : Env) (S : SigScheme) (wallet : Address) (secret : BytesN 32) : Job → Act Tree Nat
  | mine cs => Example.rounds (Example.mineRound E wallet) cs
  | derive cs => do
    Example.call E (.getDerivativeChain wallet)
    Example.rounds (Example.deriveRound E wallet) cs
  | send now c => do
    let found ← Example.send E S wallet secret now c
    pure (if found then 1 else 0)

end Job

/-- The clock does not go back. -/
def Forward (T : UInt64) : List UInt64 → Prop
  | [] => True
  | c :: cs => T ≤ c ∧ Forward c cs

/-- Programs run one after the other on one directory, and the blocks each of them mined: each mined at least one, ended in
whatever way after the flush of its last block, and the next one was started on what it left. `T` is the last reading of
the clock; with overflow checks on the clock does not go back. -/
inductive Sessions (E : Env) (S : SigScheme) (wallet : Address) (secret : BytesN 32) :
    UInt64 → List (Job × Nat) → Disk → Prop where
  | none : Sessions E S wallet secret 1597924800 [] Disk.empty
  | ran {T : UInt64} {js : List (Job × Nat)} {d d' : Disk} {j : Job} {k : Nat} : Sessions E S wallet secret T js d →
      (E.overflowChecks = true → Forward T j.clocks) →
      (j.run E S wallet secret (openTree E d).final).out = .ok k → 0 < k →
      Crash (j.run E S wallet secret (openTree E d).final).final d' →
      Sessions E S wallet secret (j.clocks.getLastD T) (js ++ [(j, k)]) d'

end BCT
