import Verif.Model.System
import Verif.Spec.Numbers
import Verif.Spec.Merkle
/-!
# Specification: the node as an abstract machine

What a node does, said without databases, files, bytes on disk or caches: a list of blocks, two tables of balances, a
list of transactions, and for every owner a list of blocks. Of the model only the data types are used (blocks,
transactions, the calls, `Env` for the digest function and the build profile) and the byte strings that are hashed
(`Block.dump`, `Transaction.dump`). The rules (work, difficulty, fee, trees, balances) are stated anew.
-/

namespace Spec
open BCT (Bytes BytesN Hash Address U256 Env Block BasicInfo DerivativeBlock TransactionBlock Transaction Op)

/-- How a call ends. -/
inductive Reply where
  | done
  /-- an error is returned -/
  | refused
  /-- a panic -/
  | crash
  /-- undefined behaviour -/
  | undefined
  deriving DecidableEq

/-! ## Numbers -/

/-- The number of bits needed to write `n`. -/
def bitLength (n : Nat) : Nat := if n = 0 then 0 else n.log2 + 1

/-- The digits of `n` to the base 256, most significant first, none for zero. -/
def digits (n : Nat) : List UInt8 :=
  if n = 0 then [] else digits (n / 256) ++ [UInt8.ofNat (n % 256)]
  termination_by n
  decreasing_by omega

/-- An amount as it is hashed: how many digits, then the digits. -/
def amountBytes (n : Nat) : List UInt8 := UInt8.ofNat (digits n).length :: digits n

/-! ## Trees, work, difficulty, fee -/

/-- The inner nodes of a hash tree: the digest of the bitwise AND. -/
def parent (E : Env) (l r : Hash) : Hash := E.sha256 ((l.val.zip r.val).map (fun (x, y) => x &&& y))

/-- What fills up the leaves. -/
def padding : Hash := ⟨List.replicate 32 255, by simp⟩

/-- The root of a hash tree: leaves filled up to the next larger power of two. -/
def treeRoot (E : Env) (leaves : List Hash) : Hash :=
  perfectRoot (parent E) padding (bitLength leaves.length) (padTo padding (2 ^ bitLength leaves.length) leaves)

/-- Leading zero bits of 32 bytes. -/
def zeroBits (d : Hash) : Nat := 256 - bitLength (value d.val)

/-- The work rule: the digest of the block before, the tree of the transactions and the nonce needs no more bits
than the difficulty. -/
def enoughWork (E : Env) (prev difficulty : Hash) (txs : List Hash) (nonce : BytesN 32) : Bool :=
  bitLength (value (E.sha256 (prev.val ++ (treeRoot E txs).val ++ nonce.val)).val) ≤ bitLength (value difficulty.val)

/-- The fee: 62500 for every leading zero bit. -/
def fee (difficulty : Hash) : Nat := 62500 * zeroBits difficulty

/-- The zero bytes a difficulty begins with, and what follows. -/
def split (d : List UInt8) : List UInt8 × List UInt8 := (d.takeWhile (· == 0), d.dropWhile (· == 0))

/-- After a fast block: the first byte that is not zero is halved. -/
def harder (d : List UInt8) : List UInt8 :=
  match split d with
  | (_, []) => d
  | (z, v :: r) => z ++ UInt8.ofNat (v.toNat / 2) :: r

/-- After a slow block: the first byte that is not zero is doubled and one added (modulo 256); if it is full, the zero byte before
it becomes one; 7F at the beginning stays; if all is zero the first byte becomes one. `none`: there is no byte before a
full first byte. -/
def easier (d : List UInt8) : Option (List UInt8) :=
  match split d with
  | (_, []) => some (1 :: d.tail)
  | (z, v :: r) =>
    if z = [] ∧ v = 127 then some d
    else if v = 255 then (if z = [] then none else some (z.dropLast ++ 1 :: v :: r))
    else some (z ++ UInt8.ofNat (2 * v.toNat + 1) :: r)

/-- The seconds between two blocks. With overflow checks a block may not be older than the one before; without, the
difference wraps around. -/
def elapsed (checks : Bool) (before now : Nat) : Option Nat :=
  if before ≤ now then some (now - before) else if checks then none else some (2 ^ 64 + now - before)

/-- The difficulty of a new block, or how the attempt to compute it ends. -/
def nextDifficulty (E : Env) (before now : UInt64) (d : List UInt8) : Except Reply (List UInt8) :=
  match elapsed E.overflowChecks before.toNat now.toNat with
  | none => .error .crash
  | some t =>
    if t < 600 then .ok (harder d)
    else if t = 600 then .ok d
    else match easier d with
      | some d' => .ok d'
      | none => .error (if E.overflowChecks then .crash else .undefined)

/-! ## Balances -/

/-- The accounts ever written, in dictionary order, and what they hold. -/
abbrev Book := List (List UInt8 × Nat)

/-- What is written for an account, if anything is. -/
def Book.entry (b : Book) (o : List UInt8) : Option Nat := (b.find? (fun e => e.1 = o)).map (·.2)

/-- What an account holds. -/
def Book.get (b : Book) (o : List UInt8) : Nat := (b.entry o).getD 0

/-- One account written: what comes before it, it, what comes after it. -/
def Book.put (b : Book) (o : List UInt8) (n : Nat) : Book :=
  b.filter (fun e => decide (e.1 < o)) ++ (o, n) :: b.filter (fun e => decide (o < e.1))

/-- A deposit; `none` if the balance would need more than 256 bits. -/
def Book.add (b : Book) (o : List UInt8) (n : Nat) : Option Book :=
  if b.get o + n < 2 ^ 256 then some (b.put o (b.get o + n)) else none

/-- A withdrawal; `none` if there is not enough. -/
def Book.sub (b : Book) (o : List UInt8) (n : Nat) : Option Book :=
  if n ≤ b.get o then some (b.put o (b.get o - n)) else none

/-- A transfer: the new balances are those before plus and minus the amount, the payer's is written first. -/
def Book.move (b : Book) (src dst : List UInt8) (n : Nat) : Option Book :=
  if n ≤ b.get src ∧ b.get dst + n < 2 ^ 256 then some ((b.put src (b.get src - n)).put dst (b.get dst + n)) else none

/-! ## The node -/

/-- An abstract node. -/
structure Node where
  /-- the main chain, oldest first -/
  blocks : List Block
  /-- the stored transactions by digest, newest first -/
  txs : List (Hash × Transaction)
  coins : Book
  gas : Book
  /-- the balances when the last epoch ended -/
  oldCoins : Book
  oldGas : Book
  /-- the open derivative chains: the digest they are anchored at, and their blocks -/
  chains : Address → Option (Hash × List DerivativeBlock)
  /-- the derivative chains saved when the node was stopped -/
  saved : Address → Option (Hash × List DerivativeBlock)

/-- The bytes of an ASCII string. -/
def ascii (s : String) : List UInt8 := s.toList.map (fun c => UInt8.ofNat c.toNat)

/-- The account that receives new coins. -/
def root : Address :=
  ⟨[3, 27, 132, 197, 86, 123, 18, 100, 64, 153, 93, 62, 213, 170, 186, 5, 101, 215, 30, 24, 52, 96, 72, 25, 255, 156,
    23, 245, 233, 213, 221, 7, 143], by decide⟩

/-- The coins of an epoch. -/
def emission : Nat := 50010000000000000000000000

/-- The difficulty of the first block. -/
def firstDifficulty : Hash := ⟨127 :: List.replicate 31 255, by simp⟩

/-- The first block. -/
def firstBlock (E : Env) : Block :=
  .summarize ⟨{ timestamp := 1597924800, pow := ⟨List.replicate 32 0, by simp⟩, previousHash := ⟨List.replicate 32 0, by simp⟩,
                height := U256.zero, difficulty := firstDifficulty, founder := root },
    treeRoot E [E.sha256 (root.val ++ ascii "|50010000000000000000000000|0")]⟩

/-- A new node. -/
def Node.start (E : Env) : Node :=
  { blocks := [firstBlock E], txs := [], coins := [(root.val, emission)], gas := [], oldCoins := [], oldGas := [],
    chains := fun _ => none, saved := fun _ => none }

/-- The digest of a block. -/
def digest (E : Env) (b : Block) : Hash := E.sha256 b.dump

/-- Blocks of derivative chains cannot be read from the main chain. -/
def readable : Block → Bool
  | .derivative _ => false
  | _ => true

namespace Node

/-- The last block of the main chain, if it can be read. -/
def tip (n : Node) : Option Block := n.blocks.getLast?.filter readable

/-- The newest block of the main chain with the digest. -/
def withDigest (E : Env) (n : Node) (h : Hash) : Option Block := n.blocks.reverse.find? (fun b => digest E b = h)

/-- One more block on the main chain. -/
def append (n : Node) (b : Block) : Node := { n with blocks := n.blocks ++ [b] }

/-- Transactions stored, one after the other. -/
def store (E : Env) (n : Node) (ts : List Transaction) : Node :=
  { n with txs := (ts.map (fun t => (E.sha256 t.dump, t))).reverse ++ n.txs }

/-- What the end of an epoch commits to: for every account with coins address, coins and gas. -/
def summary (E : Env) (n : Node) : Hash :=
  treeRoot E (n.coins.map (fun e => E.sha256 (e.1 ++ ascii "|" ++ amountBytes e.2 ++ ascii "|" ++
    (match n.gas.entry e.1 with | some g => amountBytes g | none => []))))

/-- A derivative chain of the owner. -/
def setChain (n : Node) (o : Address) (c : Hash × List DerivativeBlock) : Node :=
  { n with chains := fun q => if q = o then some c else n.chains q }

/-- The owner's chain is opened unless it is open: as saved, or else anchored at the last block of the main chain. -/
def openChain (E : Env) (n : Node) (o : Address) : Option Node :=
  match n.chains o with
  | some _ => some n
  | none => n.tip.map (fun b => n.setChain o ((n.saved o).getD (digest E b, [])))

/-- A change of the coins that may be impossible. -/
def coinChange (n : Node) (b : Option Book) : Reply × Node :=
  match b with
  | some b => (.done, { n with coins := b })
  | none => (.crash, n)

/-- A change of the gas that may be impossible. -/
def gasChange (n : Node) (b : Option Book) : Reply × Node :=
  match b with
  | some b => (.done, { n with gas := b })
  | none => (.crash, n)

/-- The gas a transaction costs: 625000000000 for every byte. (Zero coins count as two bytes.) -/
def gasPrice (t : Transaction) : Nat :=
  625000000000 * (139 + (if t.amount.val = 0 then 2 else (amountBytes t.amount.val).length) + (t.data.getD []).length)

/-- A transaction is sent. -/
def send (E : Env) (n : Node) (t : Transaction) : Reply × Node :=
  if ¬ gasPrice t < 2 ^ 256 then (.crash, n)
  else if n.gas.get t.sender.val < gasPrice t then (.refused, n)
  else match n.tip with
    | none => (.refused, n)
    | some last =>
      if ¬ fee last.info.difficulty + t.amount.val < 2 ^ 256 then (.crash, n)
      else if n.coins.get t.sender.val < fee last.info.difficulty + t.amount.val then (.refused, n)
      else
        match (if t.sender = t.receiver then some n.coins else n.coins.move t.sender.val t.receiver.val t.amount.val) with
        | none => (.crash, n.store E [t])
        | some coins =>
          (.done, { n.store E [t] with
            coins, gas := n.gas.put t.sender.val (n.gas.get t.sender.val - gasPrice t) })

/-- A 32-byte string; only used on such. -/
def bytes32 (l : List UInt8) : Hash := if h : l.length = 32 then ⟨l, h⟩ else padding

/-- A block is mined on the main chain. -/
def mine (E : Env) (n : Node) (pow : BytesN 32) (founder : Address) (txs : List Hash) (timestamp : UInt64) :
    Reply × Node :=
  match n.tip with
  | none => (.refused, n)
  | some last =>
    if ¬ enoughWork E (digest E last) last.info.difficulty txs pow then (.refused, n)
    else match nextDifficulty E last.info.timestamp timestamp last.info.difficulty.val with
      | .error r => (r, n)
      | .ok d =>
        let info : BasicInfo :=
          { timestamp, pow, previousHash := digest E last, height := U256.ofNat n.blocks.length,
            difficulty := bytes32 d, founder }
        if n.blocks.length % 1000000 = 0 then
          if txs = [] then
            (.done, { n.append (.summarize ⟨info, n.summary E⟩) with
              oldCoins := n.coins, oldGas := n.gas, coins := n.coins.put root.val emission })
          else (.refused, n)
        else
          if txs = [] then (.refused, n)
          else (.done, n.append (.transaction ⟨U256.ofNat (fee (bytes32 d)), treeRoot E txs, info, txs⟩))

/-- A block is mined on a derivative chain that is open; `find` finds blocks of the main chain by their digest. -/
def mineFrom (E : Env) (find : Hash → Option Block) (n : Node) (pow : BytesN 32) (founder : Address) (timestamp : UInt64)
    (c : Hash × List DerivativeBlock) : Reply × Node :=
  match (match c.2.getLast? with
    | some d => some (digest E (.derivative d), d.defaultInfo.difficulty, d.defaultInfo.timestamp)
    | none => ((find c.1).filter readable).map (fun b => (digest E b, firstDifficulty, b.info.timestamp))) with
  | none => (.refused, n)
  | some (prev, difficulty, before) =>
    if ¬ enoughWork E prev difficulty [] pow then (.refused, n)
    else match nextDifficulty E before timestamp difficulty.val with
      | .error r => (r, n)
      | .ok d =>
        (.done, n.setChain founder (c.1, c.2 ++
          [⟨{ timestamp, pow, previousHash := prev, height := U256.ofNat c.2.length, difficulty := bytes32 d,
              founder }⟩]))

/-- A block is mined on a derivative chain that is open. -/
def mineOn (E : Env) (n : Node) (pow : BytesN 32) (founder : Address) (timestamp : UInt64)
    (c : Hash × List DerivativeBlock) : Reply × Node :=
  n.mineFrom E (n.withDigest E) pow founder timestamp c

/-- Something done with the owner's derivative chain, opened first if need be. -/
def withChain (E : Env) (n : Node) (o : Address) (f : Node → Hash × List DerivativeBlock → Reply × Node) :
    Reply × Node :=
  match n.openChain E o with
  | none => (.refused, n)
  | some n' =>
    match n'.chains o with
    | none => (.refused, n')
    | some c => f n' c

/-- Every call. -/
def step (E : Env) (n : Node) : Op → Reply × Node
  | .addBlock b => if b.info.height.val = n.blocks.length then (.done, n.append b) else (.refused, n)
  | .addNewBlock b ts =>
    if b.info.height.val = n.blocks.length then (.done, (n.append b).store E ts) else (.refused, n)
  | .addTransaction t => (.done, n.store E [t])
  | .addTransactions ts => (.done, n.store E ts)
  | .addAmount o a => n.coinChange (n.coins.add o a.val)
  | .setAmount o a => n.coinChange (some (n.coins.put o a.val))
  | .subAmount o a => n.coinChange (n.coins.sub o a.val)
  | .sendAmount s t a => if s = t then (.done, n) else n.coinChange (n.coins.move s t a.val)
  | .addGas o a => n.gasChange (n.gas.add o a.val)
  | .subGas o a => n.gasChange (n.gas.sub o a.val)
  | .sendGas s t a => n.gasChange (n.gas.move s t a.val)
  | .sendTransaction t => n.send E t
  | .emitMain p f txs ts => n.mine E p f txs ts
  | .emitDerivative p f ts => n.withChain E f (fun n c => n.mineOn E p f ts c)
  | .getDerivativeChain o => n.withChain E o (fun n _ => (.done, n))
  | .derivAddBlock o b => n.withChain E o (fun n c =>
      if b.defaultInfo.height.val = c.2.length then (.done, n.setChain o (c.1, c.2 ++ [b])) else (.refused, n))
  | .derivFlush o => n.withChain E o (fun n _ => (.done, n))
  | .mainFlush => (.done, n)
  | .flush => (.done, n)

/-- A sequence of calls: the replies and the node after it. -/
def play (E : Env) (n : Node) : List Op → List Reply × Node
  | [] => ([], n)
  | op :: ops => ((n.step E op).1 :: ((n.step E op).2.play E ops).1, ((n.step E op).2.play E ops).2)

end Node

/-! ## Stopping and starting -/

/-- What happens to a node: a call, or it is stopped in an orderly way and started again. -/
inductive Event where
  | call (op : Op)
  /-- the derivative chains of these owners and the node are flushed, then the process ends and another one begins -/
  | stop (owners : List Address)

/-- The calls made before the node is stopped. -/
def flushes (owners : List Address) : List Op := owners.map Op.derivFlush ++ [.flush]

namespace Node

/-- The node started again. A node with one block gives the root account the first coins again. -/
def restarted (n : Node) : Node :=
  { n with
    coins := if n.blocks.length = 1 then n.coins.put root.val emission else n.coins
    chains := fun _ => none
    saved := fun o => match n.chains o with | some c => some c | none => n.saved o }

/-- The replies to the calls and starts, and the node after them. -/
def live (E : Env) (n : Node) : List Event → List Reply × Node
  | [] => ([], n)
  | .call op :: evs => ((n.step E op).1 :: ((n.step E op).2.live E evs).1, ((n.step E op).2.live E evs).2)
  | .stop os :: evs =>
    ((n.play E (flushes os)).1 ++ .done :: ((n.play E (flushes os)).2.restarted.live E evs).1,
      ((n.play E (flushes os)).2.restarted.live E evs).2)

/-- Whenever the node is stopped, all open derivative chains are flushed. -/
def Tidy (E : Env) (n : Node) : List Event → Prop
  | [] => True
  | .call op :: evs => (n.step E op).2.Tidy E evs
  | .stop os :: evs => (∀ o, (n.chains o).isSome → o ∈ os) ∧ (n.play E (flushes os)).2.restarted.Tidy E evs

end Node

/-- How many calls there are. -/
def calls : List Event → Nat
  | [] => 0
  | .call _ :: evs => calls evs + 1
  | .stop os :: evs => calls evs + os.length + 1

/-! ## Questions -/

/-- What can be asked. -/
inductive Query where
  | height
  | last
  | byHeight (q : U256)
  | byHash (h : Hash)
  | hasTransaction (h : Hash)
  | transaction (h : Hash)
  | amount (a : Address)
  | gas (a : Address)
  /-- what the last end of an epoch put aside (no public call reads it, it is in the files) -/
  | oldAmount (a : Address)
  | oldGas (a : Address)
  /-- the summary of all balances -/
  | summary
  /-- whether a derivative chain is open -/
  | isOpen (o : Address)
  /-- the rest about derivative chains that are open -/
  | chainHeight (o : Address)
  | chainAnchor (o : Address)
  | chainLast (o : Address)
  | chainByHeight (o : Address) (q : U256)
  | chainByHash (o : Address) (h : Hash)

/-- What is answered. -/
inductive Answer where
  | number (n : Nat)
  | truth (b : Bool)
  | hash (h : Hash)
  | block (b : Option Block)
  | deriv (b : Option DerivativeBlock)
  | tx (t : Option Transaction)
  /-- anything else: an error, a panic, a chain that is not open -/
  | nothing
  deriving DecidableEq

namespace Node

/-- A block of the main chain as read. -/
def asAnswer : Option Block → Answer
  | none => .block none
  | some b => if readable b then .block (some b) else .nothing

/-- A transaction as read: the digest computed anew, an empty message dropped. -/
def asRead (E : Env) (t : Transaction) : Transaction :=
  { t with hash := E.sha256 t.dump, data := if t.data = some [] then none else t.data }

/-- The newest transaction stored under the digest. -/
def stored (n : Node) (h : Hash) : Option Transaction := (n.txs.find? (fun e => e.1 = h)).map (·.2)

/-- The abstract node's answers. -/
def answer (E : Env) (n : Node) : Query → Answer
  | .height => .number n.blocks.length
  | .last => asAnswer n.blocks.getLast?
  | .byHeight q => asAnswer n.blocks[q.val]?
  | .byHash h => asAnswer (n.withDigest E h)
  | .hasTransaction h => .truth (n.stored h).isSome
  | .transaction h => .tx ((n.stored h).map (asRead E))
  | .amount a => .number (n.coins.get a.val)
  | .gas a => .number (n.gas.get a.val)
  | .oldAmount a => .number (n.oldCoins.get a.val)
  | .oldGas a => .number (n.oldGas.get a.val)
  | .summary => .hash (n.summary E)
  | .isOpen o => .truth (n.chains o).isSome
  | .chainHeight o => match n.chains o with | some c => .number c.2.length | none => .nothing
  | .chainAnchor o => match n.chains o with | some c => .hash c.1 | none => .nothing
  | .chainLast o => match n.chains o with | some c => .deriv c.2.getLast? | none => .nothing
  | .chainByHeight o q => match n.chains o with | some c => .deriv c.2[q.val]? | none => .nothing
  | .chainByHash o h => match n.chains o with
    | some c => .deriv (c.2.reverse.find? (fun d => digest E (.derivative d) = h))
    | none => .nothing

end Node

end Spec
