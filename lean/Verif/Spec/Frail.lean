import Verif.Spec.Node
/-!
# Specification: a node that can die at any time

The abstract node of `Spec/Node.lean` with what a process finds of earlier ones, and with what would be left if it died
now. Of every table the values since it was last written out are remembered, and of every chain how many blocks it had
then.
-/

namespace Spec
open BCT (Bytes BytesN Hash Address U256 Env Block BasicInfo DerivativeBlock TransactionBlock Transaction Op)

/-! ## What a process finds of a chain -/

/-- What a process found in the files of a chain, besides the blocks of the chain. -/
structure Found (β : Type) where
  /-- blocks that were lost, but whose records are still there, by height -/
  ghosts : Nat → Option β
  /-- the index of digests as it was found, newest entry first -/
  index : List (Hash × Nat)
  /-- how many blocks the chain had -/
  count : Nat

namespace Found
variable {β : Type}

/-- A new chain. -/
def nothing : Found β := ⟨fun _ => none, [], 0⟩

/-- What is stored under a height. -/
def slot (x : Found β) (bs : List β) (q : Nat) : Option β := if q < bs.length then bs[q]? else x.ghosts q

/-- What is read at a height: one more than there are blocks can be read. -/
def read (x : Found β) (bs : List β) (q : Nat) : Option β := if q ≤ bs.length then x.slot bs q else none

/-- The index: every block added since is entered; `key` is digest and height. -/
def indexed (key : β → Hash × Nat) (x : Found β) (bs : List β) : List (Hash × Nat) :=
  ((bs.drop x.count).map key).reverse ++ x.index

/-- The height the index has for a digest. -/
def entry (key : β → Hash × Nat) (x : Found β) (bs : List β) (h : Hash) : Option Nat :=
  ((x.indexed key bs).find? (fun e => e.1 = h)).map (·.2)

/-- What is found by a digest: whatever is read at the height the index has for it. -/
def lookup (key : β → Hash × Nat) (x : Found β) (bs : List β) (h : Hash) : Option β :=
  (x.entry key bs h).bind (x.read bs)

/-- The files after a crash: the blocks up to `i` and the entries up to `j` are in them, the chain has `k` blocks. -/
def after (key : β → Hash × Nat) (x : Found β) (bs : List β) (k i j : Nat) : Found β :=
  { ghosts := x.slot (bs.take i), index := x.indexed key (bs.take j), count := k }

end Found

/-- How a block is indexed. -/
def mainKey (E : Env) (b : Block) : Hash × Nat := (digest E b, b.info.height.val)

/-- How a block of a derivative chain is indexed. -/
def derivKey (E : Env) (d : DerivativeBlock) : Hash × Nat := mainKey E (.derivative d)

/-- What a process found of all chains. -/
structure Leftovers where
  main : Found Block
  chains : Address → Found DerivativeBlock

/-- Nothing was found. -/
def Leftovers.nothing : Leftovers := ⟨Found.nothing, fun _ => Found.nothing⟩

namespace Node

/-- The node's calls, with what was found: only the search for the block a derivative chain is anchored at is
different. -/
def stepOver (E : Env) (x : Leftovers) (n : Node) : Op → Reply × Node
  | .emitDerivative p f ts =>
    n.withChain E f (fun n c => n.mineFrom E (x.main.lookup (mainKey E) n.blocks) p f ts c)
  | op => n.step E op

/-- The node's answers, with what was found. -/
def answerOver (E : Env) (x : Leftovers) (n : Node) : Query → Answer
  | .byHeight q => asAnswer (x.main.read n.blocks q.val)
  | .byHash h => asAnswer (x.main.lookup (mainKey E) n.blocks h)
  | .chainByHeight o q => match n.chains o with
    | some c => .deriv ((x.chains o).read c.2 q.val)
    | none => .nothing
  | .chainByHash o h => match n.chains o with
    | some c => .deriv ((x.chains o).lookup (derivKey E) c.2 h)
    | none => .nothing
  | q => n.answer E q

/-- The blocks of an owner's derivative chain: of the open chain, or else the saved ones. -/
def blocksOf (n : Node) (o : Address) : List DerivativeBlock :=
  match n.chains o with
  | some c => c.2
  | none => ((n.saved o).map (·.2)).getD []

end Node

/-! ## A node that can die -/

/-- An abstract node, and what would be left of it. -/
structure Frail where
  node : Node
  found : Leftovers
  /-- how many blocks of the main chain the file `Chain.config` counts; zero if it was never written -/
  kept : Nat
  /-- how many transactions were written out -/
  keptTxs : Nat
  /-- the values of the tables since they were written out -/
  coins : List Book
  gas : List Book
  oldCoins : List Book
  oldGas : List Book
  /-- the files of the derivative chains: the anchor and how many blocks; `none` if never written -/
  keptOf : Address → Option (Hash × Nat)

namespace Frail

/-- A new node. Nothing was written out yet; the root account was empty before. -/
def start (E : Env) : Frail :=
  { node := Node.start E, found := Leftovers.nothing, kept := 0, keptTxs := 0, coins := [(Node.start E).coins, []],
    gas := [[]], oldCoins := [[]], oldGas := [[]], keptOf := fun _ => none }

/-- The node has changed. -/
def moved (f : Frail) (n : Node) : Frail :=
  { f with node := n, coins := n.coins :: f.coins, gas := n.gas :: f.gas, oldCoins := n.oldCoins :: f.oldCoins,
           oldGas := n.oldGas :: f.oldGas }

/-- The main chain is written out. -/
def mainFlushed (f : Frail) : Frail := { f with kept := f.node.blocks.length, keptTxs := f.node.txs.length }

/-- Everything but the derivative chains is written out. -/
def flushed (f : Frail) : Frail :=
  { f.mainFlushed with
    coins := [f.node.coins], gas := [f.node.gas], oldCoins := [f.node.oldCoins], oldGas := [f.node.oldGas] }

/-- The end of an epoch: everything is written out, the balances are put aside (in new files), the coins change. -/
def turned (f : Frail) (n : Node) : Frail :=
  { (f.flushed.moved n) with oldCoins := [n.oldCoins], oldGas := [n.oldGas] }

/-- A derivative chain is written out. -/
def keep (f : Frail) (o : Address) : Frail :=
  match f.node.chains o with
  | none => f
  | some c => { f with keptOf := fun q => if q = o then some (c.1, c.2.length) else f.keptOf q }

/-- Every call. -/
def step (E : Env) (f : Frail) (op : Op) : Reply × Frail :=
  let (r, n) := f.node.stepOver E f.found op
  (r, match op with
    | .flush => f.flushed
    | .mainFlush => f.mainFlushed
    | .derivFlush o => (f.moved n).keep o
    | .emitMain _ _ _ _ => if r = .done ∧ f.node.blocks.length % 1000000 = 0 then f.turned n else f.moved n
    | _ => f.moved n)

/-- How many blocks of an owner's derivative chain would be left. -/
def lengthKept (f : Frail) (o : Address) : Nat := ((f.keptOf o).map (·.2)).getD 0

/-- What is found in the files after the node has died and before the next process begins. Each database has gone
back to some point since it was last written out, and the configuration files say what they said. -/
structure Left (E : Env) (f : Frail) where
  /-- the main chain's blocks, and the entries of its index, that are in the files -/
  blocks : Nat
  index : Nat
  blocks_le : f.kept ≤ blocks ∧ blocks ≤ f.node.blocks.length
  index_le : f.kept ≤ index ∧ index ≤ f.node.blocks.length
  /-- the transactions in the files -/
  txs : Nat
  txs_le : f.keptTxs ≤ txs ∧ txs ≤ f.node.txs.length
  coins : Book
  coins_mem : coins ∈ f.coins
  gas : Book
  gas_mem : gas ∈ f.gas
  oldCoins : Book
  oldCoins_mem : oldCoins ∈ f.oldCoins
  oldGas : Book
  oldGas_mem : oldGas ∈ f.oldGas
  /-- the same for every derivative chain -/
  blocksOf : Address → Nat
  indexOf : Address → Nat
  blocksOf_le : ∀ o, f.lengthKept o ≤ blocksOf o ∧ blocksOf o ≤ (f.node.blocksOf o).length
  indexOf_le : ∀ o, f.lengthKept o ≤ indexOf o ∧ indexOf o ≤ (f.node.blocksOf o).length

/-- The next process, if the configuration files count so many blocks. If the main chain's was never written the chain
is begun again with the first block. A node with one block gives the root account the first coins. -/
def rebornAt (E : Env) (f : Frail) (l : Left E f) (count : Nat) (countOf : Address → Option (Hash × Nat)) : Frail :=
  let blocks := if count = 0 then [firstBlock E] else f.node.blocks.take count
  let txs := f.node.txs.drop (f.node.txs.length - l.txs)
  let coins := if blocks.length = 1 then [l.coins.put root.val emission, l.coins] else [l.coins]
  { node :=
      { blocks, txs, coins := coins.headD [], gas := l.gas, oldCoins := l.oldCoins, oldGas := l.oldGas,
        chains := fun _ => none,
        saved := fun o => (countOf o).map (fun c => (c.1, (f.node.blocksOf o).take c.2)) }
    found :=
      { main := f.found.main.after (mainKey E) f.node.blocks count l.blocks l.index,
        chains := fun o => (f.found.chains o).after (derivKey E) (f.node.blocksOf o) (((countOf o).map (·.2)).getD 0)
          (l.blocksOf o) (l.indexOf o) }
    kept := count, keptTxs := txs.length, coins, gas := [l.gas], oldCoins := [l.oldCoins], oldGas := [l.oldGas],
    keptOf := countOf }

/-- The next process. The chains have as many blocks as the configuration files say. -/
def reborn (E : Env) (f : Frail) (l : Left E f) : Frail := f.rebornAt E l f.kept f.keptOf

/-- The next process to begin without being killed while it begins. -/
inductive Starts (E : Env) : Frail → Frail → Prop where
  | now {f : Frail} (l : Left E f) : Starts E f (f.reborn E l)
  | again {f f' : Frail} (l : Left E f) : Starts E (f.reborn E l) f' → Starts E f f'

/-- Calls that write no configuration file: all but the flushes and the end of an epoch. -/
def writesNoConfig (f : Frail) : Op → Prop
  | .flush | .mainFlush | .derivFlush _ => False
  | .emitMain _ _ _ _ => f.node.blocks.length % 1000000 ≠ 0
  | _ => True

/-- What can happen. -/
inductive Incident where
  | call (op : Op)
  /-- the process dies while no call is running -/
  | crash
  /-- the process dies during a call -/
  | die (op : Op)

/-- What can happen to the node, with the replies to the calls and starts. A process that dies is followed by another.
It does not matter when during the call it dies: all that may be left then may be left after the call. -/
inductive Runs (E : Env) : Frail → List Incident → List Reply → Frail → Prop where
  | nil (f : Frail) : Runs E f [] [] f
  | call {f f' : Frail} {op : Op} {evs : List Incident} {rs : List Reply} :
      Runs E (f.step E op).2 evs rs f' → Runs E f (.call op :: evs) ((f.step E op).1 :: rs) f'
  | crash {f f₁ f' : Frail} {evs : List Incident} {rs : List Reply} :
      Starts E f f₁ → Runs E f₁ evs rs f' → Runs E f (.crash :: evs) (.done :: rs) f'
  | die {f f₁ f' : Frail} {op : Op} {evs : List Incident} {rs : List Reply} : f.writesNoConfig op →
      Starts E (f.step E op).2 f₁ → Runs E f₁ evs rs f' → Runs E f (.die op :: evs) (.done :: rs) f'

/-- The answers. -/
def answer (E : Env) (f : Frail) (q : Query) : Answer := f.node.answerOver E f.found q

end Frail

end Spec
