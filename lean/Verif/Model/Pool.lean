import Mathlib.Data.Finset.Card
import Verif.Model.Block
/-!
# txpool.rs and the orders on transactions and blocks

The pool's heap is `std::collections::BinaryHeap`. The algorithm of the standard library
(`library/alloc/src/collections/binary_heap/mod.rs`) is modelled, not just its contract: a vector read as a
binary tree, `push` = append and sift up, `pop` = move the last element to the root, sift down to the bottom
and up again. The library's `Hole` (the element being moved is kept aside, others are moved over it) is modelled
by swapping neighbours, which leaves the same vector.
-/

namespace BCT

/-! ## The order on transactions -/

/-- Reads 8 bytes as a native-endian `u64` (`little` = the target is little-endian). -/
def nativeU64 (little : Bool) (b : Bytes) : Nat := beNat (if little then b.reverse else b)

/-- transaction.rs:26-27: `transmute::<[u8; 32], [u64; 4]>`, whose result depends on the target's byte order. -/
def hashWords (little : Bool) (h : Hash) : List Nat :=
  [nativeU64 little (h.val.take 8), nativeU64 little ((h.val.drop 8).take 8),
   nativeU64 little ((h.val.drop 16).take 8), nativeU64 little ((h.val.drop 24).take 8)]

/-- transaction.rs:29-36: the loop over the zipped words. -/
def cmpWords : List Nat → List Nat → Ordering
  | l :: ls, r :: rs =>
    match compare l r with
    | .lt => .gt
    | .eq => cmpWords ls rs
    | .gt => .lt
  | _, _ => .eq

/-- transaction.rs:21-40 `Ord::cmp` for `TransactionableItem`. `Transaction` is the only implementor of
`Transactionable` in the crate; only its timestamp and its (stored) hash are read. -/
def Transaction.cmp (little : Bool) (a b : Transaction) : Ordering :=
  match compare a.timestamp.toNat b.timestamp.toNat with
  | .lt => .gt
  | .eq => cmpWords (hashWords little a.hash) (hashWords little b.hash)
  | .gt => .lt

/-- transaction.rs:42-46 `PartialOrd::partial_cmp`. -/
def Transaction.partialCmp (little : Bool) (a b : Transaction) : Option Ordering :=
  some (a.cmp little b)

/-- The operator `<=` derived from `partial_cmp` (default method of `PartialOrd`). -/
def Transaction.leOp (little : Bool) (a b : Transaction) : Bool :=
  match a.partialCmp little b with
  | some .lt => true
  | some .eq => true
  | _ => false

/-- transaction.rs:48-52 `PartialEq::eq`. -/
def Transaction.eqOp (a b : Transaction) : Bool := a.timestamp == b.timestamp

/-! ## The order on blocks -/

/-- block.rs:609-613 `Ord::cmp` for `dyn Block`. -/
def Block.cmp (a b : Block) : Ordering :=
  compare a.info.timestamp.toNat b.info.timestamp.toNat

/-- block.rs:603-607 `PartialOrd::partial_cmp` for `dyn Block`. -/
def Block.partialCmp (a b : Block) : Option Ordering :=
  some (compare a.info.timestamp.toNat b.info.timestamp.toNat)

/-- block.rs:597-601 `PartialEq::eq` for `dyn Block`. -/
def Block.eqOp (a b : Block) : Bool := a.info.timestamp == b.info.timestamp

/-! ## The binary heap -/

namespace Heap

variable {α : Type} (le : α → α → Bool)

/-- `BinaryHeap::sift_up(0, pos)`. -/
def siftUp {n : Nat} (v : Vector α n) (pos : Nat) (h : pos < n) : Vector α n :=
  if h0 : 0 < pos then
    let parent := (pos - 1) / 2
    have hp : parent < n := by omega
    if le v[pos] v[parent] then v
    else siftUp (v.swap pos parent) parent hp
  else v
termination_by pos
decreasing_by omega

/-- The loop of `BinaryHeap::sift_down_to_bottom(0)`, from `pos`; returns the vector and the final position. -/
def siftDown {n : Nat} (v : Vector α n) (pos : Nat) (h : pos < n) : Vector α n × { p : Nat // p < n } :=
  let child := 2 * pos + 1
  if hc : child + 1 < n then
    if le v[child] v[child + 1] then siftDown (v.swap pos (child + 1)) (child + 1) hc
    else siftDown (v.swap pos child) child (by omega)
  else if hc' : child + 1 = n then
    (v.swap pos child, ⟨child, by omega⟩)
  else (v, ⟨pos, h⟩)
termination_by n - pos

/-- `BinaryHeap::push`. -/
def push (a : Array α) (x : α) : Array α :=
  (siftUp le (⟨a.push x, rfl⟩ : Vector α (a.push x).size) a.size (by simp)).toArray

/-- `BinaryHeap::pop`: `data.pop()`, then, if anything is left, swap with `data[0]` and sift. -/
def pop (a : Array α) : Option (α × Array α) :=
  if h : 0 < a.size then
    let item := a[a.size - 1]
    let d := a.pop
    if hd : 0 < d.size then
      let top := d[0]
      let v : Vector α d.size := (⟨d, rfl⟩ : Vector α d.size).set 0 item hd
      let r := siftDown le v 0 hd
      some (top, (siftUp le r.1 r.2.1 r.2.2).toArray)
    else some (item, d)
  else none

end Heap

/-! ## The pool -/

/-- txpool.rs:11-15 `TxPool`. The `HashSet` is a finite set; iteration order of it is never used. -/
structure TxPool where
  pool : Array Transaction
  hashes : Finset Hash

namespace TxPool

/-- txpool.rs:18-20 `new`. -/
def new : TxPool := ⟨#[], ∅⟩

/-- txpool.rs:21-26 `with_capacity`; the capacity is not observable. -/
def withCapacity (_capacity : Nat) : TxPool := ⟨#[], ∅⟩

/-- txpool.rs:28-34 `push`. -/
def push (little : Bool) (p : TxPool) (t : Transaction) : Bool × TxPool :=
  if t.hash ∈ p.hashes then (false, p)
  else (true, ⟨Heap.push (Transaction.leOp little) p.pool t, insert t.hash p.hashes⟩)

/-- txpool.rs:36-38 `len`. -/
def len (p : TxPool) : Nat := p.hashes.card

/-- txpool.rs:40-42 `is_empty`. -/
def isEmpty (p : TxPool) : Bool := p.len == 0

/-- txpool.rs:44-46 `transactions_iter`: the heap's vector in index order. -/
def transactionsIter (p : TxPool) : List Transaction := p.pool.toList

/-- txpool.rs:48-53 `pop`. -/
def pop (little : Bool) (p : TxPool) : Option (Hash × Transaction) × TxPool :=
  match Heap.pop (Transaction.leOp little) p.pool with
  | none => (none, p)
  | some (tr, pool) => (some (tr.hash, tr), ⟨pool, p.hashes.erase tr.hash⟩)

/-- txpool.rs:55-57 `transaction_exists`. -/
def transactionExists (p : TxPool) (h : Hash) : Bool := decide (h ∈ p.hashes)

end TxPool
end BCT
