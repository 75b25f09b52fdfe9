import Verif.Model.Tools
/-!
# merkletree.rs and `check_pow` of tools.rs

The tree is the flat array of the code. `get_unchecked`/`get_unchecked_mut` outside the array is
`Outcome.ub`. Simplification: `usize` arithmetic is on `Nat` (a slice has fewer than `2^58` hashes).
-/

namespace BCT

/-- merkletree.rs:5-8 `PADDING_HASH`. -/
def PADDING_HASH : Hash := BytesN.fill 32 0xff

/-- merkletree.rs:10-15 `MerkleTree`. -/
structure MerkleTree where
  arrayRepresentation : List Hash
  depth : Nat
  initialAmountOfInputs : Nat

/-- merkletree.rs:20-23, the `while` loop. The guard `0 < x` only serves termination (`x` starts at 1). -/
def closestPowerLoop (number power x : Nat) : Nat :=
  if x ≤ number ∧ 0 < x then closestPowerLoop number (power + 1) (x * 2) else power
  termination_by number + 1 - x

/-- merkletree.rs:17-25 `find_closest_power_of_2`. -/
def findClosestPowerOf2 (number : Nat) : Nat := closestPowerLoop number 0 1

/-- `get_unchecked(i)`. -/
def getUnchecked {α : Type} (a : List α) (i : Nat) : Outcome α :=
  match a[i]? with
  | some x => .ok x
  | none => .ub

/-- `*get_unchecked_mut(i) = x`. -/
def setUnchecked {α : Type} (a : List α) (i : Nat) (x : α) : Outcome (List α) :=
  if i < a.length then .ok (a.set i x) else .ub

/-- merkletree.rs:51-58 and :121-123: bytewise AND of two 32-byte arrays. -/
def andHash (l r : Hash) : Hash :=
  ⟨List.zipWith (fun x y => x &&& y) l.val r.val, by simp [l.property, r.property]⟩

/-- `(1..n).step_by(2)`. -/
def oddsBelow (n : Nat) : List Nat := (List.range (n / 2)).map (fun i => 2 * i + 1)

/-- merkletree.rs:48-65, body of the hashing loop. -/
def hashStep (E : Env) (a : List Hash) (leftIndex : Nat) : Outcome (List Hash) := do
  let left ← getUnchecked a leftIndex
  let right ← getUnchecked a (leftIndex + 1)
  let hash := E.sha256 (andHash left right).val
  setUnchecked a ((leftIndex - 1) / 2) hash

/-- merkletree.rs:28-72 `MerkleTree::build_tree`. -/
def buildTree (E : Env) (items : List Hash) : Outcome MerkleTree := do
  let closestPower2 := findClosestPowerOf2 items.length
  let depth := closestPower2 + 1
  let leavesAmount := 2 ^ closestPower2
  let nodesTotal := leavesAmount * 2 - 1
  let a := List.replicate nodesTotal PADDING_HASH                                   -- :34
  let a ← (items.zip (List.range' (nodesTotal - leavesAmount) leavesAmount)).foldlM -- :36-40
    (fun a (item, leafIndex) => setUnchecked a leafIndex item) a
  let start := nodesTotal - (leavesAmount - items.length)
  let a ← (List.range' start (nodesTotal - start)).foldlM                           -- :42-46
    (fun a index => setUnchecked a index PADDING_HASH) a
  let a ← (oddsBelow (nodesTotal - 1)).reverse.foldlM (hashStep E) a                -- :48-65
  pure { arrayRepresentation := a, depth := depth, initialAmountOfInputs := items.length }

/-- merkletree.rs:147-149 `get_root`. -/
def MerkleTree.getRoot (t : MerkleTree) : Outcome Hash := getUnchecked t.arrayRepresentation 0

/-- `build_tree(items).get_root()`, the combination every caller uses. -/
def merkleRoot (E : Env) (items : List Hash) : Outcome Hash := do
  let t ← buildTree E items
  t.getRoot

/-- merkletree.rs:81-91: scan of the leaves; `index` is the last one looked at. -/
def findLeaf (a : List Hash) (hash : Hash) : List Nat → Nat → Outcome Nat
  | [], index => .ok index
  | rel :: rest, _ => do
    let h ← getUnchecked a rel
    if h = hash then .ok rel else findLeaf a hash rest rel

/-- merkletree.rs:93-107: the walk to the root. `index` odd: sibling to the right; even: to the left. -/
def proofLoop (a : List Hash) (index : Nat) (toReturn : List Hash) (toReturnIndex : Nat) :
    Outcome (List Hash × Nat) :=
  if 0 < index then do
    let sibling := if index % 2 = 1 then index + 1 else index - 1                    -- :94-98
    let h ← getUnchecked a sibling
    let toReturn ← setUnchecked toReturn toReturnIndex h
    proofLoop a ((sibling - 1) / 2) toReturn (toReturnIndex + 1)                     -- :105-106
  else .ok (toReturn, toReturnIndex)
  termination_by index
  decreasing_by split <;> omega

/-- merkletree.rs:74-115 `get_proof`. -/
def MerkleTree.getProof (t : MerkleTree) (hash : Hash) : Outcome (List Hash) := do
  let toReturn := List.replicate t.depth (BytesN.fill 32 0)
  let leavesAmount := 2 ^ (t.depth - 1)
  let len := t.arrayRepresentation.length
  let lo := len - leavesAmount
  let hi := len - (leavesAmount - t.initialAmountOfInputs)
  let index ← findLeaf t.arrayRepresentation hash (List.range' lo (hi - lo)) 0
  let (toReturn, toReturnIndex) ← proofLoop t.arrayRepresentation index toReturn 0
  let root ← getUnchecked t.arrayRepresentation 0
  setUnchecked toReturn toReturnIndex root

/-- merkletree.rs:117-145 `verify_proof`; `proof[0]` panics on an empty proof. -/
def verifyProof (E : Env) (hash root : Hash) : List Hash → Outcome Bool
  | [] => .panic .index
  | p0 :: rest =>
    let calculated := E.sha256 (andHash hash p0).val
    let calculated := rest.foldl (fun c p => E.sha256 (andHash c p).val) calculated
    .ok (decide (root.val = calculated.val))

/-- tools.rs:200-217 `check_pow`. -/
def checkPow (E : Env) (hash difficulty : Hash) (transactions : List Hash) (pow : Bytes) :
    Outcome Bool := do
  let root ← merkleRoot E transactions
  let result := E.sha256 (hash.val ++ root.val ++ pow)
  pure (decide (countLeadingZeros difficulty.val ≤ countLeadingZeros result.val))

end BCT
