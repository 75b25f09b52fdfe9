import Verif.Lemmas.Merkle
/-!
# C17 – C20: the Merkle tree (merkletree.rs)
-/

namespace BCT.Props
open BCT

/-- Parent of two nodes, written independently of the model: SHA-256 of the byte-wise AND. -/
def specParent (E : Env) (l r : Hash) : Hash :=
  E.sha256 ((l.val.zip r.val).map (fun (x, y) => x &&& y))

theorem specParent_eq (E : Env) : specParent E = nodeHash E := by
  funext l r
  unfold specParent nodeHash andHash
  congr 1
  rw [List.zip_eq_zipWith, List.map_zipWith]

/-- 32 bytes `0xFF`. -/
def specPad : Hash := ⟨List.replicate 32 255, by simp⟩

/-! ## C17 -/

/-- C17. `build_tree` never leaves its array (no `ub`), and the root is that of the perfect tree over
the padded leaves. -/
theorem C17_merkle_root (E : Env) (items : List Hash) :
    ∃ t p, buildTree E items = .ok t ∧ Spec.IsNextPower items.length p ∧
      t.getRoot = .ok (Spec.perfectRoot (specParent E) specPad p (Spec.padTo specPad (2 ^ p) items)) ∧
      merkleRoot E items =
        .ok (Spec.perfectRoot (specParent E) specPad p (Spec.padTo specPad (2 ^ p) items)) ∧
      t.depth = p + 1 ∧ t.arrayRepresentation.length = 2 ^ (p + 1) - 1 := by
  obtain ⟨a, h1, h2, h3⟩ := buildTree_spec E items _ (findClosestPowerOf2_spec items.length)
  have hroot := buildTree_root E items _ a h3
  rw [specParent_eq, show specPad = PADDING_HASH from rfl]
  refine ⟨_, _, h1, findClosestPowerOf2_spec _, ?_, ?_, rfl, ?_⟩
  · unfold MerkleTree.getRoot getUnchecked; rw [hroot]
  · exact merkleRoot_eq E items
  · show a.length = _
    rw [h2, Nat.pow_succ, Nat.mul_comm]

/-- Three leaves: two levels, one padding leaf. -/
example (E : Env) (a b c : Hash) : merkleRoot E [a, b, c] =
    .ok (specParent E (specParent E a b) (specParent E c specPad)) := by
  obtain ⟨t, p, _, hp, _, h, _⟩ := C17_merkle_root E [a, b, c]
  have : p = 2 := isNextPower_unique hp ⟨by simp, fun q hq => by
    rcases Nat.lt_or_ge 1 q with h | h
    · exact h
    · have := Nat.pow_le_pow_right (n := 2) (by decide) h
      simp only [List.length_cons, List.length_nil] at hq
      omega⟩
  subst this
  rw [h]; rfl

/-- Without leaves the root is the padding. -/
theorem C17_empty_root (E : Env) : merkleRoot E [] = .ok specPad := by
  rw [merkleRoot_eq]
  have : findClosestPowerOf2 ([] : List Hash).length = 0 := by
    simp [findClosestPowerOf2, closestPowerLoop]
  unfold merkleRootT
  rw [this]; rfl

/-! ## C18 -/

/-- C18. Every leaf has a proof; its last entry is the root and the rest verifies. -/
theorem C18_proof_complete (E : Env) (items : List Hash) (x : Hash) (hx : x ∈ items) :
    ∃ t root proof, buildTree E items = .ok t ∧ t.getRoot = .ok root ∧ t.getProof x = .ok proof ∧
      proof.length = t.depth ∧ proof.getLast? = some root ∧
      verifyProof E x root proof.dropLast = .ok true := by
  have hp := findClosestPowerOf2_spec items.length
  obtain ⟨a, h1, h2, h3⟩ := buildTree_spec E items _ hp
  generalize findClosestPowerOf2 items.length = p at hp h1 h2 h3
  obtain ⟨i, hi, hg⟩ := getProof_spec E items p a hp.1 h2 h3 x hx
  have hroot := buildTree_root E items _ a h3
  have hnv := nodeVal_eq E (Spec.padTo PADDING_HASH (2 ^ p) items) p 0
  simp only [Nat.zero_mul, List.drop_zero] at hnv
  refine ⟨_, nodeVal E (Spec.padTo PADDING_HASH (2 ^ p) items) p 0, _, h1, ?_, hg, ?_, ?_, ?_⟩
  · unfold MerkleTree.getRoot getUnchecked; rw [hroot, hnv]
  · simp [siblings_length]
  · simp
  · rw [List.dropLast_concat]
    have hil : i < items.length := by
      rcases Nat.lt_or_ge i items.length with h | h
      · exact h
      · rw [List.getElem?_eq_none h] at hi; cases hi
    have hx0 : nodeVal E (Spec.padTo PADDING_HASH (2 ^ p) items) 0 i = x := by
      simp only [nodeVal]
      rw [List.getD_eq_getElem?_getD, Spec.padTo, List.getElem?_append_left hil, hi]; rfl
    have hfold := siblings_fold E (Spec.padTo PADDING_HASH (2 ^ p) items) p 0 i
    rw [Nat.div_eq_of_lt (by have := hp.1; omega), Nat.zero_add, hx0] at hfold
    cases hs : siblings E (Spec.padTo PADDING_HASH (2 ^ p) items) p 0 i with
    | nil =>
      exfalso
      have hlen := siblings_length E (Spec.padTo PADDING_HASH (2 ^ p) items) p 0 i
      rw [hs] at hlen
      have : p = 0 := by simpa using hlen.symm
      subst this
      have := hp.1
      simp only [Nat.pow_zero] at this
      omega
    | cons s0 rest =>
      rw [hs, List.foldl_cons] at hfold
      unfold verifyProof
      simp only [hfold, decide_true]

example : (BytesN.fill 32 1 : Hash) ∈ [BytesN.fill 32 0, BytesN.fill 32 1, (BytesN.fill 32 2 : Hash)] := by
  decide

/-! ## C19 -/

/-- SHA-256 makes no collision between 32-byte strings. Unlike injectivity on all strings this is
satisfiable; it is what "unless a collision is exhibited" means for a tree of 32-byte nodes. -/
def NoCollision32 (E : Env) : Prop := ∀ x y : Hash, E.sha256 x.val = E.sha256 y.val → x = y

/-- C19 at full strength. -/
def C19_full : Prop := ∀ E : Env, NoCollision32 E → ∀ l m : List Hash,
  merkleRoot E l = merkleRoot E m → l = m

/-- A hash function without collisions on 32-byte strings: the identity there. -/
def idEnv : Env := ⟨fun b => if h : b.length = 32 then ⟨b, h⟩ else BytesN.fill 32 0, true⟩

theorem idEnv_noCollision : NoCollision32 idEnv := by
  intro x y h
  simp only [idEnv, x.property, y.property, dite_true] at h
  exact h

/-- Root of a two-element list, for every hash function. -/
theorem root_two (E : Env) (a b : Hash) : merkleRoot E [a, b] =
    .ok (nodeHash E (nodeHash E a b) (nodeHash E PADDING_HASH PADDING_HASH)) := by
  rw [merkleRoot_eq]
  have : findClosestPowerOf2 [a, b].length = 2 := by simp [findClosestPowerOf2, closestPowerLoop]
  unfold merkleRootT
  rw [this]; rfl

/-- C19 is false of the code, whatever the hash function: swapping two sibling leaves, or replacing two
siblings by their AND and padding, or appending a padding hash, keeps the root. -/
theorem C19_refuted :
    (∀ (E : Env) (a b : Hash), merkleRoot E [a, b] = merkleRoot E [b, a]) ∧
    (∀ (E : Env) (a b : Hash), merkleRoot E [a, b] = merkleRoot E [andHash a b, PADDING_HASH]) ∧
    (∀ (E : Env) (a b : Hash), merkleRoot E [a, b] = merkleRoot E [a, b, PADDING_HASH]) ∧
    ¬ C19_full := by
  have swap : ∀ (E : Env) (a b : Hash), merkleRoot E [a, b] = merkleRoot E [b, a] := by
    intro E a b; rw [root_two, root_two, nodeHash_comm E a b]
  refine ⟨swap, ?_, ?_, ?_⟩
  · intro E a b
    rw [root_two, root_two]
    have : nodeHash E (andHash a b) PADDING_HASH = nodeHash E a b := by
      unfold nodeHash
      rw [andHash_pad]
    rw [this]
  · intro E a b
    rw [root_two, merkleRoot_eq]
    have : findClosestPowerOf2 [a, b, PADDING_HASH].length = 2 := by
      simp [findClosestPowerOf2, closestPowerLoop]
    unfold merkleRootT
    rw [this]; rfl
  · intro h
    have := h idEnv idEnv_noCollision _ _ (swap idEnv (BytesN.fill 32 0) (BytesN.fill 32 1))
    revert this; decide

/-- C19 for single leaves (missing: every longer list, where it fails): the root of a one-element list
determines the element unless two different 32-byte strings collide. -/
theorem C19_single_leaf_partial (E : Env) (a b : Hash) (h : merkleRoot E [a] = merkleRoot E [b]) :
    a = b ∨ (a.val ≠ b.val ∧ E.sha256 a.val = E.sha256 b.val) := by
  have root_one : ∀ a : Hash, merkleRoot E [a] = .ok (E.sha256 a.val) := by
    intro a
    rw [merkleRoot_eq]
    have : findClosestPowerOf2 [a].length = 1 := by simp [findClosestPowerOf2, closestPowerLoop]
    unfold merkleRootT
    rw [this]
    show Outcome.ok (nodeHash E a PADDING_HASH) = _
    unfold nodeHash
    rw [andHash_pad]
  rw [root_one, root_one] at h
  by_cases hab : a = b
  · exact .inl hab
  · exact .inr ⟨fun e => hab (Subtype.ext e), Outcome.ok.inj h⟩

/-- The string hashed for the parent of two nodes: their byte-wise AND. -/
def specMask (l r : Hash) : Bytes := (l.val.zip r.val).map (fun (x, y) => x &&& y)

/-- The `q`-th node, `k` levels above the leaves, of the tree over `items` (missing leaves are padding). -/
def specNode (E : Env) (items : List Hash) : Nat → Nat → Hash
  | 0, q => items.getD q specPad
  | k + 1, q => E.sha256 (specMask (specNode E items k (2 * q)) (specNode E items k (2 * q + 1)))

theorem specNode_eq (E : Env) (items : List Hash) (n : Nat) (k : Nat) : ∀ q,
    nodeVal E (Spec.padTo PADDING_HASH n items) k q = specNode E items k q := by
  induction k with
  | zero =>
    intro q
    simp only [nodeVal, specNode, Spec.padTo]
    rw [List.getD_eq_getElem?_getD, List.getD_eq_getElem?_getD]
    rcases Nat.lt_or_ge q items.length with h | h
    · rw [List.getElem?_append_left h, List.getElem?_eq_getElem h]; rfl
    · rw [List.getElem?_append_right h, List.getElem?_eq_none h, List.getElem?_replicate]
      split <;> rfl
  | succ k ih =>
    intro q
    simp only [nodeVal, specNode]
    rw [ih, ih, ← specParent_eq]
    rfl

theorem root_node (E : Env) (items : List Hash) (p : Nat) (hp : Spec.IsNextPower items.length p) :
    merkleRoot E items = .ok (specNode E items p 0) := by
  obtain rfl := isNextPower_unique hp (findClosestPowerOf2_spec items.length)
  rw [merkleRoot_eq, ← specNode_eq E items (2 ^ findClosestPowerOf2 items.length), nodeVal_eq]
  simp [merkleRootT]

/-- C19, what the root does commit to, for two lists whose trees have the same depth `p` (missing: the leaves themselves,
of which only the AND of the two siblings of each pair enters the root, and lists of different depth).
(a) The ANDs of the pairs of sibling leaves determine the root.
(b) The root determines them, unless the two trees themselves exhibit either a collision, two different strings hashed
to the same node, or a masking, two different pairs of digests at the same place with the same AND. -/
theorem C19_pairs_partial (E : Env) (l m : List Hash) (p : Nat)
    (hl : Spec.IsNextPower l.length (p + 1)) (hm : Spec.IsNextPower m.length (p + 1)) :
    ((∀ q < 2 ^ p, specMask (specNode E l 0 (2 * q)) (specNode E l 0 (2 * q + 1)) =
        specMask (specNode E m 0 (2 * q)) (specNode E m 0 (2 * q + 1))) → merkleRoot E l = merkleRoot E m) ∧
    (merkleRoot E l = merkleRoot E m →
      (∀ q < 2 ^ p, specMask (specNode E l 0 (2 * q)) (specNode E l 0 (2 * q + 1)) =
        specMask (specNode E m 0 (2 * q)) (specNode E m 0 (2 * q + 1))) ∨
      (∃ k ≤ p, ∃ q < 2 ^ (p - k), specNode E l (k + 1) q = specNode E m (k + 1) q ∧
        specMask (specNode E l k (2 * q)) (specNode E l k (2 * q + 1)) ≠
          specMask (specNode E m k (2 * q)) (specNode E m k (2 * q + 1))) ∨
      (∃ k ≤ p, 0 < k ∧ ∃ q < 2 ^ (p - k),
        (specNode E l k (2 * q), specNode E l k (2 * q + 1)) ≠ (specNode E m k (2 * q), specNode E m k (2 * q + 1)) ∧
        specMask (specNode E l k (2 * q)) (specNode E l k (2 * q + 1)) =
          specMask (specNode E m k (2 * q)) (specNode E m k (2 * q + 1)))) := by
  rw [root_node E l _ hl, root_node E m _ hm]
  constructor
  · intro h
    have key : ∀ k ≤ p, ∀ q < 2 ^ (p - k), specNode E l (k + 1) q = specNode E m (k + 1) q := by
      intro k
      induction k with
      | zero =>
        intro _ q hq
        simp only [specNode] at h ⊢
        rw [h q (by simpa using hq)]
      | succ k ih =>
        intro hk q hq
        have h2 : 2 ^ (p - k) = 2 * 2 ^ (p - (k + 1)) := by
          rw [← Nat.pow_succ', show (p - (k + 1)).succ = p - k by omega]
        show E.sha256 _ = E.sha256 _
        rw [ih (by omega) (2 * q) (by omega), ih (by omega) (2 * q + 1) (by omega)]
    rw [key p (Nat.le_refl _) 0 (Nat.pow_pos (by decide))]
  · intro h
    have h := Outcome.ok.inj h
    refine Classical.byContradiction fun hno => ?_
    simp only [not_or, not_exists, not_and] at hno
    obtain ⟨hpairs, hcol, hmask⟩ := hno
    apply hpairs
    have key : ∀ j k, k + j = p → ∀ q < 2 ^ (p - k),
        specMask (specNode E l k (2 * q)) (specNode E l k (2 * q + 1)) =
          specMask (specNode E m k (2 * q)) (specNode E m k (2 * q + 1)) := by
      intro j
      induction j with
      | zero =>
        rintro k rfl q hq
        have : q = 0 := by simpa using hq
        subst this
        exact Classical.not_not.mp (hcol k (Nat.le_refl _) 0 (by simp) h)
      | succ j ih =>
        intro k hk q hq
        have h2 : 2 ^ (p - k) = 2 * 2 ^ (p - (k + 1)) := by
          rw [← Nat.pow_succ', show (p - (k + 1)).succ = p - k by omega]
        have hup := ih (k + 1) (by omega) (q / 2) (by omega)
        have hch := Classical.not_not.mp fun hne => hmask (k + 1) (by omega) (by omega) (q / 2) (by omega) hne hup
        have heq : specNode E l (k + 1) q = specNode E m (k + 1) q := by
          rcases Nat.mod_two_eq_zero_or_one q with h0 | h0
          · rw [show q = 2 * (q / 2) by omega]; exact (Prod.ext_iff.mp hch).1
          · rw [show q = 2 * (q / 2) + 1 by omega]; exact (Prod.ext_iff.mp hch).2
        exact Classical.not_not.mp (hcol k (by omega) q hq heq)
    intro q hq
    exact key p 0 (by omega) q (by simpa using hq)

/-- Two lists of three hashes each have trees of the same depth. -/
example (a b c d e f : Hash) : Spec.IsNextPower [a, b, c].length 2 ∧ Spec.IsNextPower [d, e, f].length 2 :=
  have h : Spec.IsNextPower 3 2 := by
    have := findClosestPowerOf2_spec 3
    simpa [findClosestPowerOf2, closestPowerLoop] using this
  ⟨h, h⟩

/-! ## C20 -/

/-- C20 at full strength. -/
def C20_full : Prop := ∀ E : Env, NoCollision32 E → ∀ (items : List Hash) (t : MerkleTree) (root x y : Hash)
  (proof : List Hash), buildTree E items = .ok t → t.getRoot = .ok root → x ∈ items →
  t.getProof x = .ok proof → y ∉ items → verifyProof E y root proof.dropLast = .ok false

/-- C20 is false of the code, whatever the hash function: next to an all-zero leaf any hash verifies. -/
theorem C20_refuted :
    (∀ (E : Env) (x y : Hash), ∃ t root proof, buildTree E [x, BytesN.fill 32 0] = .ok t ∧
      t.getRoot = .ok root ∧ t.getProof x = .ok proof ∧ verifyProof E y root proof.dropLast = .ok true) ∧
    ¬ C20_full := by
  have key : ∀ (E : Env) (x y : Hash), ∃ t root proof, buildTree E [x, BytesN.fill 32 0] = .ok t ∧
      t.getRoot = .ok root ∧ t.getProof x = .ok proof ∧ verifyProof E y root proof.dropLast = .ok true :=
    proof_reuse
  refine ⟨key, fun h => ?_⟩
  obtain ⟨t, root, proof, h1, h2, h3, h4⟩ := key idEnv (BytesN.fill 32 1) (BytesN.fill 32 7)
  have := h idEnv idEnv_noCollision _ t root _ (BytesN.fill 32 7) proof h1 h2 (by simp) h3 (by decide)
  rw [h4] at this
  simp at this

/-- C20, what an accepted one-step proof does guarantee (missing: the bits the sibling masks out, and
longer proofs, where every level masks again): the hash agrees with every other accepted one on all bits
set in the sibling, or SHA-256 collides on the two strings. -/
theorem C20_masked_bits_partial (E : Env) (x y root s : Hash)
    (hx : verifyProof E x root [s] = .ok true) (hy : verifyProof E y root [s] = .ok true) :
    andHash x s = andHash y s ∨
      ((andHash x s).val ≠ (andHash y s).val ∧ E.sha256 (andHash x s).val = E.sha256 (andHash y s).val) := by
  simp only [verifyProof, List.foldl_nil, Outcome.ok.injEq] at hx hy
  have hx := of_decide_eq_true hx
  have hy := of_decide_eq_true hy
  by_cases h : andHash x s = andHash y s
  · exact .inl h
  · exact .inr ⟨fun e => h (Subtype.ext e), Subtype.ext (hx.symm.trans hy)⟩

/-- C20 for proofs of any length (missing: the bits masked out): if a proof is accepted for two hashes, then these agree
on all bits set in the proof's first entry, or SHA-256 collides on two strings met on the way up, or two different
digests met at the same level agree on all bits set in the proof's entry for that level. -/
theorem C20_levels_partial (E : Env) (x y root s : Hash) (rest : List Hash)
    (hx : verifyProof E x root (s :: rest) = .ok true) (hy : verifyProof E y root (s :: rest) = .ok true) :
    specMask x s = specMask y s ∨
    (∃ (before : List Hash) (t : Hash) (after : List Hash) (u v : Hash), s :: rest = before ++ t :: after ∧
      u = before.foldl (specParent E) x ∧ v = before.foldl (specParent E) y ∧
      specMask u t ≠ specMask v t ∧ E.sha256 (specMask u t) = E.sha256 (specMask v t)) ∨
    (∃ (before : List Hash) (t : Hash) (after : List Hash) (u v : Hash), s :: rest = before ++ t :: after ∧
      before ≠ [] ∧ u = before.foldl (specParent E) x ∧ v = before.foldl (specParent E) y ∧
      u ≠ v ∧ specMask u t = specMask v t) := by
  have hx : (s :: rest).foldl (specParent E) x = root := by
    rw [specParent_eq]; exact (Subtype.ext (of_decide_eq_true (Outcome.ok.inj hx))).symm
  have hy : (s :: rest).foldl (specParent E) y = root := by
    rw [specParent_eq]; exact (Subtype.ext (of_decide_eq_true (Outcome.ok.inj hy))).symm
  refine Classical.byContradiction fun hno => ?_
  simp only [not_or, not_exists, not_and] at hno
  obtain ⟨hne, hcol, hmask⟩ := hno
  have key : ∀ (n : Nat) (before after : List Hash), before.length = n + 1 → s :: rest = before ++ after →
      before.foldl (specParent E) x ≠ before.foldl (specParent E) y := by
    intro n
    induction n with
    | zero =>
      intro before after hlen heq
      match before, hlen with
      | [t], _ =>
        obtain ⟨rfl, -⟩ := List.cons.inj heq
        exact fun e => hcol [] s rest x y rfl rfl rfl hne e
    | succ n ih =>
      intro before after hlen heq
      obtain ⟨b, t, rfl⟩ : ∃ b t, before = b ++ [t] :=
        ⟨before.dropLast, before.getLast (by intro e; simp [e] at hlen), (List.dropLast_concat_getLast _).symm⟩
      have hb : b.length = n + 1 := by simpa using hlen
      have heq' : s :: rest = b ++ t :: after := by rw [heq]; simp
      have hd := ih b (t :: after) hb heq'
      rw [List.foldl_append, List.foldl_append]
      refine fun e => hcol b t after _ _ heq' rfl rfl (fun e' => ?_) e
      exact hmask b t after _ _ heq' (by intro e; simp [e] at hb) rfl rfl hd e'
  exact key rest.length (s :: rest) [] (by simp) (by simp) (hx.trans hy.symm)

/-- C20 for single-leaf trees: no other hash verifies, unless SHA-256 collides on it and the leaf. -/
theorem C20_single_leaf_partial (E : Env) (x y : Hash) (t : MerkleTree) (root : Hash) (proof : List Hash)
    (ht : buildTree E [x] = .ok t) (hr : t.getRoot = .ok root) (hp : t.getProof x = .ok proof)
    (hv : verifyProof E y root proof.dropLast = .ok true) :
    y = x ∨ (x.val ≠ y.val ∧ E.sha256 x.val = E.sha256 y.val) := by
  have hpl : proof.dropLast = [PADDING_HASH] := single_leaf_proof E x t proof ht hp
  obtain ⟨t', root', proof', a1, a2, a3, _, _, a6⟩ := C18_proof_complete E [x] x (by simp)
  rw [ht] at a1; cases a1
  rw [hr] at a2; cases a2
  rw [hp] at a3; cases a3
  rw [hpl] at hv a6
  rcases C20_masked_bits_partial E x y root PADDING_HASH a6 hv with h | h
  · rw [andHash_pad, andHash_pad] at h; exact .inl h.symm
  · rw [andHash_pad, andHash_pad] at h; exact .inr h

example (E : Env) (x : Hash) : ∃ t root proof, buildTree E [x] = .ok t ∧ t.getRoot = .ok root ∧
    t.getProof x = .ok proof ∧ verifyProof E x root proof.dropLast = .ok true := by
  obtain ⟨t', root', proof', a1, a2, a3, _, _, a6⟩ := C18_proof_complete E [x] x (by simp)
  exact ⟨t', root', proof', a1, a2, a3, a6⟩

end BCT.Props
