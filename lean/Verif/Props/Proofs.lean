import Verif.Props.Commit
/-!
# C101: every proof gets an answer (merkletree.rs:74-145)
-/

namespace BCT.Props
open BCT

/-- The hash reached from `h` by combining it with the entries of the proof one after the other; written
independently of the model. -/
inductive Climbs (E : Env) : Hash → List Hash → Hash → Prop where
  | here (h : Hash) : Climbs E h [] h
  | up {h p r : Hash} {ps : List Hash} : Climbs E (specParent E h p) ps r → Climbs E h (p :: ps) r

theorem climbs_iff (E : Env) (ps : List Hash) : ∀ h r : Hash, Climbs E h ps r ↔ ps.foldl (specParent E) h = r := by
  induction ps with
  | nil =>
    intro h r
    constructor
    · rintro ⟨⟩; rfl
    · rintro rfl; exact .here _
  | cons p ps ih =>
    intro h r
    rw [List.foldl_cons, ← ih]
    constructor
    · rintro ⟨⟩; assumption
    · exact .up

theorem verifyProof_cons (E : Env) (h r p : Hash) (ps : List Hash) :
    verifyProof E h r (p :: ps) = .ok (decide ((p :: ps).foldl (specParent E) h = r)) := by
  rw [specParent_eq]
  simp only [verifyProof, List.foldl_cons]
  congr 1
  apply decide_eq_decide.mpr
  constructor
  · intro e; exact (Subtype.ext e).symm
  · intro e; rw [← e]; rfl

/-- C101 in full: `verify_proof` answers every proof. -/
def C101_full : Prop := ∀ (E : Env) (h root : Hash) (proof : List Hash), (verifyProof E h root proof).Safe

/-- C101 is false of the code: what `get_proof` returns for the tree without leaves, with the root taken off as always,
makes `verify_proof` panic, whatever the hash asked for. -/
theorem C101_refuted :
    (∀ (E : Env) (h : Hash), ∃ t root proof, buildTree E [] = .ok t ∧ t.getRoot = .ok root ∧ t.getProof h = .ok proof ∧
      verifyProof E h root proof.dropLast = .panic .index) ∧ ¬ C101_full := by
  constructor
  · intro E h
    obtain ⟨t, root, proof, h1, h2, h3, _, _, h4, _⟩ := C83_last_leaf_partial E [] h (by simp)
    refine ⟨t, root, proof, h1, h2, h3, ?_⟩
    rw [h4 rfl]
    rfl
  · intro hfull
    exact hfull idEnv specPad specPad []

/-- C101, what holds. (a) Every proof with at least one entry gets the answer whether the hash climbs along it to the
root. (b) This includes what `get_proof` returns, with the root taken off, for every hash and every tree with leaves.
(c) With the root left on, the proof of a leaf is accepted exactly if the root is its own SHA-256, so that the entry has
to be taken off. Missing: the empty proof (`C101_refuted`). -/
theorem C101_answer_partial (E : Env) :
    (∀ (h root p : Hash) (ps : List Hash), ∃ b, verifyProof E h root (p :: ps) = .ok b ∧
      (b = true ↔ Climbs E h (p :: ps) root)) ∧
    (∀ (items : List Hash) (h : Hash), items ≠ [] → ∃ t root proof b, buildTree E items = .ok t ∧ t.getRoot = .ok root ∧
      t.getProof h = .ok proof ∧ verifyProof E h root proof.dropLast = .ok b) ∧
    (∀ (items : List Hash) (x : Hash), x ∈ items → ∃ t root proof b, buildTree E items = .ok t ∧ t.getRoot = .ok root ∧
      t.getProof x = .ok proof ∧ verifyProof E x root proof = .ok b ∧ (b = true ↔ E.sha256 root.val = root)) := by
  have hne : ∀ {items : List Hash} {t : MerkleTree} {proof : List Hash}, items ≠ [] → buildTree E items = .ok t →
      proof.length = t.depth → ∃ p ps, proof.dropLast = p :: ps := by
    intro items t proof h0 ht hl
    obtain ⟨t', p, h1, h2, _, _, h3, _⟩ := C17_merkle_root E items
    rw [ht] at h1; cases h1
    have : p ≠ 0 := by
      rintro rfl
      have := h2.1
      exact h0 (List.eq_nil_of_length_eq_zero (by simpa using this))
    cases hd : proof.dropLast with
    | nil =>
      have := congrArg List.length hd
      rw [List.length_dropLast, hl, h3, List.length_nil] at this
      omega
    | cons p ps => exact ⟨p, ps, rfl⟩
  refine ⟨?_, ?_, ?_⟩
  · intro h root p ps
    refine ⟨_, verifyProof_cons E h root p ps, ?_⟩
    rw [climbs_iff, decide_eq_true_iff]
  · intro items h h0
    by_cases hx : h ∈ items
    · obtain ⟨t, root, proof, h1, h2, h3, _, _, h4⟩ := C18_proof_complete E items h hx
      exact ⟨t, root, proof, _, h1, h2, h3, h4⟩
    · obtain ⟨t, root, proof, h1, h2, h3, h4, _⟩ := C83_last_leaf_partial E items h hx
      obtain ⟨p, ps, hd⟩ := hne h0 h1 h4
      exact ⟨t, root, proof, _, h1, h2, h3, by rw [hd]; exact verifyProof_cons ..⟩
  · intro items x hx
    obtain ⟨t, root, proof, h1, h2, h3, h4, h5, h6⟩ := C18_proof_complete E items x hx
    obtain ⟨p, ps, hd⟩ := hne (List.ne_nil_of_mem hx) h1 h4
    have hp : proof = p :: (ps ++ [root]) := by
      obtain ⟨ys, rfl⟩ := List.getLast?_eq_some_iff.mp h5
      rw [List.dropLast_concat] at hd
      rw [hd, List.cons_append]
    rw [hd, verifyProof_cons] at h6
    have hf : (p :: ps).foldl (specParent E) x = root := of_decide_eq_true (Outcome.ok.inj h6)
    refine ⟨t, root, proof, _, h1, h2, h3, by rw [hp]; exact verifyProof_cons .., ?_⟩
    rw [decide_eq_true_iff, ← List.cons_append, List.foldl_append, hf]
    simp only [List.foldl_cons, List.foldl_nil]
    have : specParent E root root = E.sha256 root.val := by
      unfold specParent
      congr 1
      rw [List.zip_eq_zipWith, List.map_zipWith]
      apply List.ext_getElem
      · simp
      · intro i h1 h2; simp
    rw [this]

/-- Both answers occur. -/
example (E : Env) (x : Hash) : verifyProof E x (specParent E x specPad) [specPad] = .ok true := by
  rw [verifyProof_cons]; simp
example : verifyProof idEnv specPad (BytesN.fill 32 0) [specPad] = .ok false := by decide +kernel

end BCT.Props
