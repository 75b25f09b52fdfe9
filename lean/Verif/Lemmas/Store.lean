import Verif.Lemmas.Act
import Verif.Lemmas.Inject
/-!
# Lemmas on the database model
-/

namespace BCT

theorem lookup_insertSorted (k v q : Bytes) (l : List (Bytes × Bytes)) :
    lookup q (insertSorted k v l) = if k = q then some v else lookup q l := by
  induction l with
  | nil => simp [insertSorted, lookup]
  | cons e l ih =>
    simp only [insertSorted]
    split
    · rename_i hk
      simp only [lookup]
      by_cases h : k = q
      · simp [h]
      · simp [h, ← hk]
    · split
      · simp [lookup]
      · rename_i hk _
        simp only [lookup, ih]
        by_cases h : e.1 = q
        · have : k ≠ q := fun e' => hk (e'.trans h.symm)
          simp [h, this]
        · simp [h]

@[simp] theorem KV.get_insert (m : KV) (k v q : Bytes) :
    (m.insert k v).get q = if k = q then some v else m.get q := lookup_insertSorted k v q m.entries

@[simp] theorem KV.get_empty (q : Bytes) : KV.empty.get q = none := rfl

theorem lookup_mem {k v : Bytes} {l : List (Bytes × Bytes)} (h : lookup k l = some v) : (k, v) ∈ l := by
  induction l with
  | nil => simp [lookup] at h
  | cons e l ih =>
    simp only [lookup] at h
    split at h
    · rename_i hk
      obtain ⟨a, b⟩ := e
      simp only [Option.some.injEq] at h hk
      subst h; subst hk
      exact List.mem_cons_self
    · exact List.mem_cons_of_mem _ (ih h)

theorem lookup_of_mem {k v : Bytes} {l : List (Bytes × Bytes)} (hs : Sorted l) (h : (k, v) ∈ l) :
    lookup k l = some v := by
  induction l with
  | nil => simp at h
  | cons e l ih =>
    unfold Sorted at hs
    rw [List.pairwise_cons] at hs
    simp only [lookup]
    rcases List.mem_cons.mp h with rfl | h
    · simp
    · have hlt := hs.1 _ h
      rw [if_neg, ih hs.2 h]
      intro he
      simp only at hlt
      rw [he, bytesLt_irrefl] at hlt
      simp at hlt

theorem KV.mem_entries {m : KV} {k v : Bytes} : (k, v) ∈ m.entries ↔ m.get k = some v :=
  ⟨lookup_of_mem m.sorted, lookup_mem⟩

theorem sorted_ext {l m : List (Bytes × Bytes)} (hl : Sorted l) (hm : Sorted m)
    (h : ∀ k, lookup k l = lookup k m) : l = m := by
  induction l generalizing m with
  | nil =>
    cases m with
    | nil => rfl
    | cons e m => have := h e.1; simp [lookup] at this
  | cons a l ih =>
    cases m with
    | nil => have := h a.1; simp [lookup] at this
    | cons b m =>
      have hab : a.1 = b.1 := by
        apply Classical.byContradiction
        intro hne
        have h1 : (a.1, a.2) ∈ b :: m := lookup_mem (by rw [← h]; simp [lookup])
        have h2 : (b.1, b.2) ∈ a :: l := lookup_mem (by rw [h]; simp [lookup])
        rcases List.mem_cons.mp h1 with h1 | h1
        · exact hne (congrArg Prod.fst h1)
        · rcases List.mem_cons.mp h2 with h2 | h2
          · exact hne (congrArg Prod.fst h2).symm
          · have l1 := (List.pairwise_cons.mp hm).1 _ h1
            have l2 := (List.pairwise_cons.mp hl).1 _ h2
            have := bytesLt_trans l1 l2
            simp only at this
            rw [bytesLt_irrefl] at this
            simp at this
      have hv : a.2 = b.2 := by
        have := h a.1
        simp only [lookup, hab, if_true, Option.some.injEq] at this
        exact this
      have hab' : a = b := Prod.ext hab hv
      subst hab'
      congr 1
      apply ih (List.pairwise_cons.mp hl).2 (List.pairwise_cons.mp hm).2
      intro k
      by_cases hk : a.1 = k
      · have n1 : lookup k l = none := by
          cases hlk : lookup k l with
          | none => rfl
          | some v =>
            have := (List.pairwise_cons.mp hl).1 _ (lookup_mem hlk)
            simp only [hk] at this
            rw [bytesLt_irrefl] at this; simp at this
        have n2 : lookup k m = none := by
          cases hlk : lookup k m with
          | none => rfl
          | some v =>
            have := (List.pairwise_cons.mp hm).1 _ (lookup_mem hlk)
            simp only [hk] at this
            rw [bytesLt_irrefl] at this; simp at this
        rw [n1, n2]
      · have := h k
        simpa [lookup, hk] using this

/-- Two databases with the same answers are the same. -/
theorem KV.ext_get {a b : KV} (h : ∀ k, a.get k = b.get k) : a = b :=
  KV.ext (sorted_ext a.sorted b.sorted h)

@[simp] theorem Db.get_insert (d : Db) (k v q : Bytes) :
    (d.insert k v).get q = if k = q then some v else d.get q := KV.get_insert _ _ _ _

@[simp] theorem Db.get_flush (d : Db) (q : Bytes) : d.flush.get q = d.get q := rfl
@[simp] theorem Db.get_open (m : KV) (q : Bytes) : (Db.open' m).get q = m.get q := rfl

theorem beBytes_inj {k m n : Nat} (hm : m < 256 ^ k) (hn : n < 256 ^ k) (h : beBytes k m = beBytes k n) : m = n := by
  have h1 := beNat_beBytes k m
  have h2 := beNat_beBytes k n
  rw [h] at h1
  rw [Nat.mod_eq_of_lt hm] at h1
  rw [Nat.mod_eq_of_lt hn] at h2
  exact h1.symm.trans h2

theorem toBE_inj {a b : U256} (h : a.toBE.val = b.toBE.val) : a = b :=
  U256.ext (beBytes_inj (k := 32) a.lt b.lt h)

theorem fromBE_toBE (a : U256) : U256.fromBE a.toBE.val = .ok a := by
  unfold U256.fromBE
  rw [dif_pos (by simp [U256.toBE])]
  congr 1
  apply U256.ext
  simp only [U256.toBE, beNat_beBytes]
  exact Nat.mod_eq_of_lt a.lt

end BCT
