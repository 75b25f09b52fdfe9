import Verif.Model.Pool
/-!
# The binary heap keeps its shape and its contents
-/

namespace BCT.Heap

variable {α : Type} {le : α → α → Bool}

/-- Every element is at most its parent. -/
def IsHeap (le : α → α → Bool) {n : Nat} (v : Vector α n) : Prop :=
  ∀ i (h : i < n), 0 < i → le v[i] v[(i - 1) / 2] = true

/-- Heap but for `pos` against its parent; the children of `pos` are at most its parent. -/
def AlmostUp (le : α → α → Bool) {n : Nat} (v : Vector α n) (pos : Nat) (hpos : pos < n) : Prop :=
  (∀ i (h : i < n), 0 < i → i ≠ pos → le v[i] v[(i - 1) / 2] = true) ∧
  (∀ i (h : i < n), 0 < i → (i - 1) / 2 = pos → 0 < pos → le v[i] v[(pos - 1) / 2] = true)

/-- Heap with a hole at `pos`. -/
def Hole (le : α → α → Bool) {n : Nat} (v : Vector α n) (pos : Nat) (hpos : pos < n) : Prop :=
  (∀ i (h : i < n), 0 < i → i ≠ pos → (i - 1) / 2 ≠ pos → le v[i] v[(i - 1) / 2] = true) ∧
  (∀ i (h : i < n), 0 < i → (i - 1) / 2 = pos → 0 < pos → le v[i] v[(pos - 1) / 2] = true)

structure TotalLe (le : α → α → Bool) : Prop where
  total : ∀ a b, le a b = true ∨ le b a = true
  trans : ∀ a b c, le a b = true → le b c = true → le a c = true

theorem TotalLe.refl (T : TotalLe le) (a : α) : le a a = true := by
  rcases T.total a a with h | h <;> exact h

theorem siftUp_perm {n : Nat} (v : Vector α n) (pos : Nat) (h : pos < n) :
    (siftUp le v pos h).Perm v := by
  induction pos using Nat.strong_induction_on generalizing v with
  | _ pos ih =>
    rw [siftUp]
    split
    · dsimp only
      split
      · exact Vector.Perm.refl _
      · exact (ih _ (by omega) _ _).trans (Vector.swap_perm _ _)
    · exact Vector.Perm.refl _

theorem siftUp_heap (T : TotalLe le) {n : Nat} (v : Vector α n) (pos : Nat) (h : pos < n)
    (hv : AlmostUp le v pos h) : IsHeap le (siftUp le v pos h) := by
  induction pos using Nat.strong_induction_on generalizing v with
  | _ pos ih =>
    rw [siftUp]
    split
    · rename_i h0
      dsimp only
      split
      · rename_i hle
        intro i hi hi0
        by_cases hip : i = pos
        · subst hip; exact hle
        · exact hv.1 i hi hi0 hip
      · rename_i hle
        have hge : le v[(pos - 1) / 2] v[pos] = true := by
          rcases T.total v[pos] v[(pos - 1) / 2] with h' | h'
          · exact absurd h' hle
          · exact h'
        apply ih _ (by omega)
        constructor
        · intro i hi hi0 hne
          simp only [Vector.getElem_swap]
          by_cases hip : i = pos
          · subst hip
            rw [if_pos rfl, if_neg (by omega), if_pos rfl]
            exact hge
          · rw [if_neg hip, if_neg hne]
            by_cases hpp : (i - 1) / 2 = pos
            · rw [if_pos hpp]
              exact hv.2 i hi hi0 hpp h0
            · rw [if_neg hpp]
              by_cases hs : (i - 1) / 2 = (pos - 1) / 2
              · rw [if_pos hs]
                refine T.trans _ _ _ (hv.1 i hi hi0 hip) ?_
                simp only [hs]
                exact hge
              · rw [if_neg hs]
                exact hv.1 i hi hi0 hip
        · intro i hi hi0 hpar hpar0
          simp only [Vector.getElem_swap]
          rw [if_neg (show ¬ ((pos - 1) / 2 - 1) / 2 = pos by omega),
            if_neg (show ¬ ((pos - 1) / 2 - 1) / 2 = (pos - 1) / 2 by omega)]
          have hpp := hv.1 ((pos - 1) / 2) (by omega) hpar0 (by omega)
          by_cases hip : i = pos
          · rw [if_pos hip]
            exact hpp
          · rw [if_neg hip, if_neg (by omega)]
            refine T.trans _ _ _ (hv.1 i hi hi0 hip) ?_
            simp only [hpar]
            exact hpp
    · rename_i h0
      intro i hi hi0
      exact hv.1 i hi hi0 (by omega)

theorem siftDown_perm {n : Nat} (v : Vector α n) (pos : Nat) (h : pos < n) :
    (siftDown le v pos h).1.Perm v := by
  induction hk : n - pos using Nat.strong_induction_on generalizing v pos with
  | _ k ih =>
    rw [siftDown]
    split
    · split
      · exact (ih _ (by omega) _ _ _ rfl).trans (Vector.swap_perm _ _)
      · exact (ih _ (by omega) _ _ _ rfl).trans (Vector.swap_perm _ _)
    · split
      · exact Vector.swap_perm h (by omega)
      · exact Vector.Perm.refl _

/-- Moving the larger child `c` of the hole into the hole moves the hole to `c`. -/
theorem hole_step {n : Nat} (v : Vector α n) (pos : Nat) (h : pos < n) (hv : Hole le v pos h)
    (c : Nat) (hc : c < n) (hcp : (c - 1) / 2 = pos) (hc0 : 0 < c)
    (hbest : ∀ i (hi : i < n), 0 < i → (i - 1) / 2 = pos → le v[i] v[c] = true) :
    Hole le (v.swap pos c) c hc := by
  constructor
  · intro i hi hi0 hne hpne
    simp only [Vector.getElem_swap]
    by_cases hip : i = pos
    · rw [if_pos hip, if_neg (show ¬ (i - 1) / 2 = pos by omega), if_neg hpne]
      have := hv.2 c hc hc0 hcp (by omega)
      simpa only [hip] using this
    · rw [if_neg hip, if_neg hne]
      by_cases hpp : (i - 1) / 2 = pos
      · rw [if_pos hpp]
        exact hbest i hi hi0 hpp
      · rw [if_neg hpp, if_neg hpne]
        exact hv.1 i hi hi0 hip hpp
  · intro i hi hi0 hpar hc0'
    simp only [Vector.getElem_swap]
    rw [if_neg (show ¬ i = pos by omega), if_neg (show ¬ i = c by omega), if_pos hcp]
    have := hv.1 i hi hi0 (by omega) (by omega)
    simpa only [hpar] using this

theorem siftDown_almost (T : TotalLe le) {n : Nat} (v : Vector α n) (pos : Nat) (h : pos < n)
    (hv : Hole le v pos h) :
    AlmostUp le (siftDown le v pos h).1 (siftDown le v pos h).2.1 (siftDown le v pos h).2.2 := by
  induction hk : n - pos using Nat.strong_induction_on generalizing v pos with
  | _ k ih =>
    rw [siftDown]
    split
    · rename_i hc
      split
      · rename_i hle
        refine ih _ (by omega) _ _ hc ?_ rfl
        refine hole_step v pos h hv _ hc (by omega) (by omega) ?_
        intro i hi hi0 hip
        rcases (show i = 2 * pos + 1 ∨ i = 2 * pos + 1 + 1 by omega) with hi' | hi'
        · subst hi'; exact hle
        · subst hi'; exact T.refl _
      · rename_i hle
        refine ih _ (by omega) _ _ (by omega) ?_ rfl
        refine hole_step v pos h hv _ (by omega) (by omega) (by omega) ?_
        intro i hi hi0 hip
        rcases (show i = 2 * pos + 1 ∨ i = 2 * pos + 1 + 1 by omega) with hi' | hi'
        · subst hi'; exact T.refl _
        · subst hi'
          rcases T.total v[2 * pos + 1] v[2 * pos + 1 + 1] with h' | h'
          · exact absurd h' hle
          · exact h'
    · split
      · rename_i hc hc'
        have hh := hole_step v pos h hv (2 * pos + 1) (by omega) (by omega) (by omega) (by
          intro i hi hi0 hip
          have : i = 2 * pos + 1 := by omega
          subst this; exact T.refl _)
        exact ⟨fun i hi hi0 hne => hh.1 i hi hi0 hne (by omega), hh.2⟩
      · rename_i hc hc'
        exact ⟨fun i hi hi0 hne => hv.1 i hi hi0 hne (by omega), hv.2⟩

/-- The root of a heap is a maximum. -/
theorem IsHeap.root_max (T : TotalLe le) {n : Nat} {v : Vector α n} (hv : IsHeap le v) (h0 : 0 < n)
    (i : Nat) (hi : i < n) : le v[i] v[0] = true := by
  induction i using Nat.strong_induction_on with
  | _ i ih =>
    by_cases h : i = 0
    · subst h; exact T.refl _
    · exact T.trans _ _ _ (hv i hi (by omega)) (ih ((i - 1) / 2) (by omega) (by omega))

/-- Every element of the array is at most its parent. -/
def IsHeapA (le : α → α → Bool) (a : Array α) : Prop :=
  IsHeap le (⟨a, rfl⟩ : Vector α a.size)

theorem isHeapA_toArray {n : Nat} {v : Vector α n} (h : IsHeap le v) : IsHeapA le v.toArray := by
  obtain ⟨a, rfl⟩ := v
  exact h

theorem isHeapA_empty : IsHeapA le (#[] : Array α) := fun i h => absurd h (Nat.not_lt_zero i)

theorem push_perm (a : Array α) (x : α) : (push le a x).toList.Perm (x :: a.toList) := by
  have h := siftUp_perm (le := le) (⟨a.push x, rfl⟩ : Vector α (a.push x).size) a.size (by simp)
  have h' := h.toArray.toList
  refine h'.trans ?_
  simp only [Array.toList_push]
  exact List.perm_append_singleton x a.toList

theorem push_heap (T : TotalLe le) (a : Array α) (x : α) (ha : IsHeapA le a) :
    IsHeapA le (push le a x) := by
  apply isHeapA_toArray
  apply siftUp_heap T
  constructor
  · intro i hi hi0 hne
    have hi' : i < a.size := by
      have : i < a.size + 1 := by simpa using hi
      omega
    have := ha i hi' hi0
    simp only [Vector.getElem_mk] at this ⊢
    rw [Array.getElem_push_lt hi', Array.getElem_push_lt (by omega)]
    exact this
  · intro i hi hi0 hpar
    have : i < a.size + 1 := by simpa using hi
    omega

theorem pop_none {a : Array α} : pop le a = none ↔ a = #[] := by
  unfold pop
  split
  · rename_i h
    constructor
    · intro hp
      dsimp only at hp
      split at hp <;> cases hp
    · intro ha; subst ha; cases h
  · rename_i h
    exact ⟨fun _ => Array.eq_empty_of_size_eq_zero (by omega), fun _ => rfl⟩

theorem list_set_zero_perm {l : List α} {x : α} (h : 0 < l.length) :
    (l[0] :: l.set 0 x).Perm (x :: l) := by
  cases l with
  | nil => cases h
  | cons y ys => exact List.Perm.swap x y ys

theorem pop_perm {a a' : Array α} {x : α} (h : pop le a = some (x, a')) :
    a.toList.Perm (x :: a'.toList) := by
  unfold pop at h
  split at h
  · rename_i h0
    dsimp only at h
    have hsplit : a.toList = a.pop.toList ++ [a[a.size - 1]] := by
      have hne : a.toList ≠ [] := by
        intro hnil
        have : a.toList.length = 0 := by rw [hnil]; rfl
        rw [Array.length_toList] at this
        omega
      rw [Array.toList_pop]
      conv_lhs => rw [← List.dropLast_append_getLast hne]
      rw [List.getLast_eq_getElem]
      simp
    split at h
    · rename_i hd
      simp only [Option.some.injEq, Prod.mk.injEq] at h
      obtain ⟨hx, ha'⟩ := h
      subst hx ha'
      rw [hsplit]
      refine (List.perm_append_singleton _ _).trans ?_
      have h1 := (siftUp_perm (le := le)
        (siftDown le ((⟨a.pop, rfl⟩ : Vector α a.pop.size).set 0 a[a.size - 1] hd) 0 hd).1 _
        (siftDown le ((⟨a.pop, rfl⟩ : Vector α a.pop.size).set 0 a[a.size - 1] hd) 0 hd).2.2).trans
          (siftDown_perm (le := le) ((⟨a.pop, rfl⟩ : Vector α a.pop.size).set 0 a[a.size - 1] hd) 0 hd)
      have h2 := h1.toArray.toList
      refine List.Perm.trans ?_ (h2.symm.cons _)
      have := list_set_zero_perm (l := a.pop.toList) (x := a[a.size - 1]) (by simpa using hd)
      simp only [Vector.toArray_set, Array.toList_set]
      refine this.symm.trans ?_
      rw [Array.getElem_toList]
    · rename_i hd
      simp only [Option.some.injEq, Prod.mk.injEq] at h
      obtain ⟨hx, ha'⟩ := h
      subst hx ha'
      rw [hsplit]
      exact List.perm_append_singleton _ _
  · cases h

theorem pop_heap (T : TotalLe le) {a a' : Array α} {x : α} (ha : IsHeapA le a)
    (h : pop le a = some (x, a')) : IsHeapA le a' := by
  unfold pop at h
  split at h
  · dsimp only at h
    split at h
    · rename_i hd
      simp only [Option.some.injEq, Prod.mk.injEq] at h
      obtain ⟨hx, ha'⟩ := h
      subst hx ha'
      apply isHeapA_toArray
      apply siftUp_heap T
      apply siftDown_almost T
      constructor
      · intro i hi hi0 hne hpne
        have hi' : i < a.size := by have := Array.size_pop (xs := a); omega
        have := ha i hi' hi0
        simp only [Vector.getElem_mk] at this
        rw [Vector.getElem_set_ne _ _ (by omega), Vector.getElem_set_ne _ _ (by omega)]
        simp only [Vector.getElem_mk, Array.getElem_pop]
        exact this
      · intro i hi hi0 hpar h0
        cases h0
    · rename_i hd
      simp only [Option.some.injEq, Prod.mk.injEq] at h
      obtain ⟨hx, ha'⟩ := h
      subst hx ha'
      intro i hi
      exact absurd hi (by omega)
  · cases h

theorem pop_max (T : TotalLe le) {a a' : Array α} {x : α} (ha : IsHeapA le a)
    (h : pop le a = some (x, a')) : ∀ y ∈ a.toList, le y x = true := by
  intro y hy
  obtain ⟨i, hi, rfl⟩ := List.getElem_of_mem hy
  have hi' : i < a.size := by simpa using hi
  have hmax := ha.root_max T (by omega) i hi'
  simp only [Vector.getElem_mk] at hmax
  have hx : x = a[0] := by
    unfold pop at h
    split at h
    · rename_i h0
      dsimp only at h
      split at h
      · simp only [Option.some.injEq, Prod.mk.injEq] at h
        rw [← h.1]
        exact Array.getElem_pop _
      · rename_i hd
        simp only [Option.some.injEq, Prod.mk.injEq] at h
        rw [← h.1]
        have := Array.size_pop (xs := a)
        have : a.size - 1 = 0 := by omega
        simp only [this]
    · rename_i h0
      exact absurd hi' (by omega)
  rw [hx, Array.getElem_toList]
  exact hmax

end BCT.Heap
