import Verif.Lemmas.Heap
import Verif.Lemmas.Codec2
import Verif.Spec.Pool
/-!
# The transaction order
-/

namespace BCT

theorem cmpWords_gt_cons (x y : Nat) (xs ys : List Nat) :
    cmpWords (x :: xs) (y :: ys) = .gt ↔ x < y ∨ x = y ∧ cmpWords xs ys = .gt := by
  rw [cmpWords]
  rcases Nat.lt_trichotomy x y with h | h | h
  · rw [Nat.compare_eq_lt.mpr h]; simp [h]
  · rw [Nat.compare_eq_eq.mpr h]; simp [h]
  · rw [Nat.compare_eq_gt.mpr h]; simp; omega

theorem cmpWords_lt_cons (x y : Nat) (xs ys : List Nat) :
    cmpWords (x :: xs) (y :: ys) = .lt ↔ y < x ∨ x = y ∧ cmpWords xs ys = .lt := by
  rw [cmpWords]
  rcases Nat.lt_trichotomy x y with h | h | h
  · rw [Nat.compare_eq_lt.mpr h]; simp; omega
  · rw [Nat.compare_eq_eq.mpr h]; simp [h]
  · rw [Nat.compare_eq_gt.mpr h]; simp [h]

theorem cmpWords_nil : cmpWords [] [] = .eq := rfl

/-- The words of a hash. -/
def word (little : Bool) (h : Hash) (i : Nat) : Nat := Spec.wordValue little (Spec.group i h.val)

theorem hashWords_eq (little : Bool) (h : Hash) :
    hashWords little h = [word little h 0, word little h 1, word little h 2, word little h 3] := by
  simp only [hashWords, word, Spec.wordValue, Spec.group, value_eq_beNat, nativeU64, List.drop_zero, Nat.mul_zero]

/-- Lexicographic comparison of four numbers. -/
def Lex4 (x y : Nat → Nat) : Prop :=
  x 0 < y 0 ∨ x 0 = y 0 ∧ (x 1 < y 1 ∨ x 1 = y 1 ∧ (x 2 < y 2 ∨ x 2 = y 2 ∧ x 3 < y 3))

theorem cmpWords_hash_gt (little : Bool) (h k : Hash) :
    cmpWords (hashWords little h) (hashWords little k) = .gt ↔ Lex4 (word little h) (word little k) := by
  rw [hashWords_eq, hashWords_eq]
  simp only [cmpWords_gt_cons, cmpWords_nil, Lex4]
  simp

theorem cmpWords_hash_lt (little : Bool) (h k : Hash) :
    cmpWords (hashWords little h) (hashWords little k) = .lt ↔ Lex4 (word little k) (word little h) := by
  rw [hashWords_eq, hashWords_eq]
  simp only [cmpWords_lt_cons, cmpWords_nil, Lex4]
  simp [eq_comm]

theorem Transaction.cmp_gt (little : Bool) (a b : Transaction) :
    a.cmp little b = .gt ↔ a.timestamp.toNat < b.timestamp.toNat ∨
      a.timestamp.toNat = b.timestamp.toNat ∧ Lex4 (word little a.hash) (word little b.hash) := by
  unfold Transaction.cmp
  rcases Nat.lt_trichotomy a.timestamp.toNat b.timestamp.toNat with h | h | h
  · rw [Nat.compare_eq_lt.mpr h]; simp [h]
  · rw [Nat.compare_eq_eq.mpr h]; simp [h, cmpWords_hash_gt]
  · rw [Nat.compare_eq_gt.mpr h]; simp; omega

theorem Transaction.cmp_lt (little : Bool) (a b : Transaction) :
    a.cmp little b = .lt ↔ b.timestamp.toNat < a.timestamp.toNat ∨
      b.timestamp.toNat = a.timestamp.toNat ∧ Lex4 (word little b.hash) (word little a.hash) := by
  unfold Transaction.cmp
  rcases Nat.lt_trichotomy a.timestamp.toNat b.timestamp.toNat with h | h | h
  · rw [Nat.compare_eq_lt.mpr h]; simp; omega
  · rw [Nat.compare_eq_eq.mpr h]; simp [h, cmpWords_hash_lt]
  · rw [Nat.compare_eq_gt.mpr h]; simp [h]

theorem wordValue_inj (little : Bool) {a b : Bytes} (hl : a.length = b.length)
    (h : Spec.wordValue little a = Spec.wordValue little b) : a = b := by
  unfold Spec.wordValue at h
  rw [value_eq_beNat, value_eq_beNat] at h
  cases little
  · exact beNat_inj_of_length hl h
  · have := beNat_inj_of_length (by simpa using hl) h
    simpa using this

theorem group_length (h : Hash) (i : Nat) (hi : i < 4) : (Spec.group i h.val).length = 8 := by
  have := h.property
  simp only [Spec.group, List.length_take, List.length_drop]
  omega

theorem word_inj (little : Bool) (h k : Hash) (i : Nat) (hi : i < 4) :
    word little h i = word little k i ↔ Spec.group i h.val = Spec.group i k.val := by
  constructor
  · intro he
    exact wordValue_inj little (by rw [group_length h i hi, group_length k i hi]) he
  · intro he; simp only [word, he]

theorem hash_of_words (little : Bool) (h k : Hash) (hw : ∀ i < 4, word little h i = word little k i) : h = k := by
  have split : ∀ x : Hash, x.val = Spec.group 0 x.val ++ (Spec.group 1 x.val ++
      (Spec.group 2 x.val ++ Spec.group 3 x.val)) := by
    intro x
    have hx := x.property
    have e3 : Spec.group 3 x.val = x.val.drop 24 := by
      simp only [Spec.group]
      rw [List.take_of_length_le (by simp; omega)]
    have e2 : Spec.group 2 x.val ++ x.val.drop 24 = x.val.drop 16 := by
      simp only [Spec.group]
      conv_rhs => rw [← List.take_append_drop 8 (x.val.drop 16)]
      rw [List.drop_drop]
    have e1 : Spec.group 1 x.val ++ x.val.drop 16 = x.val.drop 8 := by
      simp only [Spec.group]
      conv_rhs => rw [← List.take_append_drop 8 (x.val.drop 8)]
      rw [List.drop_drop]
    rw [e3, e2, e1]
    simp only [Spec.group, Nat.mul_zero, List.drop_zero, List.take_append_drop]
  apply Subtype.ext
  rw [split h, split k]
  have g : ∀ i < 4, Spec.group i h.val = Spec.group i k.val := fun i hi => (word_inj little h k i hi).mp (hw i hi)
  rw [g 0 (by omega), g 1 (by omega), g 2 (by omega), g 3 (by omega)]

theorem hashBefore_iff (little : Bool) (h k : Hash) :
    Spec.HashBefore little h.val k.val ↔ Lex4 (word little h) (word little k) := by
  constructor
  · rintro ⟨i, hi, heq, hlt⟩
    have g : ∀ j < i, word little h j = word little k j :=
      fun j hj => (word_inj little h k j (by omega)).mpr (heq j hj)
    have hlt' : word little h i < word little k i := hlt
    rcases (show i = 0 ∨ i = 1 ∨ i = 2 ∨ i = 3 by omega) with rfl | rfl | rfl | rfl
    · exact .inl hlt'
    · exact .inr ⟨g 0 (by omega), .inl hlt'⟩
    · exact .inr ⟨g 0 (by omega), .inr ⟨g 1 (by omega), .inl hlt'⟩⟩
    · exact .inr ⟨g 0 (by omega), .inr ⟨g 1 (by omega), .inr ⟨g 2 (by omega), hlt'⟩⟩⟩
  · have g : ∀ {i}, i < 4 → word little h i = word little k i → Spec.group i h.val = Spec.group i k.val :=
      fun hi he => (word_inj little h k _ hi).mp he
    rintro (h0 | ⟨e0, h1 | ⟨e1, h2 | ⟨e2, h3⟩⟩⟩)
    · exact ⟨0, by omega, fun j hj => absurd hj (by omega), h0⟩
    · refine ⟨1, by omega, fun j hj => ?_, h1⟩
      rcases (show j = 0 by omega) with rfl
      exact g (by omega) e0
    · refine ⟨2, by omega, fun j hj => ?_, h2⟩
      rcases (show j = 0 ∨ j = 1 by omega) with rfl | rfl
      · exact g (by omega) e0
      · exact g (by omega) e1
    · refine ⟨3, by omega, fun j hj => ?_, h3⟩
      rcases (show j = 0 ∨ j = 1 ∨ j = 2 by omega) with rfl | rfl | rfl
      · exact g (by omega) e0
      · exact g (by omega) e1
      · exact g (by omega) e2

theorem Lex4.trans {x y z : Nat → Nat} (h : Lex4 x y) (h' : Lex4 y z) : Lex4 x z := by
  unfold Lex4 at *; omega

theorem Lex4.irrefl (x : Nat → Nat) : ¬ Lex4 x x := by
  unfold Lex4; omega

theorem Lex4.total (x y : Nat → Nat) : Lex4 x y ∨ Lex4 y x ∨ ∀ i < 4, x i = y i := by
  unfold Lex4
  by_cases h : x 0 = y 0 ∧ x 1 = y 1 ∧ x 2 = y 2 ∧ x 3 = y 3
  · refine .inr (.inr fun i hi => ?_)
    rcases (show i = 0 ∨ i = 1 ∨ i = 2 ∨ i = 3 by omega) with rfl | rfl | rfl | rfl
    · exact h.1
    · exact h.2.1
    · exact h.2.2.1
    · exact h.2.2.2
  · omega

/-- `a` is released before `b`. -/
def TxBefore (little : Bool) (a b : Transaction) : Prop :=
  Spec.GoesBefore little a.timestamp.toNat a.hash.val b.timestamp.toNat b.hash.val

theorem Transaction.cmp_gt_iff (little : Bool) (a b : Transaction) :
    a.cmp little b = .gt ↔ TxBefore little a b := by
  rw [Transaction.cmp_gt, TxBefore, Spec.GoesBefore, hashBefore_iff]

theorem Transaction.cmp_lt_iff (little : Bool) (a b : Transaction) :
    a.cmp little b = .lt ↔ TxBefore little b a := by
  rw [Transaction.cmp_lt, TxBefore, Spec.GoesBefore, hashBefore_iff]

theorem TxBefore.trans {little : Bool} {a b c : Transaction} (h : TxBefore little a b)
    (h' : TxBefore little b c) : TxBefore little a c := by
  unfold TxBefore Spec.GoesBefore at *
  rw [hashBefore_iff] at *
  rcases h with h | ⟨h, hl⟩ <;> rcases h' with h' | ⟨h', hl'⟩
  · exact .inl (by omega)
  · exact .inl (by omega)
  · exact .inl (by omega)
  · exact .inr ⟨by omega, hl.trans hl'⟩

theorem TxBefore.irrefl (little : Bool) (a : Transaction) : ¬ TxBefore little a a := by
  unfold TxBefore Spec.GoesBefore
  rw [hashBefore_iff]
  rintro (h | ⟨-, h⟩)
  · omega
  · exact Lex4.irrefl _ h

theorem TxBefore.total (little : Bool) (a b : Transaction) :
    TxBefore little a b ∨ TxBefore little b a ∨ a.timestamp = b.timestamp ∧ a.hash = b.hash := by
  unfold TxBefore Spec.GoesBefore
  rw [hashBefore_iff, hashBefore_iff]
  rcases Nat.lt_trichotomy a.timestamp.toNat b.timestamp.toNat with h | h | h
  · exact .inl (.inl h)
  · rcases Lex4.total (word little a.hash) (word little b.hash) with h' | h' | h'
    · exact .inl (.inr ⟨h, h'⟩)
    · exact .inr (.inl (.inr ⟨h.symm, h'⟩))
    · exact .inr (.inr ⟨UInt64.toNat_inj.mp h, hash_of_words little _ _ h'⟩)
  · exact .inr (.inl (.inl h))

theorem Transaction.cmp_eq_iff (little : Bool) (a b : Transaction) :
    a.cmp little b = .eq ↔ a.timestamp = b.timestamp ∧ a.hash = b.hash := by
  constructor
  · intro h
    rcases TxBefore.total little a b with h' | h' | h'
    · rw [← Transaction.cmp_gt_iff, h] at h'; cases h'
    · rw [← Transaction.cmp_lt_iff, h] at h'; cases h'
    · exact h'
  · rintro ⟨ht, hh⟩
    cases hc : a.cmp little b with
    | eq => rfl
    | lt =>
      rw [Transaction.cmp_lt_iff] at hc
      unfold TxBefore at hc
      rw [ht, hh] at hc
      exact absurd hc (TxBefore.irrefl little b)
    | gt =>
      rw [Transaction.cmp_gt_iff] at hc
      unfold TxBefore at hc
      rw [ht, hh] at hc
      exact absurd hc (TxBefore.irrefl little b)

theorem Transaction.leOp_iff (little : Bool) (a b : Transaction) :
    a.leOp little b = true ↔ ¬ TxBefore little a b := by
  rw [← Transaction.cmp_gt_iff]
  unfold Transaction.leOp Transaction.partialCmp
  cases a.cmp little b <;> simp

theorem Transaction.totalLe (little : Bool) : Heap.TotalLe (Transaction.leOp little) where
  total a b := by
    rw [leOp_iff, leOp_iff]
    by_cases h : TxBefore little a b
    · exact .inr fun h' => TxBefore.irrefl _ _ (h.trans h')
    · exact .inl h
  trans a b c hab hbc := by
    rw [leOp_iff] at *
    intro hac
    rcases TxBefore.total little a b with h | h | ⟨ht, hh⟩
    · exact hab h
    · exact hbc (h.trans hac)
    · apply hbc
      unfold TxBefore at hac ⊢
      rw [← ht, ← hh]
      exact hac

end BCT
