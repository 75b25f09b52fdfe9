import Verif.Model.Merkle
import Verif.Spec.Merkle
/-! The heap array built by `build_tree` holds the nodes of the perfect tree. -/

namespace BCT
open Spec

theorem andHash_comm (a b : Hash) : andHash a b = andHash b a := by
  apply Subtype.ext
  simp only [andHash]
  rw [List.zipWith_comm]
  congr 1
  funext x y
  exact UInt8.and_comm _ _

/-- Parent of two nodes: SHA-256 of the bitwise AND. -/
def nodeHash (E : Env) (l r : Hash) : Hash := E.sha256 (andHash l r).val

theorem nodeHash_comm (E : Env) (l r : Hash) : nodeHash E l r = nodeHash E r l := by
  unfold nodeHash; rw [andHash_comm]

/-! ### Power of two -/

theorem closestPowerLoop_spec (n : Nat) : ∀ (power x : Nat), x = 2 ^ power →
    (∀ q, n < 2 ^ q → power ≤ q) → IsNextPower n (closestPowerLoop n power x) := by
  intro power x
  induction h : n + 1 - x using Nat.strongRecOn generalizing power x with
  | ind m ih =>
    intro hx hmin
    rw [closestPowerLoop]
    have hpos : 0 < x := by rw [hx]; exact Nat.pow_pos (by decide)
    by_cases hle : x ≤ n
    · rw [if_pos ⟨hle, hpos⟩]
      refine ih (n + 1 - x * 2) (by omega) (power + 1) (x * 2) rfl (by rw [hx, Nat.pow_succ]) ?_
      intro q hq
      rcases Nat.lt_or_ge power q with h1 | h1
      · exact h1
      · have := Nat.pow_le_pow_right (n := 2) (by decide) h1
        omega
    · rw [if_neg (fun h => hle h.1)]
      exact ⟨by omega, hmin⟩

theorem findClosestPowerOf2_spec (n : Nat) : IsNextPower n (findClosestPowerOf2 n) :=
  closestPowerLoop_spec n 0 1 rfl (fun _ _ => Nat.zero_le _)

theorem isNextPower_unique {n p q : Nat} (hp : IsNextPower n p) (hq : IsNextPower n q) : p = q :=
  Nat.le_antisymm (hp.2 _ hq.1) (hq.2 _ hp.1)

/-! ### Node values by level -/

/-- Value of the `q`-th node, `k` levels above the leaves. -/
def nodeVal (E : Env) (leaves : List Hash) : Nat → Nat → Hash
  | 0, q => leaves.getD q PADDING_HASH
  | k + 1, q => nodeHash E (nodeVal E leaves k (2 * q)) (nodeVal E leaves k (2 * q + 1))

theorem perfectRoot_take {α : Type} (node : α → α → α) (d : α) (k : Nat) : ∀ (l : List α) (m : Nat), 2 ^ k ≤ m →
    perfectRoot node d k (l.take m) = perfectRoot node d k l := by
  induction k with
  | zero =>
    intro l m hm
    cases l with
    | nil => simp
    | cons a l =>
      cases m with
      | zero => simp at hm
      | succ m => rfl
  | succ k ih =>
    intro l m hm
    have h2 : 2 ^ (k + 1) = 2 ^ k + 2 ^ k := by rw [Nat.pow_succ]; omega
    simp only [perfectRoot]
    rw [List.take_take, Nat.min_eq_left (by omega), List.drop_take, ih _ _ (Nat.le_refl _),
      ih _ (m - 2 ^ k) (by omega)]

theorem nodeVal_eq (E : Env) (leaves : List Hash) (k : Nat) : ∀ q,
    nodeVal E leaves k q = perfectRoot (nodeHash E) PADDING_HASH k (leaves.drop (q * 2 ^ k)) := by
  induction k with
  | zero =>
    intro q
    simp only [nodeVal, perfectRoot, Nat.pow_zero, Nat.mul_one]
    rw [List.headD_eq_head?_getD, List.head?_drop, List.getD_eq_getElem?_getD]
  | succ k ih =>
    intro q
    simp only [nodeVal, perfectRoot]
    rw [ih, ih, perfectRoot_take _ _ _ _ _ (Nat.le_refl _), List.drop_drop]
    have e1 : 2 * q * 2 ^ k = q * 2 ^ (k + 1) := by rw [Nat.pow_succ]; ac_rfl
    have e2 : (2 * q + 1) * 2 ^ k = q * 2 ^ (k + 1) + 2 ^ k := by
      rw [Nat.add_mul, e1, Nat.one_mul]
    rw [e1, e2]

/-! ### The loops -/

theorem set_loop_leaves (items : List Hash) : ∀ (s : Nat) (m : Nat) (a : List Hash), items.length ≤ m →
    s + items.length ≤ a.length →
    ∃ a', (items.zip (List.range' s m)).foldlM
        (fun a (x : Hash × Nat) => setUnchecked a x.2 x.1) a = Outcome.ok a' ∧ a'.length = a.length ∧
      (∀ i, a'[i]? = if s ≤ i ∧ i < s + items.length then items[i - s]? else a[i]?) := by
  induction items with
  | nil =>
    intro s m a _ _
    refine ⟨a, rfl, rfl, ?_⟩
    intro i
    rw [if_neg (by simp only [List.length_nil]; omega)]
  | cons x items ih =>
    intro s m a hm ha
    simp only [List.length_cons] at hm ha
    obtain ⟨m, rfl⟩ : ∃ m', m = m' + 1 := ⟨m - 1, by omega⟩
    rw [List.range'_succ, List.zip_cons_cons, List.foldlM_cons]
    have hs : setUnchecked a s x = .ok (a.set s x) := by
      unfold setUnchecked; rw [if_pos (by omega)]
    rw [hs, Outcome.ok_bind]
    obtain ⟨a', h1, h2, h3⟩ := ih (s + 1) m (a.set s x) (by omega) (by simp; omega)
    refine ⟨a', h1, by simpa using h2, ?_⟩
    intro i
    rw [h3]
    by_cases h4 : i = s
    · subst h4
      rw [if_neg (by omega), if_pos (by simp), List.getElem?_set_self (by omega), Nat.sub_self]
      rfl
    · by_cases h5 : s + 1 ≤ i ∧ i < s + 1 + items.length
      · rw [if_pos h5, if_pos (by simp; omega)]
        rw [show i - s = (i - (s + 1)) + 1 by omega, List.getElem?_cons_succ]
      · rw [if_neg h5, if_neg (by simp; omega)]
        rw [List.getElem?_set_ne (by omega)]

theorem set_loop_const (p : Hash) : ∀ (m s : Nat) (a : List Hash), s + m ≤ a.length →
    ∃ a', (List.range' s m).foldlM (fun a i => setUnchecked a i p) a = Outcome.ok a' ∧
      a'.length = a.length ∧
      (∀ i, a'[i]? = if s ≤ i ∧ i < s + m then some p else a[i]?) := by
  intro m
  induction m with
  | zero =>
    intro s a _
    refine ⟨a, rfl, rfl, ?_⟩
    intro i
    rw [if_neg (by omega)]
  | succ m ih =>
    intro s a ha
    rw [List.range'_succ, List.foldlM_cons]
    have hs : setUnchecked a s p = .ok (a.set s p) := by
      unfold setUnchecked; rw [if_pos (by omega)]
    rw [hs, Outcome.ok_bind]
    obtain ⟨a', h1, h2, h3⟩ := ih (s + 1) (a.set s p) (by simp; omega)
    refine ⟨a', h1, by simpa using h2, ?_⟩
    intro i
    rw [h3]
    by_cases h4 : i = s
    · subst h4
      rw [if_neg (by omega), if_pos (by omega), List.getElem?_set_self (by omega)]
    · by_cases h5 : s + 1 ≤ i ∧ i < s + 1 + m
      · rw [if_pos h5, if_pos (by omega)]
      · rw [if_neg h5, if_neg (by omega), List.getElem?_set_ne (by omega)]

/-- All nodes with heap index at least `m` hold their values. -/
def HeapFrom (E : Env) (leaves : List Hash) (p : Nat) (a : List Hash) (m : Nat) : Prop :=
  ∀ k q, k ≤ p → q < 2 ^ (p - k) → m ≤ 2 ^ (p - k) - 1 + q →
    a[2 ^ (p - k) - 1 + q]? = some (nodeVal E leaves k q)

theorem heap_coords (p m : Nat) (h : m + 1 < 2 ^ p) :
    ∃ k q, k + 1 ≤ p ∧ q < 2 ^ (p - (k + 1)) ∧ m = 2 ^ (p - (k + 1)) - 1 + q := by
  have h0 : m + 1 ≠ 0 := by omega
  have h1 : (m + 1).log2 < p := (Nat.log2_lt h0).mpr h
  have h2 : 2 ^ (m + 1).log2 ≤ m + 1 := Nat.log2_self_le h0
  have h3 : m + 1 < 2 ^ ((m + 1).log2 + 1) := Nat.lt_log2_self
  rw [Nat.pow_succ] at h3
  refine ⟨p - 1 - (m + 1).log2, m + 1 - 2 ^ (m + 1).log2, by omega, ?_, ?_⟩ <;>
  · rw [show p - (p - 1 - (m + 1).log2 + 1) = (m + 1).log2 by omega]; omega

theorem hash_loop (E : Env) (leaves : List Hash) (p : Nat) : ∀ (m : Nat) (a : List Hash),
    a.length = 2 * 2 ^ p - 1 → m ≤ 2 ^ p - 1 → HeapFrom E leaves p a m →
    ∃ a', ((List.range m).map (fun i => 2 * i + 1)).reverse.foldlM (hashStep E) a = Outcome.ok a' ∧
      a'.length = a.length ∧ HeapFrom E leaves p a' 0 := by
  intro m
  induction m with
  | zero => intro a _ _ h; exact ⟨a, rfl, rfl, h⟩
  | succ m ih =>
    intro a hl hm hinv
    rw [List.range_succ, List.map_append, List.reverse_append]
    simp only [List.map_cons, List.map_nil, List.reverse_cons, List.reverse_nil, List.nil_append,
      List.cons_append, List.foldlM_cons]
    obtain ⟨k, q, hk, hq, hmq⟩ := heap_coords p m (by omega)
    have e : p - k = p - (k + 1) + 1 := by omega
    have e2 : 2 ^ (p - k) = 2 * 2 ^ (p - (k + 1)) := by rw [e, Nat.pow_succ]; omega
    have hpos : 0 < 2 ^ (p - (k + 1)) := Nat.pow_pos (by decide)
    have c1 := hinv k (2 * q) (by omega) (by omega) (by omega)
    have c2 := hinv k (2 * q + 1) (by omega) (by omega) (by omega)
    rw [show 2 ^ (p - k) - 1 + 2 * q = 2 * m + 1 by omega] at c1
    rw [show 2 ^ (p - k) - 1 + (2 * q + 1) = 2 * m + 1 + 1 by omega] at c2
    have hstep : hashStep E a (2 * m + 1) = .ok (a.set m (nodeVal E leaves (k + 1) q)) := by
      unfold hashStep getUnchecked setUnchecked
      rw [c1, c2]
      simp only [Outcome.ok_bind]
      rw [if_pos (by omega), show (2 * m + 1 - 1) / 2 = m by omega]
      rfl
    rw [hstep, Outcome.ok_bind]
    obtain ⟨a', h1, h2, h3⟩ := ih (a.set m (nodeVal E leaves (k + 1) q)) (by simpa using hl) (by omega) (by
      intro k' q' hk' hq' hge
      by_cases heq : 2 ^ (p - k') - 1 + q' = m
      · -- same node
        have hpos' : 0 < 2 ^ (p - k') := Nat.pow_pos (by decide)
        have hpk : p - k' = p - (k + 1) := by
          have b1 : (m + 1).log2 = p - k' := by
            apply (Nat.log2_eq_iff (by omega)).mpr
            rw [Nat.pow_succ]; omega
          have b2 : (m + 1).log2 = p - (k + 1) := by
            apply (Nat.log2_eq_iff (by omega)).mpr
            rw [Nat.pow_succ]; omega
          omega
        have hkk : k' = k + 1 := by omega
        subst hkk
        have hqq : q' = q := by omega
        subst hqq
        rw [heq, List.getElem?_set_self (by omega)]
      · rw [List.getElem?_set_ne (by omega)]
        exact hinv k' q' hk' hq' (by omega))
    exact ⟨a', h1, by simpa using h2, h3⟩

theorem buildTree_spec (E : Env) (items : List Hash) (p : Nat) (hp : IsNextPower items.length p) :
    ∃ a, buildTree E items = .ok ⟨a, p + 1, items.length⟩ ∧ a.length = 2 * 2 ^ p - 1 ∧
      HeapFrom E (padTo PADDING_HASH (2 ^ p) items) p a 0 := by
  have hpe : findClosestPowerOf2 items.length = p :=
    isNextPower_unique (findClosestPowerOf2_spec _) hp
  have hpos : 0 < 2 ^ p := Nat.pow_pos (by decide)
  have hn := hp.1
  unfold buildTree
  simp only [hpe]
  obtain ⟨a1, e1, l1, g1⟩ := set_loop_leaves items (2 ^ p * 2 - 1 - 2 ^ p) (2 ^ p)
    (List.replicate (2 ^ p * 2 - 1) PADDING_HASH) (by omega) (by simp; omega)
  rw [e1, Outcome.ok_bind]
  rw [List.length_replicate] at l1
  obtain ⟨a2, e2, l2, g2⟩ := set_loop_const PADDING_HASH
    (2 ^ p * 2 - 1 - (2 ^ p * 2 - 1 - (2 ^ p - items.length)))
    (2 ^ p * 2 - 1 - (2 ^ p - items.length)) a1 (by omega)
  rw [e2, Outcome.ok_bind]
  have hodds : oddsBelow (2 ^ p * 2 - 1 - 1) = (List.range (2 ^ p - 1)).map (fun i => 2 * i + 1) := by
    unfold oddsBelow; congr 2; omega
  rw [hodds]
  obtain ⟨a3, e3, l3, g3⟩ := hash_loop E (padTo PADDING_HASH (2 ^ p) items) p (2 ^ p - 1) a2 (by omega)
    (Nat.le_refl _) (by
      intro k q hk hq hge
      have hk0 : k = 0 := by
        cases k with
        | zero => rfl
        | succ k =>
          exfalso
          have : p = p - (k + 1) + (k + 1) := by omega
          have h3 : 2 ^ p = 2 ^ (p - (k + 1)) * (2 ^ k * 2) := by
            rw [← Nat.pow_succ, ← Nat.pow_add, ← this]
          have h4 : 0 < 2 ^ k := Nat.pow_pos (by decide)
          have h5 : 2 ^ (p - (k + 1)) * 2 ≤ 2 ^ p := by
            rw [h3]; exact Nat.mul_le_mul_left _ (by omega)
          omega
      subst hk0
      simp only [Nat.sub_zero] at hq hge ⊢
      rw [g2, g1]
      simp only [nodeVal]
      by_cases hql : q < items.length
      · rw [if_neg (by omega), if_pos (by omega)]
        rw [show 2 ^ p - 1 + q - (2 ^ p * 2 - 1 - 2 ^ p) = q by omega]
        rw [List.getD_eq_getElem?_getD, padTo, List.getElem?_append_left hql, List.getElem?_eq_getElem hql]
        rfl
      · rw [if_pos (by omega)]
        rw [List.getD_eq_getElem?_getD, padTo, List.getElem?_append_right (by omega),
          List.getElem?_replicate, if_pos (by omega)]
        rfl)
  rw [e3, Outcome.ok_bind]
  exact ⟨a3, rfl, by omega, g3⟩

theorem buildTree_root (E : Env) (items : List Hash) (p : Nat) (a : List Hash)
    (h : HeapFrom E (padTo PADDING_HASH (2 ^ p) items) p a 0) :
    a[0]? = some (perfectRoot (nodeHash E) PADDING_HASH p (padTo PADDING_HASH (2 ^ p) items)) := by
  have := h p 0 (Nat.le_refl _) (by simp) (Nat.zero_le _)
  rw [nodeVal_eq] at this
  simpa using this

/-- The root as a total function. -/
def merkleRootT (E : Env) (items : List Hash) : Hash :=
  perfectRoot (nodeHash E) PADDING_HASH (findClosestPowerOf2 items.length)
    (padTo PADDING_HASH (2 ^ findClosestPowerOf2 items.length) items)

theorem merkleRoot_eq (E : Env) (items : List Hash) : merkleRoot E items = .ok (merkleRootT E items) := by
  obtain ⟨a, h1, h2, h3⟩ := buildTree_spec E items _ (findClosestPowerOf2_spec items.length)
  unfold merkleRoot MerkleTree.getRoot getUnchecked
  rw [h1, Outcome.ok_bind, buildTree_root E items _ a h3]
  rfl

/-! ### Proofs -/

/-- The siblings on the way up from leaf `q`, lowest first. -/
def siblings (E : Env) (leaves : List Hash) : Nat → Nat → Nat → List Hash
  | 0, _, _ => []
  | n + 1, k, q =>
    nodeVal E leaves k (if q % 2 = 0 then q + 1 else q - 1) :: siblings E leaves n (k + 1) (q / 2)

theorem siblings_length (E : Env) (leaves : List Hash) (n : Nat) : ∀ k q, (siblings E leaves n k q).length = n := by
  induction n with
  | zero => intro _ _; rfl
  | succ n ih => intro k q; simp [siblings, ih]

theorem siblings_fold (E : Env) (leaves : List Hash) (n : Nat) : ∀ k q,
    (siblings E leaves n k q).foldl (fun c s => E.sha256 (andHash c s).val) (nodeVal E leaves k q) =
      nodeVal E leaves (k + n) (q / 2 ^ n) := by
  induction n with
  | zero => intro k q; simp [siblings]
  | succ n ih =>
    intro k q
    simp only [siblings, List.foldl_cons]
    have : E.sha256 (andHash (nodeVal E leaves k q)
        (nodeVal E leaves k (if q % 2 = 0 then q + 1 else q - 1))).val = nodeVal E leaves (k + 1) (q / 2) := by
      show nodeHash E _ _ = nodeHash E _ _
      split
      · rename_i h
        rw [show 2 * (q / 2) = q by omega]
      · rename_i h
        rw [show 2 * (q / 2) = q - 1 by omega, show q - 1 + 1 = q by omega, nodeHash_comm]
    rw [this, ih]
    rw [Nat.pow_succ, Nat.mul_comm (2 ^ n) 2, Nat.div_div_eq_div_mul, Nat.add_right_comm, Nat.add_assoc]

theorem proofLoop_spec (E : Env) (leaves : List Hash) (p : Nat) (a : List Hash)
    (h : HeapFrom E leaves p a 0) : ∀ (n k q : Nat) (pre suf : List Hash), k + n = p → q < 2 ^ n →
    n ≤ suf.length →
    proofLoop a (2 ^ n - 1 + q) (pre ++ suf) pre.length =
      .ok (pre ++ (siblings E leaves n k q ++ suf.drop n), pre.length + n) := by
  intro n
  induction n with
  | zero =>
    intro k q pre suf _ hq _
    have : q = 0 := by simpa using hq
    subst this
    rw [proofLoop]; simp [siblings]
  | succ n ih =>
    intro k q pre suf hk hq hs
    have hpos : 0 < 2 ^ n := Nat.pow_pos (by decide)
    have e2 : 2 ^ (n + 1) = 2 * 2 ^ n := by rw [Nat.pow_succ]; omega
    rw [proofLoop, if_pos (by omega)]
    have hpk : p - k = n + 1 := by omega
    cases suf with
    | nil => simp at hs
    | cons s0 suf =>
    simp only [List.length_cons] at hs
    have hsib : (if (2 ^ (n + 1) - 1 + q) % 2 = 1 then 2 ^ (n + 1) - 1 + q + 1 else 2 ^ (n + 1) - 1 + q - 1) =
        2 ^ (n + 1) - 1 + (if q % 2 = 0 then q + 1 else q - 1) := by
      split <;> split <;> omega
    simp only [hsib]
    have hv := h k (if q % 2 = 0 then q + 1 else q - 1) (by omega) (by rw [hpk]; split <;> omega) (Nat.zero_le _)
    rw [hpk] at hv
    have hg : getUnchecked a (2 ^ (n + 1) - 1 + (if q % 2 = 0 then q + 1 else q - 1)) =
        .ok (nodeVal E leaves k (if q % 2 = 0 then q + 1 else q - 1)) := by
      unfold getUnchecked; rw [hv]
    rw [hg, Outcome.ok_bind]
    have hset : setUnchecked (pre ++ s0 :: suf) pre.length
        (nodeVal E leaves k (if q % 2 = 0 then q + 1 else q - 1)) =
        .ok ((pre ++ [nodeVal E leaves k (if q % 2 = 0 then q + 1 else q - 1)]) ++ suf) := by
      unfold setUnchecked
      rw [if_pos (by simp)]
      simp
    rw [hset, Outcome.ok_bind]
    have := ih (k + 1) (q / 2) (pre ++ [nodeVal E leaves k (if q % 2 = 0 then q + 1 else q - 1)]) suf
      (by omega) (by omega) (by omega)
    rw [show (2 ^ (n + 1) - 1 + (if q % 2 = 0 then q + 1 else q - 1) - 1) / 2 = 2 ^ n - 1 + q / 2 by
      split <;> omega]
    rw [List.length_append, List.length_singleton] at this
    rw [this]
    simp [siblings, Nat.add_assoc, Nat.add_comm 1 n]

theorem findLeaf_spec (a : List Hash) (x : Hash) : ∀ (m s d : Nat) (j : Nat), j < m → s + m ≤ a.length →
    a[s + j]? = some x →
    ∃ i, i < m ∧ a[s + i]? = some x ∧ findLeaf a x (List.range' s m) d = .ok (s + i) := by
  intro m
  induction m with
  | zero => intro _ _ _ h; omega
  | succ m ih =>
    intro s d j hj hs hx
    rw [List.range'_succ, findLeaf]
    have hg : getUnchecked a s = .ok a[s] := by
      unfold getUnchecked; rw [List.getElem?_eq_getElem (by omega)]
    rw [hg, Outcome.ok_bind]
    split
    · rename_i he
      exact ⟨0, by omega, by simpa [List.getElem?_eq_getElem (show s < a.length by omega)] using he, rfl⟩
    · rename_i he
      have hj0 : j ≠ 0 := by
        intro h0; subst h0
        rw [Nat.add_zero, List.getElem?_eq_getElem (by omega)] at hx
        exact he (Option.some.inj hx)
      obtain ⟨i, h1, h2, h3⟩ := ih (s + 1) s (j - 1) (by omega) (by omega)
        (by rw [show s + 1 + (j - 1) = s + j by omega]; exact hx)
      exact ⟨i + 1, by omega, by rw [show s + (i + 1) = s + 1 + i by omega]; exact h2,
        by rw [h3]; congr 1; omega⟩

end BCT

namespace BCT
open Spec

theorem getProof_spec (E : Env) (items : List Hash) (p : Nat) (a : List Hash)
    (hn : items.length < 2 ^ p) (hl : a.length = 2 * 2 ^ p - 1)
    (h : HeapFrom E (padTo PADDING_HASH (2 ^ p) items) p a 0) (x : Hash) (hx : x ∈ items) :
    ∃ i, items[i]? = some x ∧
      (MerkleTree.mk a (p + 1) items.length).getProof x = .ok
        (siblings E (padTo PADDING_HASH (2 ^ p) items) p 0 i ++
          [nodeVal E (padTo PADDING_HASH (2 ^ p) items) p 0]) := by
  obtain ⟨j, hj, hjx⟩ := List.getElem_of_mem hx
  have hpos : 0 < 2 ^ p := Nat.pow_pos (by decide)
  have leaf : ∀ i, i < items.length → a[2 ^ p - 1 + i]? = items[i]? := by
    intro i hi
    have := h 0 i (Nat.zero_le _) (by simp; omega) (Nat.zero_le _)
    simp only [Nat.sub_zero, nodeVal] at this
    rw [this, padTo, List.getD_eq_getElem?_getD, List.getElem?_append_left hi, List.getElem?_eq_getElem hi]
    rfl
  obtain ⟨i, hi, hix, hf⟩ := findLeaf_spec a x items.length (2 ^ p - 1) 0 j hj (by omega)
    (by rw [leaf j hj, List.getElem?_eq_getElem hj, hjx])
  rw [leaf i hi] at hix
  refine ⟨i, hix, ?_⟩
  unfold MerkleTree.getProof
  simp only [Nat.add_sub_cancel]
  rw [show a.length - 2 ^ p = 2 ^ p - 1 by omega,
    show a.length - (2 ^ p - items.length) - (2 ^ p - 1) = items.length by omega, hf, Outcome.ok_bind]
  have hpl := proofLoop_spec E _ p a h p 0 i [] (List.replicate (p + 1) (BytesN.fill 32 0)) (by omega)
    (by omega) (by simp)
  simp only [List.nil_append, List.length_nil, Nat.zero_add, List.drop_replicate, Nat.add_sub_cancel_left] at hpl
  rw [hpl, Outcome.ok_bind]
  have hr := h p 0 (Nat.le_refl _) (by simp) (Nat.zero_le _)
  simp only [Nat.sub_self, Nat.pow_zero, Nat.add_zero] at hr
  have hg : getUnchecked a 0 = .ok (nodeVal E (padTo PADDING_HASH (2 ^ p) items) p 0) := by
    unfold getUnchecked; rw [hr]
  simp only [hg, Outcome.ok_bind]
  unfold setUnchecked
  rw [if_pos (by simp [siblings_length]), List.set_append_right _ _ (Nat.le_of_eq (siblings_length ..)), siblings_length]
  simp

end BCT

namespace BCT
open Spec

theorem zipWith_and_ones : ∀ (l : Bytes) (n : Nat), l.length = n →
    List.zipWith (fun x y => x &&& y) l (List.replicate n (255 : UInt8)) = l
  | [], n, h => by subst h; rfl
  | x :: l, n, h => by
    subst h
    simp only [List.length_cons, List.replicate_succ, List.zipWith_cons_cons]
    rw [zipWith_and_ones l _ rfl]
    congr 1
    have : (255 : UInt8) = -1 := by decide
    rw [this, UInt8.and_neg_one]

theorem andHash_pad (a : Hash) : andHash a PADDING_HASH = a :=
  Subtype.ext (zipWith_and_ones a.val 32 a.property)

theorem zipWith_and_zeros : ∀ (l : Bytes) (n : Nat), l.length = n →
    List.zipWith (fun x y => x &&& y) l (List.replicate n (0 : UInt8)) = List.replicate n 0
  | [], n, h => by subst h; rfl
  | x :: l, n, h => by
    subst h
    simp only [List.length_cons, List.replicate_succ, List.zipWith_cons_cons]
    rw [zipWith_and_zeros l _ rfl, UInt8.and_zero]

theorem andHash_zero (a : Hash) : andHash a (BytesN.fill 32 0) = BytesN.fill 32 0 :=
  Subtype.ext (zipWith_and_zeros a.val 32 a.property)

theorem proof_reuse (E : Env) (x y : Hash) : ∃ t root proof,
    buildTree E [x, BytesN.fill 32 0] = .ok t ∧ t.getRoot = .ok root ∧ t.getProof x = .ok proof ∧
    verifyProof E y root proof.dropLast = .ok true := by
  have hp : IsNextPower [x, BytesN.fill 32 0].length 2 := by
    have := findClosestPowerOf2_spec [x, BytesN.fill 32 0].length
    simpa [findClosestPowerOf2, closestPowerLoop] using this
  obtain ⟨a, h1, h2, h3⟩ := buildTree_spec E _ 2 hp
  obtain ⟨i, hi, hg⟩ := getProof_spec E _ 2 a hp.1 h2 h3 x (by simp)
  have hroot := buildTree_root E _ _ a h3
  have hnv := nodeVal_eq E (padTo PADDING_HASH (2 ^ 2) [x, BytesN.fill 32 0]) 2 0
  simp only [Nat.zero_mul, List.drop_zero] at hnv
  refine ⟨_, nodeVal E (padTo PADDING_HASH (2 ^ 2) [x, BytesN.fill 32 0]) 2 0, _, h1, ?_, hg, ?_⟩
  · unfold MerkleTree.getRoot getUnchecked; rw [hroot, hnv]
  · rw [List.dropLast_concat]
    have hi2 : i = 0 ∨ i = 1 := by
      rcases Nat.lt_or_ge i 2 with h | h
      · omega
      · rw [List.getElem?_eq_none (by simpa using h)] at hi; cases hi
    have hz : ∀ z : Hash, nodeHash E z (BytesN.fill 32 0) = E.sha256 (BytesN.fill 32 0).val := by
      intro z; unfold nodeHash; rw [andHash_zero]
    have hx0 : ∀ z : Hash, i = 1 → andHash z x = BytesN.fill 32 0 := by
      intro z h1
      subst h1
      have : BytesN.fill 32 0 = x := by simpa using hi
      rw [← this, andHash_zero]
    rcases hi2 with rfl | rfl
    · simp only [siblings, verifyProof, List.foldl_cons, List.foldl_nil, nodeVal, padTo]
      simp [nodeHash, andHash_zero]
    · simp only [siblings, verifyProof, List.foldl_cons, List.foldl_nil, nodeVal, padTo]
      simp [nodeHash, andHash_zero, hx0]

theorem single_leaf_proof (E : Env) (x : Hash) (t : MerkleTree) (proof : List Hash)
    (ht : buildTree E [x] = .ok t) (hg : t.getProof x = .ok proof) : proof.dropLast = [PADDING_HASH] := by
  have hp : IsNextPower [x].length 1 := by
    have := findClosestPowerOf2_spec [x].length
    simpa [findClosestPowerOf2, closestPowerLoop] using this
  obtain ⟨a, h1, h2, h3⟩ := buildTree_spec E _ 1 hp
  rw [ht] at h1
  cases h1
  obtain ⟨i, hi, hg'⟩ := getProof_spec E _ 1 a hp.1 h2 h3 x (by simp)
  rw [hg] at hg'
  cases hg'
  rw [List.dropLast_concat]
  have : i = 0 := by
    rcases Nat.lt_or_ge i 1 with h | h
    · omega
    · rw [List.getElem?_eq_none (by simpa using h)] at hi; cases hi
  subst this
  rfl

end BCT
