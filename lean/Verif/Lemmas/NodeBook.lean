import Verif.Lemmas.NodeSpec
import Verif.Lemmas.Ledger
import Verif.Props.Codec
/-!
# Balance databases and books
-/

namespace BCT
open Spec (Book)

theorem bytesLt_iff : ∀ a b : Bytes, bytesLt a b = true ↔ a < b
  | [], [] => by simp [bytesLt]
  | [], _ :: _ => by simp [bytesLt]
  | _ :: _, [] => by simp [bytesLt]
  | a :: as, b :: bs => by
    rw [List.cons_lt_cons_iff, ← bytesLt_iff as bs]
    simp only [bytesLt, UInt8.lt_iff_toNat_lt, ← UInt8.toNat_inj]
    rcases Nat.lt_trichotomy a.toNat b.toNat with h | h | h
    · simp [h]
    · simp [h]
    · rw [if_neg (by omega), if_pos h]
      simp; omega

theorem insertSorted_eq (k v : Bytes) (l : List (Bytes × Bytes)) (hs : Sorted l) :
    insertSorted k v l = l.filter (fun e => decide (e.1 < k)) ++ (k, v) :: l.filter (fun e => decide (k < e.1)) := by
  induction l with
  | nil => rfl
  | cons e l ih =>
    have hs' := List.pairwise_cons.mp hs
    have hgt : ∀ x ∈ l, e.1 < x.1 := fun x hx => (bytesLt_iff _ _).mp (hs'.1 x hx)
    have hirr : ∀ a : Bytes, ¬ a < a := List.lt_irrefl
    have hany : ∀ a b : Bytes, a < b → ¬ b < a := fun a b h1 h2 => hirr a (List.lt_trans h1 h2)
    have later : ∀ q : Bytes, (q = e.1 ∨ q < e.1) → l.filter (fun x => decide (x.1 < q)) = [] ∧
        l.filter (fun x => decide (q < x.1)) = l := by
      intro q hq
      have hlt : ∀ x ∈ l, q < x.1 := fun x hx => by
        rcases hq with rfl | hq
        · exact hgt x hx
        · exact List.lt_trans hq (hgt x hx)
      constructor
      · rw [List.filter_eq_nil_iff]
        intro x hx
        simpa using hany _ _ (hlt x hx)
      · rw [List.filter_eq_self]
        intro x hx
        simpa using hlt x hx
    simp only [insertSorted]
    by_cases hk : k = e.1
    · rw [if_pos hk, List.filter_cons_of_neg, List.filter_cons_of_neg, (later k (.inl hk)).1, (later k (.inl hk)).2]
      · rfl
      · rw [hk]; simp
      · rw [hk]; simp
    · rw [if_neg hk]
      by_cases hlt : bytesLt k e.1 = true
      · rw [if_pos hlt]
        have hlt' := (bytesLt_iff _ _).mp hlt
        rw [List.filter_cons_of_neg, List.filter_cons_of_pos, (later k (.inr hlt')).1, (later k (.inr hlt')).2]
        · rfl
        · simpa using hlt'
        · simpa using hany _ _ hlt'
      · rw [if_neg hlt]
        have hle : ¬ k < e.1 := fun h => hlt ((bytesLt_iff _ _).mpr h)
        have hlt' : e.1 < k := by
          rcases List.le_total e.1 k with h | h
          · rcases List.le_iff_lt_or_eq.mp h with h | h
            · exact h
            · exact absurd h.symm hk
          · rcases List.le_iff_lt_or_eq.mp h with h | h
            · exact absurd h hle
            · exact absurd h hk
        rw [List.filter_cons_of_pos, List.filter_cons_of_neg, ih hs'.2]
        · rfl
        · simpa using hle
        · simpa using hlt'

/-! ## Amounts -/

theorem digits_zero : Spec.digits 0 = [] := by unfold Spec.digits; simp

theorem digits_pos {n : Nat} (h : n ≠ 0) : Spec.digits n = Spec.digits (n / 256) ++ [UInt8.ofNat (n % 256)] := by
  conv => lhs; unfold Spec.digits
  rw [if_neg h]

theorem value_snoc (l : List UInt8) (x : UInt8) : Spec.value (l ++ [x]) = Spec.value l * 256 + x.toNat := by
  induction l with
  | nil => simp [Spec.value]
  | cons y l ih =>
    simp only [List.cons_append, Spec.value, ih, List.length_append, List.length_singleton, Nat.pow_succ]
    rw [Nat.add_mul, ← Nat.mul_assoc, Nat.add_assoc]

theorem digits_value (n : Nat) : ∀ ds : List UInt8, ds.length = n → ds.head? ≠ some 0 →
    ds = Spec.digits (Spec.value ds) := by
  induction n with
  | zero =>
    intro ds hl _
    rw [List.length_eq_zero_iff.mp hl]
    simp [Spec.value, digits_zero]
  | succ n ih =>
    intro ds hl hh
    have hne : ds ≠ [] := by rintro rfl; simp at hl
    obtain ⟨l, x, rfl⟩ : ∃ l x, ds = l ++ [x] := ⟨ds.dropLast, ds.getLast hne, (List.dropLast_concat_getLast hne).symm⟩
    have hl' : l.length = n := by simpa using hl
    have hx := x.toNat_lt
    rw [value_snoc]
    have hlh : l.head? ≠ some 0 := by
      cases l with
      | nil => simp
      | cons y l => simpa using hh
    have e := ih l hl' hlh
    have hnz : Spec.value l * 256 + x.toNat ≠ 0 := by
      intro h0
      have hv : Spec.value l = 0 := by omega
      rw [hv, digits_zero] at e
      subst e
      have hx0 : x.toNat = 0 := by omega
      have : x = 0 := UInt8.toNat_inj.mp (by rw [hx0]; rfl)
      subst this
      simp at hh
    rw [digits_pos hnz]
    have h1 : (Spec.value l * 256 + x.toNat) / 256 = Spec.value l := by omega
    have h2 : (Spec.value l * 256 + x.toNat) % 256 = x.toNat := by omega
    rw [h1, h2, ← e, UInt8.ofNat_toNat]

theorem amountBytes_eq (a : U256) : Ledger.encode a = Spec.amountBytes a.val := by
  obtain ⟨ds, h1, _, h3, h4, _⟩ := Props.C02_u256_minimal a
  have := digits_value ds.length ds rfl h4
  rw [h3] at this
  unfold Ledger.encode Spec.amountBytes
  rw [h1, ← this]

/-! ## The relation -/

/-- The database holds what is in the book. -/
structure Books (b : Book) (m : KV) : Prop where
  entries : m.entries = b.map (fun e => (e.1, Spec.amountBytes e.2))
  small : ∀ e ∈ b, e.2 < U256.size

namespace Books

theorem lookup_map (b : Book) (k : Bytes) :
    lookup k (b.map (fun e => (e.1, Spec.amountBytes e.2))) = (b.entry k).map Spec.amountBytes := by
  unfold Spec.Book.entry
  induction b with
  | nil => rfl
  | cons e b ih =>
    simp only [List.map_cons, lookup, List.find?_cons]
    by_cases h : e.1 = k
    · simp [h]
    · simp [h, ih]

theorem get {b : Book} {m : KV} (h : Books b m) (k : Bytes) : m.get k = (b.entry k).map Spec.amountBytes := by
  unfold KV.get
  rw [h.entries, lookup_map]

theorem entry_lt {b : Book} {m : KV} (h : Books b m) {k : Bytes} {n : Nat} (hn : b.entry k = some n) : n < U256.size := by
  unfold Spec.Book.entry at hn
  cases hf : b.find? (fun e => e.1 = k) with
  | none => rw [hf] at hn; cases hn
  | some e =>
    rw [hf] at hn
    cases hn
    exact h.small e (List.mem_of_find?_eq_some hf)

theorem get_lt {b : Book} {m : KV} (h : Books b m) (k : Bytes) : b.get k < U256.size := by
  unfold Spec.Book.get
  cases hn : b.entry k with
  | none => decide
  | some n => exact h.entry_lt hn

theorem dec {b : Book} {m : KV} (h : Books b m) : m.Dec := by
  intro k v hk
  rw [h.get] at hk
  cases hn : b.entry k with
  | none => rw [hn] at hk; cases hk
  | some n =>
    rw [hn] at hk
    cases hk
    exact ⟨⟨n, h.entry_lt hn⟩, (amountBytes_eq ⟨n, h.entry_lt hn⟩).symm⟩

theorem amt {b : Book} {m : KV} (h : Books b m) (k : Bytes) : (m.amt k).val = b.get k := by
  unfold KV.amt
  rw [h.get]
  unfold Spec.Book.get
  cases hn : b.entry k with
  | none => rfl
  | some n =>
    have := Ledger.balance_encode ⟨n, h.entry_lt hn⟩
    rw [amountBytes_eq] at this
    simp only [Option.map_some, Option.getD_some, this]

theorem insert {b : Book} {m : KV} (h : Books b m) (k : Bytes) (a : U256) :
    Books (b.put k a.val) (m.insert k (Ledger.encode a)) := by
  refine ⟨?_, fun e he => ?_⟩
  · have : (m.insert k (Ledger.encode a)).entries = insertSorted k (Ledger.encode a) m.entries := rfl
    rw [this, insertSorted_eq k _ _ m.sorted, h.entries, amountBytes_eq]
    unfold Spec.Book.put
    rw [List.map_append, List.map_cons, List.filter_map, List.filter_map]
    rfl
  · unfold Spec.Book.put at he
    rcases List.mem_append.mp he with he | he
    · exact h.small e (List.mem_filter.mp he).1
    · rcases List.mem_cons.mp he with rfl | he
      · exact a.lt
      · exact h.small e (List.mem_filter.mp he).1

theorem empty : Books [] KV.empty := ⟨rfl, by simp⟩

/-- A deposit. -/
theorem add {b : Book} {d : Db} (h : Books b d.cur) (o : Bytes) (a : U256) :
    match b.add o a.val with
    | some b' => (Ledger.add o a d).out = .ok () ∧ Books b' (Ledger.add o a d).final.cur
    | none => replyOf (Ledger.add o a d).out = .crash ∧ (Ledger.add o a d).final = d := by
  have hs : (2 : Nat) ^ 256 = U256.size := rfl
  unfold Spec.Book.add
  rw [← h.amt, hs]
  rcases Ledger.add_run h.dec o a with ⟨hlt, e⟩ | ⟨hlt, e⟩
  · rw [if_pos hlt, e]
    exact ⟨rfl, h.insert o ⟨_, hlt⟩⟩
  · rw [if_neg hlt, e]
    exact ⟨rfl, rfl⟩

/-- A withdrawal. -/
theorem sub {b : Book} {d : Db} (h : Books b d.cur) (o : Bytes) (a : U256) :
    match b.sub o a.val with
    | some b' => (Ledger.sub o a d).out = .ok () ∧ Books b' (Ledger.sub o a d).final.cur
    | none => replyOf (Ledger.sub o a d).out = .crash ∧ (Ledger.sub o a d).final = d := by
  unfold Spec.Book.sub
  rw [← h.amt]
  rcases Ledger.sub_run h.dec o a with ⟨hlt, e⟩ | ⟨hlt, e⟩
  · rw [if_pos hlt, e]
    exact ⟨rfl, h.insert o ⟨(d.cur.amt o).val - a.val, Ledger.sub_lt⟩⟩
  · rw [if_neg (by omega), e]
    exact ⟨rfl, rfl⟩

theorem moved {b : Book} {m : KV} (h : Books b m) (s t : Bytes) (a : U256) (hlt : (m.amt t).val + a.val < U256.size) :
    Books ((b.put s (b.get s - a.val)).put t (b.get t + a.val)) (Ledger.moved m s t a hlt) := by
  have h1 := h.insert s ⟨(m.amt s).val - a.val, Ledger.sub_lt⟩
  have h2 := h1.insert t ⟨(m.amt t).val + a.val, hlt⟩
  rw [← h.amt s, ← h.amt t]
  exact h2

/-- A transfer. -/
theorem move {b : Book} {d : Db} (h : Books b d.cur) (s t : Bytes) (a : U256) :
    match b.move s t a.val with
    | some b' => (Ledger.transfer s t a d).out = .ok () ∧ Books b' (Ledger.transfer s t a d).final.cur
    | none => replyOf (Ledger.transfer s t a d).out = .crash ∧ (Ledger.transfer s t a d).final = d := by
  have hs : (2 : Nat) ^ 256 = U256.size := rfl
  unfold Spec.Book.move
  rw [hs]
  have e1 := h.amt s
  have e2 := h.amt t
  rcases Ledger.transfer_run h.dec s t a with ⟨h1, hlt, e⟩ | ⟨h1, e⟩ | ⟨h1, hlt, e⟩
  · rw [if_pos ⟨by omega, by omega⟩, e]
    exact ⟨rfl, h.moved s t a hlt⟩
  · rw [if_neg (by omega), e]
    exact ⟨rfl, rfl⟩
  · rw [if_neg (by omega), e]
    exact ⟨rfl, rfl⟩

end Books

end BCT
