/-!
# Specification: accounts

Nothing here mentions the model.
-/

namespace Spec

/-- What every address holds. -/
abbrev Accounts := List UInt8 → Nat

/-- One account changed. -/
def Accounts.update (f : Accounts) (o : List UInt8) (n : Nat) : Accounts := fun q => if q = o then n else f q

/-- Calls on a ledger. -/
inductive LedgerCall where
  | add (owner : List UInt8) (n : Nat)
  | set (owner : List UInt8) (n : Nat)
  | sub (owner : List UInt8) (n : Nat)
  | send (source target : List UInt8) (n : Nat)

/-- The accounts after the call; `none` if the call is refused (not enough funds, or more than 256 bits). -/
def LedgerCall.apply : LedgerCall → Accounts → Option Accounts
  | .add o n, f => if f o + n < 2 ^ 256 then some (f.update o (f o + n)) else none
  | .set o n, f => some (f.update o n)
  | .sub o n, f => if n ≤ f o then some (f.update o (f o - n)) else none
  | .send a b n, f =>
    if a = b then some f
    else if n ≤ f a ∧ f b + n < 2 ^ 256 then some ((f.update a (f a - n)).update b (f b + n))
    else none

/-- A refused call changes nothing. -/
def LedgerCall.run (c : LedgerCall) (f : Accounts) : Accounts := (c.apply f).getD f

theorem LedgerCall.apply_add (o : List UInt8) (n : Nat) (f : Accounts) :
    (LedgerCall.add o n).apply f = if f o + n < 2 ^ 256 then some (f.update o (f o + n)) else none := rfl
theorem LedgerCall.apply_sub (o : List UInt8) (n : Nat) (f : Accounts) :
    (LedgerCall.sub o n).apply f = if n ≤ f o then some (f.update o (f o - n)) else none := rfl
theorem LedgerCall.apply_send (a b : List UInt8) (n : Nat) (f : Accounts) :
    (LedgerCall.send a b n).apply f = if a = b then some f
      else if n ≤ f a ∧ f b + n < 2 ^ 256 then some ((f.update a (f a - n)).update b (f b + n)) else none := rfl

/-- `n` is the sum of all accounts: the sum over some list of distinct addresses outside which everything is zero. -/
def Total (f : Accounts) (n : Nat) : Prop :=
  ∃ l : List (List UInt8), l.Nodup ∧ (∀ q, f q ≠ 0 → q ∈ l) ∧ (l.map f).sum = n

theorem sum_filter_nonzero (f : Accounts) (l : List (List UInt8)) :
    ((l.filter (fun q => f q ≠ 0)).map f).sum = (l.map f).sum := by
  induction l with
  | nil => rfl
  | cons a l ih =>
    rw [List.filter_cons]
    split
    · simp only [List.map_cons, List.sum_cons, ih]
    · rename_i h
      have : f a = 0 := by simpa using h
      simp only [List.map_cons, List.sum_cons, ih, this]; omega

/-- The sum does not depend on the list. -/
theorem Total.unique {f : Accounts} {n m : Nat} (hn : Total f n) (hm : Total f m) : n = m := by
  obtain ⟨l, hl, hc, rfl⟩ := hn
  obtain ⟨l', hl', hc', rfl⟩ := hm
  rw [← sum_filter_nonzero, ← sum_filter_nonzero f l']
  refine List.Perm.sum_nat (List.Perm.map _ ?_)
  rw [List.perm_ext_iff_of_nodup (hl.filter _) (hl'.filter _)]
  intro q
  simp only [List.mem_filter, decide_eq_true_eq]
  exact ⟨fun h => ⟨hc' q h.2, h.2⟩, fun h => ⟨hc q h.2, h.2⟩⟩

end Spec
