import Verif.Props.Replies
/-!
# C185: what a schedule leaves is what whole calls and cut-off transactions leave
-/

namespace BCT.Props
open BCT

/-! ## Statement -/

/-- `made` is what a call that has ended in this way may have done: a call that has returned `Ok` everything; `send_transaction`, if it has
panicked, nothing, or store the transaction, or store it and move the coins; all other calls nothing. -/
def MayHaveMade (d : Deal) (p : Prog Node Reply) (made : List Op) : Prop :=
  (Won p → made = d.steps) ∧ (¬ Won p → made = [] ∨ ∃ tx, d = .send tx ∧ (∀ e, p ≠ .done (.err e)) ∧
    (made = [.addTransaction tx] ∨ made = [.addTransaction tx, .sendAmount tx.sender.val tx.receiver.val tx.amount]))

/-! ## Lemmas -/

section
variable {ι : Type} [DecidableEq ι] [Fintype ι]

/-- The node is what the accesses made so far have made of it; each call has made its first ones. -/
theorem exec_made {E : Env} {s : Tree} {call : ι → Deal} (hc : ∀ i, (call i).Calm) {log : List (Event ι Node)}
    {c : Config ι Node Reply} (h : Exec ⟨⟨s, false⟩, fun i => (call i).prog E⟩ log c) :
    ∃ (trace : List Op) (made rem : ι → List Op) (b : ι → Bool), AllAccepted E s trace ∧ c.shared.data = runAll E s trace ∧
      (∀ i, Acts E (c.threads i) (rem i) (b i)) ∧ (∀ i, made i ++ rem i = (call i).steps) ∧ (∀ i, b i = false → made i = []) ∧
      (trace : Multiset Op) = ∑ i, (made i : Multiset Op) := by
  induction h with
  | refl =>
    exact ⟨[], fun _ => [], fun i => (call i).steps, fun _ => false, trivial, rfl, fun i => acts_deal E (hc i), fun i => rfl, fun i _ => rfl, by simp⟩
  | @step log c i next rest s' _ hi hn ih =>
    obtain ⟨trace, made, rem, b, h1, h2, h3, h6, h7, h4⟩ := ih
    have h5 := h3 i
    rw [hi] at h5
    rcases h5 _ _ hn with ⟨g1, g2⟩ | ⟨e, l', g1, g2, g3, g4⟩
    · refine ⟨trace, made, rem, b, h1, g1.trans h2, fun j => ?_, h6, h7, h4⟩
      by_cases hj : j = i
      · subst hj; simp only [Function.update_self]; exact g2
      · simp only [Function.update_of_ne hj]; exact h3 j
    · rw [h2] at g2 g3
      refine ⟨trace ++ [e], Function.update made i (made i ++ [e]), Function.update rem i l', Function.update b i true,
        accepted_snoc h1 g2, by rw [runAll_snoc]; exact g3, fun j => ?_, fun j => ?_, fun j hb => ?_, ?_⟩
      · by_cases hj : j = i
        · subst hj; simp only [Function.update_self]; exact g4
        · simp only [Function.update_of_ne hj]; exact h3 j
      · by_cases hj : j = i
        · subst hj
          simp only [Function.update_self]
          rw [← h6 j, g1, List.append_assoc]
          rfl
        · simp only [Function.update_of_ne hj]; exact h6 j
      · by_cases hj : j = i
        · subst hj; simp only [Function.update_self] at hb; cases hb
        · simp only [Function.update_of_ne hj] at hb ⊢; exact h7 j hb
      · rw [← Multiset.coe_add, h4,
          ← Finset.add_sum_erase Finset.univ (fun j => (made j : Multiset Op)) (Finset.mem_univ i),
          ← Finset.add_sum_erase Finset.univ (fun j => (Function.update made i (made i ++ [e]) j : Multiset Op)) (Finset.mem_univ i),
          Function.update_self, ← Multiset.coe_add, add_assoc, add_assoc,
          Finset.sum_congr (s₁ := Finset.univ.erase i) rfl fun j hj =>
            show (Function.update made i (made i ++ [e]) j : Multiset Op) = (made j : Multiset Op) by
              rw [Function.update_of_ne (Finset.ne_of_mem_erase hj)]]
        congr 1
        exact add_comm _ _

theorem may_have_made {E : Env} {d : Deal} {p : Prog Node Reply} {made rem : List Op} {b : Bool} (hend : hasEnded p)
    (h : Acts E p rem b) (hm : made ++ rem = d.steps) (hb : b = false → made = []) : MayHaveMade d p made := by
  obtain ⟨o, rfl⟩ := hend
  refine ⟨fun ⟨r, hr⟩ => ?_, fun hw => ?_⟩
  · have := h.1 ⟨r, Prog.done.inj hr⟩
    rw [← hm, this, List.append_nil]
  · cases b with
    | false => exact .inl (hb rfl)
    | true =>
      rcases h.2 rfl with ⟨a, ha⟩ | ⟨h1, h2⟩
      · exact absurd ⟨a, by rw [ha]⟩ hw
      have hl : made.length + rem.length = d.steps.length := by rw [← hm, List.length_append]
      have hr : 0 < rem.length := List.length_pos_iff.mpr h1
      rcases steps_few d with ⟨tx, rfl⟩ | hf
      · have ht : made = (Deal.steps (.send tx)).take made.length := by rw [← hm, List.take_left]
        have h3 : (Deal.steps (.send tx)).length = 3 := rfl
        obtain h0 | h0 | h0 : made.length = 0 ∨ made.length = 1 ∨ made.length = 2 := by omega
        · exact .inl (List.length_eq_zero_iff.mp h0)
        · exact .inr ⟨tx, rfl, fun e he => h2 e (Prog.done.inj he), .inl (by rw [ht, h0]; rfl)⟩
        · exact .inr ⟨tx, rfl, fun e he => h2 e (Prog.done.inj he), .inr (by rw [ht, h0]; rfl)⟩
      · exact .inl (List.length_eq_zero_iff.mp (by omega))

/-! ## Property -/

/-- C185. When all calls have ended, however their steps were interleaved and whatever they replied: the node is what it would be if each
call had done, one after the other, what a call that ends in this way may have done, in any order that goes through; and one does. -/
theorem C185_cutoffs (E : Env) (s : Tree) (hs : Life E (.idle s)) (call : ι → Deal) (hc : ∀ i, (call i).Calm)
    (hd : ∀ i, ∀ tx ∈ (call i).stores, ∀ j, ∀ tx' ∈ (call j).stores, E.sha256 tx.dump = E.sha256 tx'.dump → tx.dump = tx'.dump)
    (log : List (Event ι Node)) (c : Config ι Node Reply) (h : Exec ⟨⟨s, false⟩, fun i => (call i).prog E⟩ log c)
    (hend : ∀ i, hasEnded (c.threads i)) :
    ∃ made : ι → List Op, (∀ i, MayHaveMade (call i) (c.threads i) (made i)) ∧
      (∃ l : List Op, (l : Multiset Op) = ∑ i, (made i : Multiset Op) ∧ AllAccepted E s l ∧ c.shared.data = runAll E s l) ∧
      ∀ l : List Op, (l : Multiset Op) = ∑ i, (made i : Multiset Op) → AllAccepted E s l →
        ∀ p : Part, p.Same (runAll E s l) c.shared.data := by
  obtain ⟨trace, made, rem, b, h1, h2, h3, h6, h7, h4⟩ := exec_made hc h
  refine ⟨made, fun i => may_have_made (hend i) (h3 i) (h6 i) (h7 i), ⟨trace, h4, h1, h2⟩, fun l hl ha p => ?_⟩
  have mem : ∀ o ∈ l, ∃ i, o ∈ (call i).steps := fun o ho => by
    have : o ∈ (l : Multiset Op) := ho
    rw [hl] at this
    obtain ⟨i, _, hi⟩ := Multiset.mem_sum.mp this
    exact ⟨i, by rw [← h6 i]; exact List.mem_append_left _ hi⟩
  have txs : ∀ tx ∈ l.flatMap Op.stores, ∃ i, tx ∈ (call i).stores := fun tx ht => by
    obtain ⟨o, ho, ht⟩ := List.mem_flatMap.mp ht
    obtain ⟨i, hi⟩ := mem o ho
    exact ⟨i, by rw [← steps_stores]; exact List.mem_flatMap.mpr ⟨o, hi, ht⟩⟩
  rw [h2]
  refine C177_order E s hs l trace (Multiset.coe_eq_coe.mp (hl.trans h4.symm)) (fun o ho => ?_) ha h1 (fun tx ht tx' ht' he => ?_) p
  · obtain ⟨i, hi⟩ := mem o ho
    exact steps_adding _ o hi
  · obtain ⟨i, hi⟩ := txs tx ht
    obtain ⟨j, hj⟩ := txs tx' ht'
    exact hd i tx hi j tx' hj he

end

/-! ## Instances -/

/-- The hypotheses can be met by a schedule under which `send_transaction` panics; and what it has made before cannot be told from the
replies: another schedule with the same replies leaves other coins. -/
example (E : Env) : ∃ s log c, Run E s ∧ (∀ i, (tornCalls i).Calm) ∧
    (∀ i, ∀ tx ∈ (tornCalls i).stores, ∀ j, ∀ tx' ∈ (tornCalls j).stores, E.sha256 tx.dump = E.sha256 tx'.dump → tx.dump = tx'.dump) ∧
    Exec ⟨⟨s, false⟩, fun i => (tornCalls i).prog E⟩ log c ∧ (∀ i, hasEnded (c.threads i)) ∧ ¬ Won (c.threads 0) ∧
    ∃ c' log', Exec ⟨⟨s, false⟩, fun i => (tornCalls i).prog E⟩ log' c' ∧ (∀ i, c.threads i = c'.threads i) ∧
      c.shared.data.summary.cur ≠ c'.shared.data.summary.cur := by
  obtain ⟨s, log, log', c, c', h1, y, z, e1, e2, a1, a2⟩ := C184_refuted_any E
  refine ⟨s, log', c', h1, torn_calm, fun i tx h j tx' h' _ => by rw [torn_stores i tx h, torn_stores j tx' h'], z,
    fun i => ⟨_, e2 i⟩, ?_, c, log, y, fun i => (e2 i).trans (e1 i).symm, fun e => ?_⟩
  · rintro ⟨r, hr⟩
    cases (e2 0).symm.trans hr
  · rw [e, a1] at a2
    cases a2

end BCT.Props
