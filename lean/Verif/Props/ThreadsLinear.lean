import Verif.Props.Threads
/-!
# C103: concurrent calls on a ledger take effect one after the other (blockchaintree.rs:107-324)
-/

namespace BCT

namespace Locked
variable {ι τ α β : Type}

/-- A call without a step inside which it holds the lock: it waits for the lock to be free and does all it does in one
step. -/
def Instant (p : Prog (Locked τ) α) (x : τ → Outcome α × τ) : Prop :=
  ∃ next rest, p = .step next rest ∧ (∀ t, next ⟨t, true⟩ = none) ∧ (∀ t, next ⟨t, false⟩ = some ⟨(x t).2, false⟩) ∧
    ∀ t, rest ⟨t, false⟩ = .done (x t).1

/-- The result of a call, passed on. -/
def thenPure (f : α → β) (x : τ → Outcome α × τ) (t : τ) : Outcome β × τ := ((x t).1 >>= fun a => .ok (f a), (x t).2)

theorem done_bind_pure (f : α → β) (o : Outcome α) :
    ((Prog.done o : Prog (Locked τ) α) >>= fun a => pure (f a)) = .done (o >>= fun a => .ok (f a)) := by
  cases o <;> rfl

theorem Inside.map {f : α → β} {o : Outcome α} {t' : τ} {p : Prog (Locked τ) α} {t : τ} (h : Inside o t' p t) :
    Inside (o >>= fun a => .ok (f a)) t' (p >>= fun a => pure (f a)) t := by
  induction h with
  | @last next rest t hn hr =>
    refine Inside.last (rest := fun s => rest s >>= fun a => pure (f a)) hn ?_
    simp only [hr]
    exact done_bind_pure f o
  | @more next rest t u hn hr ih => exact Inside.more (rest := fun s => rest s >>= fun a => pure (f a)) hn ih

theorem Critical.map {f : α → β} {p : Prog (Locked τ) α} {x : τ → Outcome α × τ} (h : Critical p x) :
    Critical (p >>= fun a => pure (f a)) (thenPure f x) := by
  obtain ⟨next, rest, rfl, h1, h2, h3⟩ := h
  exact ⟨next, fun s => rest s >>= fun a => pure (f a), rfl, h1, h2, fun t => (h3 t).map⟩

/-- `a` comes before `b` in the list. -/
def Before (l : List ι) (a b : ι) : Prop := ∃ l1 l2 l3, l = l1 ++ a :: (l2 ++ b :: l3)

/-- The threads whose last step came before another's first step precede it in the order. -/
def RealTime {σ : Type} (log : List (Event ι σ)) (order : List ι) : Prop :=
  ∀ log1 log2 i j, log = log1 ++ log2 → i ∈ order → j ∈ order → (∀ e ∈ log2, e.thread ≠ i) → (∀ e ∈ log1, e.thread ≠ j) →
    Before order i j

theorem Before.append {l : List ι} {a b : ι} (h : Before l a b) (c : ι) : Before (l ++ [c]) a b := by
  obtain ⟨l1, l2, l3, rfl⟩ := h
  exact ⟨l1, l2, l3 ++ [c], by simp⟩

theorem before_last {l : List ι} {a : ι} (h : a ∈ l) (c : ι) : Before (l ++ [c]) a c := by
  obtain ⟨l1, l2, rfl⟩ := List.append_of_mem h
  exact ⟨l1, l2, [], by simp⟩

/-- `exec_linear` for both kinds of calls, with the order of events. -/
theorem exec_ordered [DecidableEq ι] {x : ι → τ → Outcome α × τ} {start : ι → Prog (Locked τ) α} {t0 : τ}
    (hx : ∀ i, Critical (start i) (x i) ∨ Instant (start i) (x i)) {log : List (Event ι (Locked τ))}
    {c : Config ι (Locked τ) α} (h : Exec ⟨⟨t0, false⟩, start⟩ log c) :
    ∃ order, Linear x start t0 c order ∧ (∀ i ∈ order, ∃ e ∈ log, e.thread = i) ∧ RealTime log order := by
  induction h with
  | refl =>
    exact ⟨[], ⟨List.nodup_nil, fun _ => ⟨rfl, fun _ _ => rfl⟩, fun h => (by cases h), fun i hi => by cases hi⟩,
      fun i hi => (by cases hi), fun _ _ i j _ hi => (by cases hi)⟩
  | @step log c i next rest s' _ hi hn ih =>
    obtain ⟨order, L, hev, hrt⟩ := ih
    have hev' : ∀ j ∈ order, ∃ e ∈ log ++ [⟨i, c.shared, s'⟩], e.thread = j := fun j hj => by
      obtain ⟨e, he, ht⟩ := hev j hj
      exact ⟨e, by simp [he], ht⟩
    have hsplit : ∀ {log1 log2 : List (Event ι (Locked τ))}, log ++ [⟨i, c.shared, s'⟩] = log1 ++ log2 →
        (log2 = [] ∧ log1 = log ++ [⟨i, c.shared, s'⟩]) ∨
        ∃ log2', log2 = log2' ++ [⟨i, c.shared, s'⟩] ∧ log = log1 ++ log2' := by
      intro log1 log2 e
      rcases List.eq_nil_or_concat log2 with rfl | ⟨log2', e', rfl⟩
      · left; exact ⟨rfl, by simpa using e.symm⟩
      · right
        rw [List.concat_eq_append, ← List.append_assoc] at e
        obtain ⟨h1, h2⟩ := List.append_inj' e rfl
        cases h2
        exact ⟨log2', by simp, h1⟩
    have hsame : RealTime (log ++ [⟨i, c.shared, s'⟩]) order := by
      intro log1 log2 a b e ha hb h1 h2
      rcases hsplit e with ⟨rfl, rfl⟩ | ⟨log2', rfl, rfl⟩
      · obtain ⟨e, he, ht⟩ := hev' b hb
        exact absurd ht (h2 e he)
      · exact hrt log1 log2' a b rfl ha hb (fun e he => h1 e (by simp [he])) h2
    have hmore : RealTime (log ++ [⟨i, c.shared, s'⟩]) (order ++ [i]) := by
      intro log1 log2 a b e ha hb h1 h2
      rcases hsplit e with ⟨rfl, rfl⟩ | ⟨log2', rfl, rfl⟩
      · exfalso
        rcases List.mem_append.mp hb with hb | hb
        · obtain ⟨e, he, ht⟩ := hev' b hb
          exact h2 e he ht
        · rw [List.mem_singleton.mp hb] at h2
          exact h2 ⟨i, c.shared, s'⟩ (by simp) rfl
      · have hai : a ≠ i := fun e => h1 ⟨i, c.shared, s'⟩ (by simp) e.symm
        have ha' : a ∈ order := by simpa [hai] using ha
        rcases List.mem_append.mp hb with hb | hb
        · exact (hrt log1 log2' a b rfl ha' hb (fun e he => h1 e (by simp [he])) h2).append i
        · rw [List.mem_singleton.mp hb]
          exact before_last ha' i
    have hevi : ∀ j ∈ order ++ [i], ∃ e ∈ log ++ [⟨i, c.shared, s'⟩], e.thread = j := by
      intro j hj
      rcases List.mem_append.mp hj with hj | hj
      · exact hev' j hj
      · exact ⟨⟨i, c.shared, s'⟩, by simp, (List.mem_singleton.mp hj).symm⟩
    have hnot : i ∉ order := by
      intro hmem
      obtain ⟨o, ho, -⟩ := L.ended i hmem
      rw [hi] at ho
      cases ho
    have hended : ∀ {q : Prog (Locked τ) α}, ∀ j, j ∈ order →
        ∃ o, Function.update c.threads i q j = .done o ∧ ResultIn x t0 order j o := by
      intro q j hj
      obtain ⟨o, ho, hr⟩ := L.ended j hj
      refine ⟨o, ?_, hr⟩
      rw [Function.update_of_ne (show j ≠ i from fun e => hnot (e ▸ hj))]
      exact ho
    have hnodup : (order ++ [i]).Nodup := by
      rw [List.nodup_append]
      refine ⟨L.nodup, (by simp), fun a ha b hb => ?_⟩
      rw [List.mem_singleton.mp hb]
      rintro rfl
      exact hnot ha
    obtain ⟨⟨d, b⟩, th⟩ := c
    cases b with
    | false =>
      obtain ⟨hd, hs⟩ := L.free rfl
      have hi' := hs i hnot
      simp only at hi hi' hn hd
      rcases hx i with ⟨next', rest', he, _, h2, h3⟩ | ⟨next', rest', he, _, h2, h3⟩
      · rw [hi, he] at hi'
        cases hi'
        rw [h2] at hn
        cases hn
        refine ⟨order, ⟨L.nodup, fun h => (by cases h), fun _ => ⟨i, hnot, fun j hj hji => ?_, ?_⟩, hended⟩, hev', hsame⟩
        · simp only [Function.update_of_ne hji]
          exact hs j hj
        · simp only [Function.update_self]
          rw [← hd]
          exact h3 d
      · rw [hi, he] at hi'
        cases hi'
        rw [h2] at hn
        cases hn
        refine ⟨order ++ [i], ⟨hnodup, fun _ => ⟨?_, fun j hj => ?_⟩, fun h => (by cases h), fun j hj => ?_⟩, hevi, hmore⟩
        · rw [inOrder_append, ← hd]
        · simp only [List.mem_append, List.mem_singleton, not_or] at hj
          simp only [Function.update_of_ne hj.2]
          exact hs j hj.1
        · rcases List.mem_append.mp hj with hj | hj
          · obtain ⟨o, ho, hro⟩ := hended (q := rest ⟨d, false⟩) j hj
            exact ⟨o, ho, hro.append i⟩
          · rw [List.mem_singleton.mp hj]
            refine ⟨_, ?_, order, [], rfl, rfl⟩
            simp only [Function.update_self]
            rw [← hd]
            exact h3 d
    | true =>
      obtain ⟨k, hk, hs, hin⟩ := L.held rfl
      by_cases hik : i = k
      · subst hik
        simp only at hi hin hn
        rw [hi] at hin
        cases hin with
        | last hl hr =>
          rw [hl] at hn
          cases hn
          refine ⟨order ++ [i], ⟨hnodup, fun _ => ⟨?_, fun j hj => ?_⟩, fun h => (by cases h), fun j hj => ?_⟩, hevi, hmore⟩
          · rw [inOrder_append]
          · simp only [List.mem_append, List.mem_singleton, not_or] at hj
            simp only [Function.update_of_ne hj.2]
            exact hs j hj.1 hj.2
          · rcases List.mem_append.mp hj with hj | hj
            · obtain ⟨o, ho, hro⟩ := hended (q := rest ⟨d, true⟩) j hj
              exact ⟨o, ho, hro.append i⟩
            · rw [List.mem_singleton.mp hj]
              refine ⟨_, ?_, order, [], rfl, rfl⟩
              simp only [Function.update_self]
              exact hr
        | more hl hr =>
          rw [hl] at hn
          cases hn
          refine ⟨order, ⟨L.nodup, fun h => (by cases h), fun _ => ⟨i, hnot, fun j hj hji => ?_, ?_⟩, hended⟩, hev', hsame⟩
          · simp only [Function.update_of_ne hji]
            exact hs j hj hji
          · simp only [Function.update_self]
            exact hr
      · exfalso
        have hi' := hs i hnot hik
        simp only at hi hi' hn
        rcases hx i with ⟨next', rest', he, h1, _, _⟩ | ⟨next', rest', he, h1, _, _⟩
        · rw [hi, he] at hi'
          cases hi'
          rw [h1] at hn
          cases hn
        · rw [hi, he] at hi'
          cases hi'
          rw [h1] at hn
          cases hn

/-- A thread that has ended is in the order. -/
theorem Linear.mem_of_done' [DecidableEq ι] {x : ι → τ → Outcome α × τ} {start : ι → Prog (Locked τ) α} {t0 : τ}
    {c : Config ι (Locked τ) α} {order : List ι} (L : Linear x start t0 c order) {i : ι} {o : Outcome α}
    (hne : start i ≠ .done o) (h : c.threads i = .done o) : i ∈ order := by
  by_contra hi
  cases hb : c.shared.held with
  | false => exact hne (((L.free hb).2 i hi).symm.trans h)
  | true =>
    obtain ⟨k, _, hs, hin⟩ := L.held hb
    by_cases hik : i = k
    · subst hik
      rw [h] at hin
      cases hin
    · exact hne ((hs i hi hik).symm.trans h)

end Locked

namespace Props
open BCT

/-- A call on a ledger from a thread. -/
inductive Traffic where
  | add (owner : Bytes) (n : U256)
  | sub (owner : Bytes) (n : U256)
  | set (owner : Bytes) (n : U256)
  | send (source target : Bytes) (n : U256) (ne : source ≠ target)
  /-- `send_gas` from an account to itself -/
  | again (owner : Bytes) (n : U256)
  | get (owner : Bytes)

/-- The steps of the call; calls other than `get` return zero. -/
def Traffic.prog : Traffic → Prog (Locked Db) U256
  | .add o n => LockedDb.add o n >>= fun _ => pure U256.zero
  | .sub o n => LockedDb.sub o n >>= fun _ => pure U256.zero
  | .set o n => LockedDb.set o n >>= fun _ => pure U256.zero
  | .send a b n _ => LockedDb.sendAmount a b n >>= fun _ => pure U256.zero
  | .again o n => LockedDb.transfer o o n >>= fun _ => pure U256.zero
  | .get o => LockedDb.get o

/-- Gas sent from an account to itself, by the specification of ledgers: a deposit by whoever has as much already (C49). -/
def againApply (o : Bytes) (n : U256) (f : Spec.Accounts) : Option Spec.Accounts :=
  if n.val ≤ f o then (Spec.LedgerCall.add o n.val).apply f else none

/-- What the call does to the accounts, by the specification of ledgers. -/
def Traffic.after : Traffic → Spec.Accounts → Spec.Accounts
  | .add o n => (Spec.LedgerCall.add o n.val).run
  | .sub o n => (Spec.LedgerCall.sub o n.val).run
  | .set o n => (Spec.LedgerCall.set o n.val).run
  | .send a b n _ => (Spec.LedgerCall.send a b n.val).run
  | .again o n => fun f => (againApply o n f).getD f
  | .get _ => id

/-- What the call returns, by the specification of ledgers; `none` if it is refused. -/
def Traffic.answer : Traffic → Spec.Accounts → Option Nat
  | .add o n, f => ((Spec.LedgerCall.add o n.val).apply f).map fun _ => 0
  | .sub o n, f => ((Spec.LedgerCall.sub o n.val).apply f).map fun _ => 0
  | .set o n, f => ((Spec.LedgerCall.set o n.val).apply f).map fun _ => 0
  | .send a b n _, f => ((Spec.LedgerCall.send a b n.val).apply f).map fun _ => 0
  | .again o n, f => (againApply o n f).map fun _ => 0
  | .get o, f => some (f o)

/-- The outcome of a call that returns this number, or is refused. -/
def Returns (o : Outcome U256) : Option Nat → Prop
  | some n => ∃ v : U256, o = .ok v ∧ v.val = n
  | none => ∀ v, o ≠ .ok v

/-- The accounts after the calls of these threads, one after the other. -/
def afterAll {ι : Type} (call : ι → Traffic) (f : Spec.Accounts) : List ι → Spec.Accounts
  | [] => f
  | i :: l => afterAll call ((call i).after f) l

/-- The call made alone. -/
def Traffic.alone : Traffic → Db → Outcome U256 × Db
  | .add o n => Locked.thenPure (fun _ => U256.zero) fun d => ((Ledger.add o n d).out, (Ledger.add o n d).final)
  | .sub o n => Locked.thenPure (fun _ => U256.zero) fun d => ((Ledger.sub o n d).out, (Ledger.sub o n d).final)
  | .set o n => Locked.thenPure (fun _ => U256.zero) fun d => ((Ledger.set o n d).out, (Ledger.set o n d).final)
  | .send a b n _ => Locked.thenPure (fun _ => U256.zero) fun d => ((Ledger.transfer a b n d).out, (Ledger.transfer a b n d).final)
  | .again o n => Locked.thenPure (fun _ => U256.zero) fun d => ((Ledger.transfer o o n d).out, (Ledger.transfer o o n d).final)
  | .get o => fun d => (Ledger.balance (d.get o), d)

theorem Traffic.section (m : Traffic) : Locked.Critical m.prog m.alone ∨ Locked.Instant m.prog m.alone := by
  cases m with
  | add o n => exact .inl (LockedDb.transact_critical _).map
  | sub o n => exact .inl (LockedDb.transact_critical _).map
  | set o n => exact .inl (LockedDb.transact_critical _).map
  | send a b n ne =>
    left
    simp only [Traffic.prog, LockedDb.sendAmount, if_neg ne]
    exact (LockedDb.transact_critical _).map
  | again o n => exact .inl (LockedDb.transact_critical _).map
  | get o => exact .inr ⟨_, _, rfl, fun _ => rfl, fun _ => rfl, fun _ => rfl⟩

theorem Traffic.not_done (m : Traffic) (o : Outcome U256) : m.prog ≠ .done o := by
  rcases m.section with ⟨n, r, h, _⟩ | ⟨n, r, h, _⟩ <;> (rw [h]; simp)

theorem refines_alone {x : Act Db Unit} {l : Spec.LedgerCall} (h : Refines x l) {d : Db} (hd : d.cur.Dec)
    (hdec : (x d).out = .ok () → (x d).final.cur.Dec) {f : Spec.Accounts} (hf : Shows d f) :
    Returns (Locked.thenPure (fun _ => U256.zero) (fun d => ((x d).out, (x d).final)) d).1 ((l.apply f).map fun _ => 0) ∧
    (x d).final.cur.Dec ∧ Shows (x d).final (l.run f) := by
  obtain ⟨h1, h2, h3⟩ := h d f hd hf
  unfold Locked.thenPure
  rcases h3 with e | ⟨p, e⟩
  · obtain ⟨g, hg⟩ := Option.isSome_iff_exists.mp (h2.mp e)
    rw [hg]
    refine ⟨⟨U256.zero, ?_, rfl⟩, hdec e, h1⟩
    simp only [e, Outcome.ok_bind]
  · have hn : l.apply f = none := by
      rw [← Option.not_isSome_iff_eq_none]
      intro hs
      rw [e] at h2
      simp [hs] at h2
    rw [hn]
    refine ⟨?_, by rw [e]; exact hd, h1⟩
    intro v
    simp only [e, Outcome.panic_bind]
    intro hv
    cases hv

theorem Traffic.alone_spec (m : Traffic) {d : Db} (hd : d.cur.Dec) {f : Spec.Accounts} (hf : Shows d f) :
    Returns (m.alone d).1 (m.answer f) ∧ (m.alone d).2.cur.Dec ∧ Shows (m.alone d).2 (m.after f) := by
  cases m with
  | add o n =>
    refine refines_alone (refines_add o n) hd (fun _ => ?_) hf
    rcases Ledger.add_run hd o n with ⟨h, e⟩ | ⟨h, e⟩
    · rw [e]; exact hd.insert _ _
    · rw [e]; exact hd
  | sub o n =>
    refine refines_alone (refines_sub o n) hd (fun _ => ?_) hf
    rcases Ledger.sub_run hd o n with ⟨h, e⟩ | ⟨h, e⟩
    · rw [e]; exact hd.insert _ _
    · rw [e]; exact hd
  | set o n =>
    refine refines_alone (refines_set o n) hd (fun _ => ?_) hf
    rw [Ledger.set_run]
    exact hd.insert _ _
  | send a b n ne =>
    refine refines_alone (refines_transfer a b n ne) hd (fun _ => ?_) hf
    rcases Ledger.transfer_run hd a b n with ⟨h, hlt, e⟩ | ⟨h, e⟩ | ⟨h, _, e⟩
    · rw [e]; exact Ledger.moved_dec hd _ _ _ _
    · rw [e]; exact hd
    · rw [e]; exact hd
  | again o n =>
    have := shows_eq hf
    subst this
    simp only [Traffic.alone, Traffic.answer, Traffic.after, Locked.thenPure, againApply, Spec.LedgerCall.apply_add]
    rcases Ledger.transfer_run hd o o n with ⟨h, hlt, e⟩ | ⟨h, e⟩ | ⟨h, hlt, e⟩
    · rw [e, if_pos h, if_pos (by simpa [U256.size] using hlt)]
      refine ⟨⟨U256.zero, rfl, rfl⟩, Ledger.moved_dec hd _ _ _ _, shows_of (Ledger.moved_dec hd _ _ _ _) fun k => ?_⟩
      change _ = ((Ledger.moved d.cur o o n hlt).amt k).val
      unfold Ledger.moved
      rw [KV.amt_insert, KV.amt_insert]
      simp only [Option.getD_some, Spec.Accounts.update, eq_comm (a := o)]
      split <;> rfl
    · rw [e, if_neg (Nat.not_le.mpr h)]
      exact ⟨fun v hv => (by cases hv), hd, hf⟩
    · rw [e, if_pos h, if_neg (by simpa [U256.size] using hlt)]
      exact ⟨fun v hv => (by cases hv), hd, hf⟩
  | get o => exact ⟨hf o, hd, hf⟩

theorem inOrder_spec {ι : Type} (call : ι → Traffic) (l : List ι) : ∀ {d : Db}, d.cur.Dec → ∀ {f : Spec.Accounts},
    Shows d f → (Locked.inOrder (fun i => (call i).alone) d l).cur.Dec ∧
      Shows (Locked.inOrder (fun i => (call i).alone) d l) (afterAll call f l) := by
  induction l with
  | nil => intro d hd f hf; exact ⟨hd, hf⟩
  | cons i l ih =>
    intro d hd f hf
    obtain ⟨_, h1, h2⟩ := (call i).alone_spec hd hf
    exact ih h1 h2

/-! ## C103 -/

/-- C103. Any number of threads make deposits, withdrawals, transfers, queries and direct writes on one ledger of a node
with any history. Under every schedule there is an order of the calls that have ended such that each returned what it
returns when the calls are made one after the other in this order; while no transaction is under way, the accounts are
those left by these calls; and a call whose last step came before the first step of another precedes it. -/
theorem C103_linearizable {ι : Type} [DecidableEq ι] (E : Env) (s : Tree) (hr : Run E s) (d : Db)
    (hd : d = s.summary ∨ d = s.gas) (call : ι → Traffic) (log : List (Event ι (Locked Db)))
    (c : Config ι (Locked Db) U256) (h : Exec ⟨⟨d, false⟩, fun i => (call i).prog⟩ log c)
    (f : Spec.Accounts) (hf : Shows d f) :
    ∃ order : List ι, order.Nodup ∧ (∀ i, i ∈ order ↔ hasEnded (c.threads i)) ∧
      (∀ before i after, order = before ++ i :: after →
        ∃ o, c.threads i = .done o ∧ Returns o ((call i).answer (afterAll call f before))) ∧
      (c.shared.held = false → Shows c.shared.data (afterAll call f order)) ∧
      ∀ log1 log2 i j, log = log1 ++ log2 → hasEnded (c.threads i) → hasEnded (c.threads j) →
        (∀ e ∈ log2, e.thread ≠ i) → (∀ e ∈ log1, e.thread ≠ j) → Locked.Before order i j := by
  have hdec : d.cur.Dec := by
    rcases hd with rfl | rfl
    · exact (run_storeInv hr).summary.1
    · exact (run_storeInv hr).gas.1
  obtain ⟨order, L, hev, hrt⟩ := Locked.exec_ordered (fun i => (call i).section) h
  have hmem : ∀ i, i ∈ order ↔ hasEnded (c.threads i) := fun i =>
    ⟨fun hi => (L.ended i hi).imp fun _ h => h.1, fun ⟨o, ho⟩ => L.mem_of_done' ((call i).not_done o) ho⟩
  refine ⟨order, L.nodup, hmem, fun before i after e => ?_, fun hfree => ?_, fun log1 log2 i j e hi hj h1 h2 =>
    hrt log1 log2 i j e ((hmem i).mpr hi) ((hmem j).mpr hj) h1 h2⟩
  · obtain ⟨h1, h2⟩ := inOrder_spec call before hdec hf
    exact ⟨_, L.result e, ((call i).alone_spec h1 h2).1⟩
  · rw [(L.free hfree).1]
    exact (inOrder_spec call order hdec hf).2

/-- When all calls have ended, no transaction is under way. -/
theorem C103_quiescent {ι : Type} [DecidableEq ι] (d : Db) (call : ι → Traffic) (log : List (Event ι (Locked Db)))
    (c : Config ι (Locked Db) U256) (h : Exec ⟨⟨d, false⟩, fun i => (call i).prog⟩ log c)
    (hall : ∀ i, hasEnded (c.threads i)) : c.shared.held = false := by
  obtain ⟨order, L, -⟩ := Locked.exec_ordered (fun i => (call i).section) h
  cases hb : c.shared.held with
  | false => rfl
  | true =>
    obtain ⟨k, hk, _⟩ := L.held hb
    obtain ⟨o, ho⟩ := hall k
    exact absurd (L.mem_of_done' ((call k).not_done o) ho) hk

/-- The one transfer `Traffic` leaves out: coins from an account to itself. It returns at once, without a step on the database. -/
theorem C103_self_transfer (a : Bytes) (n : U256) : LockedDb.sendAmount a a n = .done (.ok ()) := by
  unfold LockedDb.sendAmount
  rw [if_pos rfl]
  rfl

/-- Overlapping calls: while one thread is inside a deposit, a query has to wait, and then sees the deposit. -/
example (d : Db) (hd : d.cur.Dec) (o : Bytes) (n : U256) (h0 : d.cur.amt o = U256.zero) :
    ∃ log c, Exec ⟨⟨d, false⟩, fun i : Bool => (if i then Traffic.add o n else .get o).prog⟩ log c ∧
      (∃ e ∈ log, e.thread = true ∧ e.after.held = true) ∧ c.threads false = .done (.ok n) := by
  obtain ⟨next, rest, he, _, h2, h3⟩ : Locked.Critical (Traffic.add o n).prog (Traffic.add o n).alone :=
    (LockedDb.transact_critical _).map
  have x1 := Exec.step (start := ⟨⟨d, false⟩, fun i : Bool => (if i then Traffic.add o n else .get o).prog⟩) true
    .refl he (h2 d)
  obtain ⟨log2, x2⟩ := x1.go true (by simp) (h3 d).runs
  have hf := (Traffic.add o n).alone_spec hd (shows_amt hd)
  obtain ⟨v, hv1, hv2⟩ := hf.2.2 o
  have hv : v = n := by
    apply U256.ext
    rw [hv2]
    have : n.val < 2 ^ 256 := n.lt
    simp only [Traffic.after, Spec.LedgerCall.run, Spec.LedgerCall.apply_add, h0]
    have hz : U256.zero.val = 0 := rfl
    rw [hz, Nat.zero_add, if_pos this]
    simp [Spec.Accounts.update]
  have x3 := Exec.step (next := fun s => if s.held then none else some s)
    (rest := fun s => .done (Ledger.balance (s.data.get o))) false x2 rfl rfl
  refine ⟨_, _, x3, ⟨⟨true, ⟨d, false⟩, ⟨d, true⟩⟩, by simp, rfl, rfl⟩, ?_⟩
  simp only [Function.update_self]
  rw [hv1, hv]

end Props

end BCT
