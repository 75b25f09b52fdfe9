import Verif.Props.Threads
/-!
# C99: concurrent calls do not block each other for ever (chain.rs, blockchaintree.rs)
-/

namespace BCT.Props
open BCT

variable {ι α β : Type}

/-- How a program uses the height lock; `mine` says whether its thread holds it. Not holding it, a step may only have
to wait while another thread holds the lock, and leaves the lock as it is or takes it when it is free. Holding it,
a step never has to wait. A program does not end holding it. -/
def Tidy : Prog Node α → Bool → Prop
  | .done _, mine => mine = false
  | .step next rest, false => ∀ n : Node, (n.held = false → next n ≠ none) ∧ ∀ n', next n = some n' →
      (n'.held = n.held ∧ Tidy (rest n) false) ∨ (n.held = false ∧ n'.held = true ∧ Tidy (rest n) true)
  | .step next rest, true => ∀ n : Node, n.held = true → ∃ n', next n = some n' ∧ Tidy (rest n) n'.held

theorem Tidy.bind {p : Prog Node α} {f : α → Prog Node β} : ∀ {mine}, Tidy p mine → (∀ a, Tidy (f a) false) →
    Tidy (p >>= f) mine := by
  induction p with
  | done o =>
    intro mine h hf
    simp only [Tidy] at h
    subst h
    cases o with
    | ok a => exact hf a
    | _ => rfl
  | step next rest ih =>
    intro mine h hf
    cases mine with
    | false =>
      intro n
      refine ⟨(h n).1, fun n' hn => ?_⟩
      rcases (h n).2 n' hn with ⟨h1, h2⟩ | ⟨h1, h2, h3⟩
      · exact .inl ⟨h1, ih n h2 hf⟩
      · exact .inr ⟨h1, h2, ih n h3 hf⟩
    | true =>
      intro n hn
      obtain ⟨n', h1, h2⟩ := h n hn
      exact ⟨n', h1, ih n h2 hf⟩

theorem tidy_lift (o : Outcome α) : Tidy (Prog.lift o) false := rfl
theorem tidy_pure (a : α) : Tidy (pure a) false := rfl

theorem tidy_read (f : Tree → Outcome α) : Tidy (Node.read f) false :=
  fun n => ⟨fun _ => by simp, fun n' hn => by cases hn; exact .inl ⟨rfl, rfl⟩⟩

theorem tidy_write (f : Tree → Tree) : Tidy (Node.write f) false :=
  fun n => ⟨fun _ => by simp, fun n' hn => by cases hn; exact .inl ⟨rfl, rfl⟩⟩

theorem tidy_onTree (x : Act Tree α) : Tidy (Node.onTree x) false :=
  fun n => ⟨fun _ => by simp, fun n' hn => by cases hn; exact .inl ⟨rfl, rfl⟩⟩

theorem tidy_readHeight : Tidy Node.readHeight false := fun n => by
  refine ⟨fun h => by simp [h], fun n' hn => ?_⟩
  simp only [Option.ite_none_left_eq_some] at hn
  cases hn.2
  exact .inl ⟨rfl, rfl⟩

theorem tidy_addBlock (E : Env) (b : Block) : Tidy (Node.addBlock E b) false := by
  unfold Node.addBlock
  intro n
  refine ⟨fun h => by simp [h], fun n' hn => ?_⟩
  simp only [Option.ite_none_left_eq_some] at hn
  obtain ⟨h1, h2⟩ := hn
  cases h2
  refine .inr ⟨by simpa using h1, rfl, ?_⟩
  intro n hn
  refine ⟨n, rfl, ?_⟩
  rw [hn]
  change Tidy (if b.info.height ≠ n.data.main.chain.height then _ else _) true
  split
  · exact fun m hm => ⟨_, rfl, rfl⟩
  · refine fun m hm => ⟨_, rfl, ?_⟩
    change Tidy _ m.held
    rw [hm]
    refine fun m hm => ⟨_, rfl, ?_⟩
    change Tidy _ m.held
    rw [hm]
    change Tidy (match n.data.main.chain.height.add U256.one with
      | .ok h' => _
      | o => _) true
    split
    · refine fun m hm => ⟨_, rfl, ?_⟩
      change Tidy _ m.held
      rw [hm]
      exact fun m hm => ⟨_, rfl, rfl⟩
    · refine fun m hm => ⟨_, rfl, ?_⟩
      change Tidy (Prog.lift _ >>= fun _ => pure ()) false
      exact .bind (tidy_lift _) fun _ => tidy_pure _

theorem tidy_findRawByHeight (k : U256) : Tidy (Node.findRawByHeight k) false := by
  unfold Node.findRawByHeight
  refine .bind tidy_readHeight fun _ => ?_
  split
  · exact tidy_pure _
  · exact tidy_read _

theorem tidy_lookup (l : Node.Lookup) : Tidy l.prog false := by
  cases l with
  | byHeight k => exact tidy_findRawByHeight k
  | byHash h =>
    refine .bind (tidy_read _) fun r => ?_
    cases r with
    | none => exact tidy_pure _
    | some v => exact .bind (tidy_lift _) fun _ => tidy_findRawByHeight _
  | last => exact .bind tidy_readHeight fun _ => .bind (tidy_lift _) fun _ => tidy_findRawByHeight _

theorem tidy_getLastBlock : Tidy Node.getLastBlock false :=
  .bind (tidy_lookup .last) fun _ => tidy_lift _

theorem tidy_mainFlush : Tidy Node.mainFlush false := by
  unfold Node.mainFlush Node.dumpConfig
  exact .bind (.bind (tidy_write _) fun _ => .bind tidy_readHeight fun _ => .bind (tidy_write _) fun _ =>
    .bind (tidy_read _) fun _ => tidy_write _) fun _ => .bind (tidy_write _) fun _ => .bind (tidy_write _) fun _ =>
    tidy_write _

theorem tidy_flush : Tidy Node.flush false := by
  unfold Node.flush
  exact .bind tidy_mainFlush fun _ => .bind (tidy_write _) fun _ => .bind (tidy_write _) fun _ =>
    .bind (tidy_write _) fun _ => tidy_write _

theorem tidy_send (E : Env) (tx : Transaction) : Tidy (Node.sendTransaction E tx) false := by
  unfold Node.sendTransaction
  refine .bind (tidy_read _) fun _ => .bind (tidy_read _) fun _ => .bind (tidy_lift _) fun _ => ?_
  split
  · exact tidy_lift _
  · refine .bind tidy_getLastBlock fun _ => .bind (tidy_lift _) fun _ => .bind (tidy_lift _) fun _ =>
      .bind (tidy_lift _) fun _ => ?_
    split
    · exact tidy_lift _
    · exact .bind (tidy_onTree _) fun _ => .bind (tidy_onTree _) fun _ => tidy_onTree _

theorem tidy_rotate : Tidy Node.rotateDbs false := by
  unfold Node.rotateDbs
  exact .bind tidy_flush fun _ => .bind (tidy_write _) fun _ => .bind (tidy_write _) fun _ =>
    .bind (tidy_write _) fun _ => tidy_write _

theorem tidy_emit (E : Env) (pow : BytesN 32) (founder : Address) (txs : List Hash) (ts : UInt64) :
    Tidy (Node.emitMain E pow founder txs ts) false := by
  unfold Node.emitMain
  refine .bind tidy_getLastBlock fun _ => .bind (tidy_lift _) fun _ => .bind (tidy_lift _) fun _ => ?_
  split
  · exact tidy_lift _
  · refine .bind (tidy_lift _) fun _ => .bind (tidy_lift _) fun _ => .bind (tidy_lift _) fun _ =>
      .bind ?_ fun _ => .bind (tidy_addBlock E _) fun _ => tidy_pure _
    split
    · split
      · exact tidy_lift _
      · exact .bind (tidy_read _) fun _ => .bind tidy_rotate fun _ => .bind (tidy_onTree _) fun _ => tidy_pure _
    · split
      · exact tidy_lift _
      · exact .bind (tidy_lift _) fun _ => tidy_pure _

theorem tidy_call (E : Env) (k : Node.AnyCall) : Tidy (k.prog E) false := by
  cases k with
  | shared k =>
    refine .bind ?_ fun _ => tidy_pure _
    cases k with
    | send tx => exact tidy_send E tx
    | flush => exact tidy_flush
    | handle h =>
      cases h with
      | addBlock b => exact tidy_addBlock E b
      | addTransaction t => exact tidy_onTree _
      | flush => exact tidy_mainFlush
  | emit pow founder txs ts => exact .bind (tidy_emit E pow founder txs ts) fun _ => tidy_pure _
  | lookup l => exact tidy_lookup l

/-- One thread at most holds the lock. -/
def Owned (c : Config ι Node α) : Prop :=
  (c.shared.held = false ∧ ∀ i, Tidy (c.threads i) false) ∨
  (c.shared.held = true ∧ ∃ k, Tidy (c.threads k) true ∧ ∀ i, i ≠ k → Tidy (c.threads i) false)

theorem exec_owned [DecidableEq ι] {start c : Config ι Node α} {log : List (Event ι Node)} (h : Exec start log c)
    (hs : Owned start) : Owned c := by
  induction h with
  | refl => exact hs
  | @step log c i next rest s' _ hi hn ih =>
    rcases ih with ⟨h1, h2⟩ | ⟨h1, k, h2, h3⟩
    · have ht := h2 i
      rw [hi] at ht
      have others : ∀ j, j ≠ i → Tidy (Function.update c.threads i (rest c.shared) j) false := fun j hj => by
        rw [Function.update_of_ne hj]; exact h2 j
      rcases (ht c.shared).2 s' hn with ⟨e, ht⟩ | ⟨_, e, ht⟩
      · refine .inl ⟨by rw [e, h1], fun j => ?_⟩
        by_cases hj : j = i
        · subst hj; simp only [Function.update_self]; exact ht
        · exact others j hj
      · exact .inr ⟨e, i, by simp only [Function.update_self]; exact ht, others⟩
    · by_cases hik : i = k
      · subst hik
        rw [hi] at h2
        obtain ⟨n', e, ht⟩ := h2 c.shared h1
        rw [hn] at e
        cases e
        have others : ∀ j, j ≠ i → Tidy (Function.update c.threads i (rest c.shared) j) false := fun j hj => by
          rw [Function.update_of_ne hj]; exact h3 j hj
        cases hb : s'.held with
        | true => rw [hb] at ht; exact .inr ⟨hb, i, by simp only [Function.update_self]; exact ht, others⟩
        | false =>
          rw [hb] at ht
          refine .inl ⟨hb, fun j => ?_⟩
          by_cases hj : j = i
          · subst hj; simp only [Function.update_self]; exact ht
          · exact others j hj
      · have ht := h3 i hik
        rw [hi] at ht
        rcases (ht c.shared).2 s' hn with ⟨e, ht⟩ | ⟨e, _⟩
        · refine .inr ⟨by rw [e, h1], k, ?_, fun j hj => ?_⟩
          · simp only [Function.update_of_ne (Ne.symm hik)]; exact h2
          · by_cases hji : j = i
            · subst hji; simp only [Function.update_self]; exact ht
            · simp only [Function.update_of_ne hji]; exact h3 j hj
        · rw [h1] at e; cases e

/-- The thread has a next step and need not wait. -/
def CanStep (c : Config ι Node α) (j : ι) : Prop :=
  ∃ next rest s', c.threads j = .step next rest ∧ next c.shared = some s'

theorem Owned.progress {c : Config ι Node α} (h : Owned c) (i : ι) (hi : ¬ hasEnded (c.threads i)) :
    ∃ j, CanStep c j := by
  rcases h with ⟨h1, h2⟩ | ⟨h1, k, h2, _⟩
  · have ht := h2 i
    cases hp : c.threads i with
    | done o => exact absurd ⟨o, hp⟩ hi
    | step next rest =>
      rw [hp] at ht
      obtain ⟨s', hs⟩ := Option.ne_none_iff_exists'.mp ((ht c.shared).1 h1)
      exact ⟨i, next, rest, s', hp, hs⟩
  · cases hp : c.threads k with
    | done o => rw [hp] at h2; cases h2
    | step next rest =>
      rw [hp] at h2
      obtain ⟨n', e, _⟩ := h2 c.shared h1
      exact ⟨k, next, rest, n', hp, e⟩

/-! ## Number of steps -/

variable {σ : Type}

/-- The program ends after at most `n` steps, whatever they find. -/
def Within : Prog σ α → Nat → Prop
  | .done _, _ => True
  | .step _ _, 0 => False
  | .step _ rest, n + 1 => ∀ s, Within (rest s) n

theorem Within.mono {p : Prog σ α} : ∀ {m n}, Within p m → m ≤ n → Within p n := by
  induction p with
  | done o => intros; trivial
  | step next rest ih =>
    intro m n h hmn
    cases m with
    | zero => exact h.elim
    | succ m =>
      obtain ⟨n, rfl⟩ : ∃ n', n = n' + 1 := ⟨n - 1, by omega⟩
      exact fun s => ih s (h s) (by omega)

theorem Within.bind {p : Prog σ α} {f : α → Prog σ β} {n : Nat} (hf : ∀ a, Within (f a) n) :
    ∀ {m}, Within p m → Within (p >>= f) (m + n) := by
  induction p with
  | done o =>
    intro m _
    cases o with
    | ok a => exact (hf a).mono (Nat.le_add_left _ _)
    | _ => trivial
  | step next rest ih =>
    intro m h
    cases m with
    | zero => exact h.elim
    | succ m => rw [Nat.add_right_comm]; exact fun s => ih s (h s)

theorem Within.lifted {o : Outcome α} {f : α → Prog σ β} {n : Nat} (hf : ∀ a, Within (f a) n) :
    Within (Prog.lift o >>= f) n := by
  cases o with
  | ok a => exact hf a
  | _ => trivial

theorem within_lift (o : Outcome α) (n : Nat) : Within (Prog.lift o : Prog σ α) n := trivial
theorem within_pure (a : α) (n : Nat) : Within (pure a : Prog σ α) n := trivial
theorem within_read (f : Tree → Outcome α) : Within (Node.read f) 1 := fun _ => trivial
theorem within_write (f : Tree → Tree) : Within (Node.write f) 1 := fun _ => trivial
theorem within_onTree (x : Act Tree α) : Within (Node.onTree x) 1 := fun _ => trivial
theorem within_readHeight : Within Node.readHeight 1 := fun _ => trivial

theorem within_addBlock (E : Env) (b : Block) : Within (Node.addBlock E b) 6 := by
  unfold Node.addBlock
  intro _ n
  change Within (if b.info.height ≠ n.data.main.chain.height then _ else _) 4
  split
  · exact fun _ => trivial
  · intro _ _
    change Within (match n.data.main.chain.height.add U256.one with
      | .ok h' => _
      | o => _) 2
    split
    · exact fun _ _ => trivial
    · refine fun _ => ?_
      exact Within.bind (m := 0) (n := 1) (fun _ => within_pure _ _) (within_lift _ _)

theorem within_findRawByHeight (k : U256) : Within (Node.findRawByHeight k) 2 := by
  unfold Node.findRawByHeight
  refine .bind (n := 1) (fun _ => ?_) within_readHeight
  split
  · exact within_pure _ _
  · exact within_read _

theorem within_lookup (l : Node.Lookup) : Within l.prog 3 := by
  cases l with
  | byHeight k => exact (within_findRawByHeight k).mono (by omega)
  | byHash h =>
    refine .bind (m := 1) (n := 2) (fun r => ?_) (within_read _)
    cases r with
    | none => exact within_pure _ _
    | some v => exact .lifted fun _ => within_findRawByHeight _
  | last => exact .bind (m := 1) (n := 2) (fun _ => .lifted fun _ => within_findRawByHeight _) within_readHeight

theorem within_getLastBlock : Within Node.getLastBlock 3 :=
  .bind (n := 0) (fun _ => within_lift _ _) (within_lookup .last)

theorem within_mainFlush : Within Node.mainFlush 8 :=
  .bind (m := 5) (n := 3) (fun _ => .bind (m := 1) (n := 2) (fun _ => .bind (m := 1) (n := 1)
    (fun _ => within_write _) (within_write _)) (within_write _))
    (.bind (m := 1) (n := 4) (fun _ => .bind (m := 1) (n := 3) (fun _ => .bind (m := 1) (n := 2)
      (fun _ => .bind (m := 1) (n := 1) (fun _ => within_write _) (within_read _)) (within_write _)) within_readHeight)
      (within_write _))

theorem within_flush : Within Node.flush 12 :=
  .bind (m := 8) (n := 4) (fun _ => .bind (m := 1) (n := 3) (fun _ => .bind (m := 1) (n := 2) (fun _ =>
    .bind (m := 1) (n := 1) (fun _ => within_write _) (within_write _)) (within_write _)) (within_write _))
    within_mainFlush

theorem within_rotate : Within Node.rotateDbs 16 :=
  .bind (m := 12) (n := 4) (fun _ => .bind (m := 1) (n := 3) (fun _ => .bind (m := 1) (n := 2) (fun _ =>
    .bind (m := 1) (n := 1) (fun _ => within_write _) (within_write _)) (within_write _)) (within_write _))
    within_flush

theorem within_send (E : Env) (tx : Transaction) : Within (Node.sendTransaction E tx) 8 := by
  unfold Node.sendTransaction
  refine .bind (m := 1) (n := 7) (fun _ => .bind (m := 1) (n := 6) (fun _ => .lifted fun _ => ?_)
    (within_read _)) (within_read _)
  split
  · exact within_lift _ _
  · refine .bind (m := 3) (n := 3) (fun _ => .lifted fun _ => .lifted fun _ => .lifted fun _ => ?_)
      within_getLastBlock
    split
    · exact within_lift _ _
    · exact .bind (m := 1) (n := 2) (fun _ => .bind (m := 1) (n := 1) (fun _ => within_onTree _) (within_onTree _))
        (within_onTree _)

theorem within_emit (E : Env) (pow : BytesN 32) (founder : Address) (txs : List Hash) (ts : UInt64) :
    Within (Node.emitMain E pow founder txs ts) 27 := by
  unfold Node.emitMain
  refine .bind (m := 3) (n := 24) (fun _ => .lifted fun _ => .lifted fun _ => ?_) within_getLastBlock
  split
  · exact within_lift _ _
  · refine .lifted fun _ => .lifted fun _ => .lifted fun _ => .bind (m := 18) (n := 6)
      (fun _ => .bind (m := 6) (n := 0) (fun _ => within_pure _ _) (within_addBlock E _)) ?_
    split
    · split
      · exact within_lift _ _
      · exact .bind (m := 1) (n := 17) (fun _ => .bind (m := 16) (n := 1) (fun _ => .bind (m := 1) (n := 0)
          (fun _ => within_pure _ _) (within_onTree _)) within_rotate) (within_read _)
    · split
      · exact within_lift _ _
      · exact .lifted fun _ => within_pure _ _

theorem within_call (E : Env) (k : Node.AnyCall) : Within (k.prog E) 27 := by
  cases k with
  | shared k =>
    have : ∀ {p : Prog Node Unit} {n}, n ≤ 27 → Within p n → Within (p >>= fun _ => pure (none : Option Bytes)) 27 :=
      fun hn h => (Within.bind (n := 0) (fun _ => within_pure _ _) h).mono hn
    cases k with
    | send tx => exact this (by omega) (within_send E tx)
    | flush => exact this (by omega) within_flush
    | handle h =>
      cases h with
      | addBlock b => exact this (by omega) (within_addBlock E b)
      | addTransaction t => exact this (n := 1) (by omega) (within_onTree _)
      | flush => exact this (by omega) within_mainFlush
  | emit pow founder txs ts => exact .bind (n := 0) (fun _ => within_pure _ _) (within_emit E pow founder txs ts)
  | lookup l => exact (within_lookup l).mono (by omega)

theorem exec_within [DecidableEq ι] {start c : Config ι σ α} {log : List (Event ι σ)} (h : Exec start log c)
    {m : Nat} (hm : ∀ i, Within (start.threads i) m) (i : ι) :
    (log.filter (fun e => e.thread = i)).length ≤ m ∧
      Within (c.threads i) (m - (log.filter (fun e => e.thread = i)).length) := by
  induction h with
  | refl => exact ⟨Nat.zero_le _, hm i⟩
  | @step log c j next rest s' _ hj hn ih =>
    rw [List.filter_append]
    by_cases hij : j = i
    · subst hij
      obtain ⟨h1, h2⟩ := ih
      rw [hj] at h2
      simp only [decide_true, List.filter_cons_of_pos, List.filter_nil, List.length_append, List.length_singleton,
        Function.update_self]
      generalize (log.filter (fun e => e.thread = j)).length = k at h1 h2
      obtain ⟨d, rfl⟩ : ∃ d, m = k + d := ⟨m - k, by omega⟩
      rw [Nat.add_sub_cancel_left] at h2
      cases d with
      | zero => exact h2.elim
      | succ d => exact ⟨by omega, (h2 c.shared).mono (by omega)⟩
    · simp only [hij, decide_false, Bool.false_eq_true, not_false_eq_true, List.filter_cons_of_neg, List.filter_nil,
        List.append_nil, Function.update_of_ne (Ne.symm hij)]
      exact ih

/-! ## C99 -/

/-- C99. Any number of threads emit blocks, add blocks and transactions, send transactions, flush and look blocks up,
each making any call, on a node in any state. Under every schedule, as long as some call has not ended, some thread
can make a step. -/
theorem C99_no_deadlock [DecidableEq ι] (E : Env) (s : Tree) (call : ι → Node.AnyCall) (log : List (Event ι Node))
    (c : Config ι Node (Option Bytes)) (h : Exec ⟨⟨s, false⟩, fun i => (call i).prog E⟩ log c) (i : ι)
    (hi : ¬ hasEnded (c.threads i)) : ∃ j, CanStep c j :=
  (exec_owned h (.inl ⟨rfl, fun i => tidy_call E (call i)⟩)).progress i hi

/-- C99. No call takes more than 27 steps, whatever the other threads do. -/
theorem C99_bounded [DecidableEq ι] (E : Env) (s : Tree) (call : ι → Node.AnyCall) (log : List (Event ι Node))
    (c : Config ι Node (Option Bytes)) (h : Exec ⟨⟨s, false⟩, fun i => (call i).prog E⟩ log c) (i : ι) :
    (log.filter (fun e => e.thread = i)).length ≤ 27 :=
  (exec_within h (fun i => within_call E (call i)) i).1

theorem length_eq_sum [Fintype ι] [DecidableEq ι] (log : List (Event ι σ)) :
    log.length = ∑ i, (log.filter (fun e => e.thread = i)).length := by
  induction log with
  | nil => simp
  | cons e l ih =>
    have : ∀ i, ((e :: l).filter (fun e => e.thread = i)).length =
        (l.filter (fun e => e.thread = i)).length + if i = e.thread then 1 else 0 := by
      intro i
      by_cases h : e.thread = i
      · simp [h]
      · simp [h, Ne.symm h]
    simp only [this, Finset.sum_add_distrib, Finset.sum_ite_eq', Finset.mem_univ, if_true, List.length_cons, ih]

/-- C99. Every schedule of finitely many threads ends, after at most 27 steps per thread; and whatever has happened
so far, all calls can end. -/
theorem C99_all_end [Fintype ι] [DecidableEq ι] (E : Env) (s : Tree) (call : ι → Node.AnyCall)
    (log : List (Event ι Node)) (c : Config ι Node (Option Bytes))
    (h : Exec ⟨⟨s, false⟩, fun i => (call i).prog E⟩ log c) :
    log.length ≤ 27 * Fintype.card ι ∧
    ∃ log' c', Exec ⟨⟨s, false⟩, fun i => (call i).prog E⟩ (log ++ log') c' ∧ ∀ i, hasEnded (c'.threads i) := by
  have hlen : ∀ {log : List (Event ι Node)} {c}, Exec ⟨⟨s, false⟩, fun i => (call i).prog E⟩ log c →
      log.length ≤ 27 * Fintype.card ι := by
    intro log c h
    rw [length_eq_sum log, Nat.mul_comm]
    exact Finset.sum_le_card_nsmul _ _ _ fun i _ => C99_bounded E s call log c h i
  refine ⟨hlen h, ?_⟩
  obtain ⟨d, hd⟩ : ∃ d, d = 27 * Fintype.card ι - log.length := ⟨_, rfl⟩
  induction d using Nat.strong_induction_on generalizing log c with
  | _ d ih =>
    by_cases hall : ∀ i, hasEnded (c.threads i)
    · exact ⟨[], c, by simpa using h, hall⟩
    · obtain ⟨i, hi⟩ := not_forall.mp hall
      obtain ⟨j, next, rest, s', hj, hn⟩ := C99_no_deadlock E s call log c h i hi
      have h' := Exec.step j h hj hn
      have hl := hlen h'
      rw [List.length_append, List.length_singleton] at hl
      obtain ⟨log', c', hc', hend⟩ := ih _ (by rw [List.length_append, List.length_singleton]; omega) _ _ h' rfl
      exact ⟨_, c', by rw [List.append_assoc] at hc'; exact hc', hend⟩

/-- C99. When all calls have ended, also by errors and panics, the lock is free. -/
theorem C99_lock_released [DecidableEq ι] (E : Env) (s : Tree) (call : ι → Node.AnyCall) (log : List (Event ι Node))
    (c : Config ι Node (Option Bytes)) (h : Exec ⟨⟨s, false⟩, fun i => (call i).prog E⟩ log c)
    (hall : ∀ i, hasEnded (c.threads i)) : c.shared.held = false := by
  rcases exec_owned h (.inl ⟨rfl, fun i => tidy_call E (call i)⟩) with ⟨h1, _⟩ | ⟨_, k, h2, _⟩
  · exact h1
  · obtain ⟨o, ho⟩ := hall k
    rw [ho] at h2
    cases h2

/-- Waiting does occur: a thread emitting a block waits for one that is inside `add_block`. -/
example (E : Env) (s : Tree) (b : Block) (pow : BytesN 32) (founder : Address) (txs : List Hash) (ts : UInt64) :
    ∃ log c, Exec ⟨⟨s, false⟩, fun i : Bool =>
        (if i then Node.AnyCall.shared (.handle (.addBlock b)) else .emit pow founder txs ts).prog E⟩ log c ∧
      ¬ CanStep c false ∧ ¬ hasEnded (c.threads false) ∧ CanStep c true := by
  have h := Exec.step (start := ⟨⟨s, false⟩, fun i : Bool =>
    (if i then Node.AnyCall.shared (.handle (.addBlock b)) else .emit pow founder txs ts).prog E⟩) true .refl rfl
    (s' := ⟨s, true⟩) rfl
  refine ⟨_, _, h, ?_, ?_, ?_⟩
  · rintro ⟨next, rest, s', h1, h2⟩
    have h1' : (Node.AnyCall.emit pow founder txs ts).prog E = .step next rest := h1
    cases h1'
    cases h2
  · rintro ⟨o, ho⟩
    have ho' : (Node.AnyCall.emit pow founder txs ts).prog E = .done o := ho
    cases ho'
  · exact ⟨_, _, _, rfl, rfl⟩

end BCT.Props
