import Mathlib.Data.List.Induction
import Verif.Lemmas.Threads
/-!
# Reasoning about all schedules
-/

namespace BCT

variable {ι σ α β : Type}

/-! ## What a thread does, whatever the others do -/

/-- Whatever the other threads do in between (keeping `J`), every step of the program keeps `J`, and when the program
ends, its own steps (before, after), appended to `hist`, and its result satisfy `P`. -/
def Prog.Hist (J : σ → Prop) (P : List (σ × σ) → Outcome α → Prop) : Prog σ α → List (σ × σ) → Prop
  | .done o, hist => P hist o
  | .step next rest, hist => ∀ s s', J s → next s = some s' → J s' ∧ Prog.Hist J P (rest s) (hist ++ [(s, s')])

/-- The steps a thread took. -/
def ownSteps [DecidableEq ι] (i : ι) (log : List (Event ι σ)) : List (σ × σ) :=
  (log.filter (fun e => e.thread = i)).map (fun e => (e.before, e.after))

theorem ownSteps_append [DecidableEq ι] (i : ι) (log : List (Event ι σ)) (e : Event ι σ) :
    ownSteps i (log ++ [e]) = if e.thread = i then ownSteps i log ++ [(e.before, e.after)] else ownSteps i log := by
  unfold ownSteps
  rw [List.filter_append, List.map_append]
  by_cases h : e.thread = i
  · simp [h]
  · simp [h]

theorem mem_ownSteps [DecidableEq ι] {i : ι} {log : List (Event ι σ)} {x y : σ} (h : (x, y) ∈ ownSteps i log) :
    (⟨i, x, y⟩ : Event ι σ) ∈ log := by
  unfold ownSteps at h
  obtain ⟨e, he, hxy⟩ := List.mem_map.mp h
  obtain ⟨hmem, hi⟩ := List.mem_filter.mp he
  simp only [decide_eq_true_eq] at hi
  cases e
  simp only [Prod.mk.injEq] at hxy
  obtain ⟨rfl, rfl⟩ := hxy
  simp only at hi
  subst hi
  exact hmem

theorem ownSteps_mem [DecidableEq ι] {log : List (Event ι σ)} {e : Event ι σ} (h : e ∈ log) :
    (e.before, e.after) ∈ ownSteps e.thread log := by
  unfold ownSteps
  exact List.mem_map.mpr ⟨e, List.mem_filter.mpr ⟨h, by simp⟩, rfl⟩

theorem Exec.hist [DecidableEq ι] {start c : Config ι σ α} {log : List (Event ι σ)} (h : Exec start log c)
    {J : σ → Prop} {P : ι → List (σ × σ) → Outcome α → Prop} (hJ : J start.shared)
    (hP : ∀ i, Prog.Hist J (P i) (start.threads i) []) :
    J c.shared ∧ (∀ e ∈ log, J e.before ∧ J e.after) ∧
      ∀ i, Prog.Hist J (P i) (c.threads i) (ownSteps i log) := by
  induction h with
  | refl => exact ⟨hJ, fun e he => absurd he (by simp), hP⟩
  | @step log c i next rest s' _ hi hn ih =>
    obtain ⟨h1, h2, h3⟩ := ih
    have hk := h3 i
    rw [hi] at hk
    obtain ⟨hs', hr⟩ := hk c.shared s' h1 hn
    refine ⟨hs', fun e he => ?_, fun j => ?_⟩
    · rcases List.mem_append.mp he with he | he
      · exact h2 e he
      · rw [List.mem_singleton.mp he]
        exact ⟨h1, hs'⟩
    · rw [ownSteps_append]
      by_cases hj : j = i
      · subst hj
        simp only [Function.update_self, if_pos]
        exact hr
      · simp only [Function.update_of_ne hj, if_neg (fun h : i = j => hj h.symm)]
        exact h3 j

theorem Prog.Hist.mono {J : σ → Prop} {P Q : List (σ × σ) → Outcome α → Prop} (hPQ : ∀ l o, P l o → Q l o)
    {p : Prog σ α} : ∀ {hist}, Prog.Hist J P p hist → Prog.Hist J Q p hist := by
  induction p with
  | done o => exact fun h => hPQ _ _ h
  | step next rest ih => exact fun h s s' hs hn => ⟨(h s s' hs hn).1, ih s (h s s' hs hn).2⟩

/-- Sequencing. -/
theorem Prog.Hist.bind {J : σ → Prop} {P : List (σ × σ) → Outcome α → Prop} {Q : List (σ × σ) → Outcome β → Prop}
    {f : α → Prog σ β} {p : Prog σ α} (hok : ∀ l a, P l (.ok a) → Prog.Hist J Q (f a) l)
    (herr : ∀ l e, P l (.err e) → Q l (.err e)) (hpanic : ∀ l e, P l (.panic e) → Q l (.panic e))
    (hub : ∀ l, P l .ub → Q l .ub) : ∀ {hist}, Prog.Hist J P p hist → Prog.Hist J Q (p >>= f) hist := by
  induction p with
  | done o =>
    intro hist h
    cases o with
    | ok a => exact hok _ _ h
    | err e => exact herr _ _ h
    | panic e => exact hpanic _ _ h
    | ub => exact hub _ h
  | step next rest ih =>
    intro hist h s s' hs hn
    exact ⟨(h s s' hs hn).1, ih s (h s s' hs hn).2⟩

/-- Every step of the program, whatever state it finds, is related by `R`. -/
def Prog.Guar (R : σ → σ → Prop) : Prog σ α → Prop
  | .done _ => True
  | .step next rest => ∀ s s', next s = some s' → R s s' ∧ Prog.Guar R (rest s)

theorem Prog.Guar.mono {R Q : σ → σ → Prop} (h : ∀ s s', R s s' → Q s s') {p : Prog σ α} (hp : p.Guar R) :
    p.Guar Q := by
  induction p with
  | done o => trivial
  | step next rest ih => exact fun s s' hn => ⟨h _ _ (hp s s' hn).1, ih s (hp s s' hn).2⟩

theorem Prog.Guar.bind {R : σ → σ → Prop} {p : Prog σ α} {f : α → Prog σ β} (hp : p.Guar R)
    (hf : ∀ a, (f a).Guar R) : Prog.Guar R (p >>= f) := by
  induction p with
  | done o =>
    cases o with
    | ok a => exact hf a
    | err e => trivial
    | panic e => trivial
    | ub => trivial
  | step next rest ih => exact fun s s' hn => ⟨(hp s s' hn).1, ih s (hp s s' hn).2⟩

theorem Prog.guar_lift {R : σ → σ → Prop} (o : Outcome α) : Prog.Guar R (Prog.lift o) := trivial

theorem Prog.guar_pure {R : σ → σ → Prop} (a : α) : Prog.Guar R (pure a : Prog σ α) := trivial

/-- Every step ever taken is related by what its thread guarantees. -/
theorem Exec.guar [DecidableEq ι] {start c : Config ι σ α} {log : List (Event ι σ)} (h : Exec start log c)
    {R : ι → σ → σ → Prop} (hR : ∀ i, (start.threads i).Guar (R i)) :
    (∀ e ∈ log, R e.thread e.before e.after) ∧ ∀ i, (c.threads i).Guar (R i) := by
  induction h with
  | refl => exact ⟨fun e he => absurd he (by simp), hR⟩
  | @step log c i next rest s' _ hi hn ih =>
    obtain ⟨h1, h2⟩ := ih
    have hk := h2 i
    rw [hi] at hk
    obtain ⟨k1, k2⟩ := hk c.shared s' hn
    refine ⟨fun e he => ?_, fun j => ?_⟩
    · rcases List.mem_append.mp he with he | he
      · exact h1 e he
      · rw [List.mem_singleton.mp he]; exact k1
    · by_cases hj : j = i
      · subst hj; simp only [Function.update_self]; exact k2
      · simp only [Function.update_of_ne hj]; exact h2 j

/-- What all threads keep holds always. -/
theorem Exec.always [DecidableEq ι] {start c : Config ι σ α} {log : List (Event ι σ)} (h : Exec start log c)
    {J : σ → Prop} (hJ : J start.shared) (hR : ∀ i, (start.threads i).Guar (fun s s' => J s → J s')) :
    J c.shared ∧ ∀ e ∈ log, J e.before ∧ J e.after := by
  induction h with
  | refl => exact ⟨hJ, fun e he => absurd he (by simp)⟩
  | @step log c i next rest s' hprev hi hn ih =>
    obtain ⟨h1, h2⟩ := ih
    have hk := (hprev.guar (R := fun _ s s' => J s → J s') hR).2 i
    rw [hi] at hk
    have k1 := (hk c.shared s' hn).1 h1
    refine ⟨k1, fun e he => ?_⟩
    rcases List.mem_append.mp he with he | he
    · exact h2 e he
    · rw [List.mem_singleton.mp he]; exact ⟨h1, k1⟩

/-- From states with `K`, the steps of the program are related by `R` until one is as `M` says, or until it ends with
an outcome as `D` says. -/
def Prog.Until (K : σ → Prop) (R : σ → σ → Prop) (M : σ → σ → Prog σ α → Prop) (D : Outcome α → Prop) :
    Prog σ α → Prop
  | .done o => D o
  | .step next rest => ∀ s s', K s → next s = some s' →
      (R s s' ∧ Prog.Until K R M D (rest s)) ∨ M s s' (rest s)

theorem Prog.Guar.until {K : σ → Prop} {R : σ → σ → Prop} {M : σ → σ → Prog σ β → Prop} {D : Outcome β → Prop}
    (herr : ∀ e, D (.err e)) (hpanic : ∀ e, D (.panic e)) (hub : D .ub) {p : Prog σ α} {f : α → Prog σ β}
    (hp : p.Guar R) (hf : ∀ a, (f a).Until K R M D) : Prog.Until K R M D (p >>= f) := by
  induction p with
  | done o =>
    cases o with
    | ok a => exact hf a
    | err e => exact herr e
    | panic e => exact hpanic e
    | ub => exact hub
  | step next rest ih => exact fun s s' _ hn => .inl ⟨(hp s s' hn).1, ih s (hp s s' hn).2⟩

theorem Prog.Guar.until_end {K : σ → Prop} {R : σ → σ → Prop} {M : σ → σ → Prog σ α → Prop} {D : Outcome α → Prop}
    (hD : ∀ o, D o) {p : Prog σ α} (hp : p.Guar R) : Prog.Until K R M D p := by
  induction p with
  | done o => exact hD o
  | step next rest ih => exact fun s s' _ hn => .inl ⟨(hp s s' hn).1, ih s (hp s s' hn).2⟩

/-! ## What the steps of a node's programs guarantee -/

namespace Node
variable {R : Node → Node → Prop}

theorem guar_read (hR : ∀ n, R n n) (f : Tree → Outcome α) : Prog.Guar R (read f) :=
  fun s s' hn => by cases hn; exact ⟨hR _, trivial⟩

theorem guar_write {f : Tree → Tree} (hR : ∀ n : Node, R n { n with data := f n.data }) : Prog.Guar R (write f) :=
  fun s s' hn => by cases hn; exact ⟨hR _, trivial⟩

theorem guar_onTree {x : Act Tree α} (hR : ∀ n : Node, R n { n with data := (x n.data).final }) :
    Prog.Guar R (onTree x) :=
  fun s s' hn => by cases hn; exact ⟨hR _, trivial⟩

theorem guar_readHeight (hR : ∀ n, R n n) : Prog.Guar R readHeight := fun s s' hn => by
  simp only [Option.ite_none_left_eq_some] at hn
  cases hn.2
  exact ⟨hR _, trivial⟩

theorem guar_lock (hR : ∀ n : Node, R n { n with held := true }) : Prog.Guar R lock := fun s s' hn => by
  simp only [Option.ite_none_left_eq_some] at hn
  cases hn.2
  exact ⟨hR _, trivial⟩

theorem guar_unlock (hR : ∀ n : Node, R n { n with held := false }) : Prog.Guar R unlock := fun s s' hn => by
  cases hn
  exact ⟨hR _, trivial⟩

theorem guar_getLastBlock (hR : ∀ n, R n n) : Prog.Guar R getLastBlock := by
  unfold getLastBlock getLastRawBlock findRawByHeight
  refine .bind (.bind (guar_readHeight hR) fun h => .bind (Prog.guar_lift _) fun i =>
    .bind (guar_readHeight hR) fun _ => ?_) fun _ => Prog.guar_lift _
  split
  · exact Prog.guar_pure _
  · exact guar_read hR _

/-- The steps that only concern the main chain or the lock. -/
structure MainStep (R : Node → Node → Prop) : Prop where
  refl : ∀ n, R n n
  held : ∀ (n : Node) b, R n { n with held := b }
  main : ∀ (n : Node) m, R n { n with data := { n.data with main := m } }

theorem guar_addBlock (h : MainStep R) (E : Env) (b : Block) : Prog.Guar R (addBlock E b) := by
  unfold addBlock
  refine .bind (guar_lock fun n => h.held n _) fun _ => .bind (guar_read h.refl _) fun ht => ?_
  split
  · exact .bind (guar_unlock fun n => h.held n _) fun _ => Prog.guar_lift _
  · refine .bind (guar_write fun n => h.main n _) fun _ => .bind (guar_write fun n => h.main n _) fun _ => ?_
    split
    · exact .bind (guar_write fun n => h.main n _) fun _ => guar_unlock fun n => h.held n _
    · exact .bind (guar_unlock fun n => h.held n _) fun _ => .bind (Prog.guar_lift _) fun _ => Prog.guar_pure _

theorem guar_addTransaction (h : MainStep R) (E : Env) (t : Transaction) : Prog.Guar R (addTransaction E t) :=
  guar_onTree fun n => h.main n _

theorem guar_mainFlush (h : MainStep R) : Prog.Guar R mainFlush := by
  unfold mainFlush dumpConfig
  exact .bind (.bind (guar_write fun n => h.main n _) fun _ => .bind (guar_readHeight h.refl) fun _ =>
    .bind (guar_write fun n => h.main n _) fun _ => .bind (guar_read h.refl _) fun _ =>
    guar_write fun n => h.main n _) fun _ => .bind (guar_write fun n => h.main n _) fun _ =>
    .bind (guar_write fun n => h.main n _) fun _ => guar_write fun n => h.main n _

theorem guar_handle (h : MainStep R) (E : Env) (k : HandleCall) : Prog.Guar R (k.prog E) := by
  cases k with
  | addBlock b => exact guar_addBlock h E b
  | addTransaction t => exact guar_addTransaction h E t
  | flush => exact guar_mainFlush h

theorem guar_flush (h : MainStep R)
    (h1 : ∀ n : Node, R n { n with data := { n.data with summary := n.data.summary.flush } })
    (h2 : ∀ n : Node, R n { n with data := { n.data with oldSummary := n.data.oldSummary.flush } })
    (h3 : ∀ n : Node, R n { n with data := { n.data with gas := n.data.gas.flush } })
    (h4 : ∀ n : Node, R n { n with data := { n.data with oldGas := n.data.oldGas.flush } }) : Prog.Guar R flush := by
  unfold flush
  exact .bind (guar_mainFlush h) fun _ => .bind (guar_write h1) fun _ => .bind (guar_write h2) fun _ =>
    .bind (guar_write h3) fun _ => guar_write h4

end Node

/-! ## Building executions -/

/-- One thread alone gets from one point to another. -/
inductive Prog.Runs : Prog σ α → σ → Prog σ α → σ → Prop where
  | refl {p s} : Prog.Runs p s p s
  | step {next : σ → Option σ} {rest : σ → Prog σ α} {s s' q t} : next s = some s' → Prog.Runs (rest s) s' q t →
      Prog.Runs (.step next rest) s q t

theorem Prog.Runs.trans {p q r : Prog σ α} {s t u : σ} (h : Prog.Runs p s q t) (h' : Prog.Runs q t r u) :
    Prog.Runs p s r u := by
  induction h with
  | refl => exact h'
  | step hn _ ih => exact .step hn (ih h')

theorem Prog.Runs.bind {p q : Prog σ α} {s t : σ} (h : Prog.Runs p s q t) (f : α → Prog σ β) :
    Prog.Runs (p >>= f) s (q >>= f) t := by
  induction h with
  | refl => exact .refl
  | step hn _ ih => exact .step hn ih

theorem Prog.runs_of_solo {p : Prog σ α} : ∀ {s : σ} {o : Outcome α} {t : σ}, p.solo s = some (o, t) →
    Prog.Runs p s (.done o) t := by
  induction p with
  | done o =>
    intro s o' t h
    simp only [Prog.solo, Option.some.injEq, Prod.mk.injEq] at h
    obtain ⟨rfl, rfl⟩ := h
    exact .refl
  | step next rest ih =>
    intro s o t h
    simp only [Prog.solo] at h
    cases hn : next s with
    | none => rw [hn] at h; cases h
    | some s' => rw [hn] at h; exact .step hn (ih s h)

theorem Prog.runs_bind_ok {p : Prog σ α} {s t : σ} {a : α} (h : p.solo s = some (.ok a, t)) (f : α → Prog σ β) :
    Prog.Runs (p >>= f) s (f a) t := (Prog.runs_of_solo h).bind f

theorem Exec.trans [DecidableEq ι] {a b c : Config ι σ α} {l l' : List (Event ι σ)} (h : Exec a l b)
    (h' : Exec b l' c) : Exec a (l ++ l') c := by
  induction h' with
  | refl => simpa using h
  | step i _ hi hn ih => rw [← List.append_assoc]; exact .step i ih hi hn

theorem Exec.runs [DecidableEq ι] {start c : Config ι σ α} {log : List (Event ι σ)} (h : Exec start log c) (i : ι)
    {q : Prog σ α} {t : σ} (hr : Prog.Runs (c.threads i) c.shared q t) :
    ∃ log', Exec start (log ++ log') ⟨t, Function.update c.threads i q⟩ := by
  obtain ⟨p, hp⟩ : ∃ p, p = c.threads i := ⟨_, rfl⟩
  obtain ⟨s, hs⟩ : ∃ s, s = c.shared := ⟨_, rfl⟩
  rw [← hp, ← hs] at hr
  induction hr generalizing c log with
  | refl =>
    subst hp hs
    refine ⟨[], ?_⟩
    rw [Function.update_eq_self, List.append_nil]
    exact h
  | @step next rest s s' q t hn _ ih =>
    subst hs
    have h' := Exec.step i h hp.symm hn
    obtain ⟨log', hl⟩ := ih h' (by simp) rfl
    refine ⟨⟨i, c.shared, s'⟩ :: log', ?_⟩
    rw [Function.update_idem] at hl
    simpa using hl

theorem Exec.go [DecidableEq ι] {start : Config ι σ α} {s : σ} {th : ι → Prog σ α} {log : List (Event ι σ)}
    (h : Exec start log ⟨s, th⟩) (i : ι) {p q : Prog σ α} {t : σ} (hp : th i = p) (hr : Prog.Runs p s q t) :
    ∃ log', Exec start (log ++ log') ⟨t, Function.update th i q⟩ := h.runs i (by rw [← hp] at hr; exact hr)

theorem Exec.act [DecidableEq ι] {start : Config ι Node β} {n : Node} {th : ι → Prog Node β} {log : List (Event ι Node)}
    (h : Exec start log ⟨n, th⟩) (i : ι) {x : Act Tree α} {f : α → Prog Node β} {a : α}
    (hp : th i = Node.onTree x >>= f) (ho : (x n.data).out = .ok a) :
    Exec start (log ++ [⟨i, n, { n with data := (x n.data).final }⟩])
      ⟨{ n with data := (x n.data).final }, Function.update th i (f a)⟩ := by
  have := Exec.step i h hp (s' := { n with data := (x n.data).final }) rfl
  have e : Prog.bind (.done ((x n.data).out)) f = f a := by rw [ho]; rfl
  exact e ▸ this

/-! ## Calls that hold a lock from their first step to their last -/

namespace Locked
variable {τ : Type}

/-- Inside the critical section, with data `t`, the program ends with result `o` and leaves data `t'`, without
waiting, and lets go of the lock in its very last step. -/
inductive Inside (o : Outcome α) (t' : τ) : Prog (Locked τ) α → τ → Prop where
  | last {next rest t} : next ⟨t, true⟩ = some ⟨t', false⟩ → rest ⟨t, true⟩ = .done o →
      Inside o t' (.step next rest) t
  | more {next rest t u} : next ⟨t, true⟩ = some ⟨u, true⟩ → Inside o t' (rest ⟨t, true⟩) u →
      Inside o t' (.step next rest) t

/-- The program takes the lock, waiting if necessary, does what `x` does, and lets go of the lock. -/
def Critical (p : Prog (Locked τ) α) (x : τ → Outcome α × τ) : Prop :=
  ∃ next rest, p = .step next rest ∧ (∀ t, next ⟨t, true⟩ = none) ∧ (∀ t, next ⟨t, false⟩ = some ⟨t, true⟩) ∧
    ∀ t, Inside (x t).1 (x t).2 (rest ⟨t, false⟩) t

/-- The calls made one after the other. -/
def inOrder (x : ι → τ → Outcome α × τ) (t : τ) : List ι → τ
  | [] => t
  | i :: l => inOrder x (x i t).2 l

theorem inOrder_append (x : ι → τ → Outcome α × τ) (l : List ι) (i : ι) : ∀ t,
    inOrder x t (l ++ [i]) = (x i (inOrder x t l)).2 := by
  induction l with
  | nil => intro t; rfl
  | cons j l ih => intro t; exact ih _

/-- `i` got `o` when the calls are made in this order. -/
def ResultIn (x : ι → τ → Outcome α × τ) (t : τ) (order : List ι) (i : ι) (o : Outcome α) : Prop :=
  ∃ before after, order = before ++ i :: after ∧ o = (x i (inOrder x t before)).1

/-- State of the threads when no thread is inside / one is. -/
structure Linear [DecidableEq ι] (x : ι → τ → Outcome α × τ) (start : ι → Prog (Locked τ) α) (t0 : τ)
    (c : Config ι (Locked τ) α) (order : List ι) : Prop where
  nodup : order.Nodup
  free : c.shared.held = false → c.shared.data = inOrder x t0 order ∧
    ∀ i, i ∉ order → c.threads i = start i
  held : c.shared.held = true → ∃ h, h ∉ order ∧ (∀ i, i ∉ order → i ≠ h → c.threads i = start i) ∧
    Inside (x h (inOrder x t0 order)).1 (x h (inOrder x t0 order)).2 (c.threads h) c.shared.data
  ended : ∀ i, i ∈ order → ∃ o, c.threads i = .done o ∧ ResultIn x t0 order i o

theorem ResultIn.append {x : ι → τ → Outcome α × τ} {t : τ} {order : List ι} {i : ι} {o : Outcome α}
    (h : ResultIn x t order i o) (j : ι) : ResultIn x t (order ++ [j]) i o := by
  obtain ⟨b, a, rfl, ho⟩ := h
  exact ⟨b, a ++ [j], by simp, ho⟩

theorem exec_linear [DecidableEq ι] {x : ι → τ → Outcome α × τ} {start : ι → Prog (Locked τ) α} {t0 : τ}
    (hx : ∀ i, Critical (start i) (x i)) {log : List (Event ι (Locked τ))} {c : Config ι (Locked τ) α}
    (h : Exec ⟨⟨t0, false⟩, start⟩ log c) : ∃ order, Linear x start t0 c order := by
  induction h with
  | refl => exact ⟨[], List.nodup_nil, fun _ => ⟨rfl, fun _ _ => rfl⟩, fun h => (by cases h), fun i hi => by cases hi⟩
  | @step log c i next rest s' _ hi hn ih =>
    obtain ⟨order, L⟩ := ih
    have hnot : i ∉ order := by
      intro hmem
      obtain ⟨o, ho, -⟩ := L.ended i hmem
      rw [hi] at ho
      cases ho
    have hended : ∀ {q : Prog (Locked τ) α}, ∀ j, j ∈ order →
        ∃ o, Function.update c.threads i q j = .done o ∧ ResultIn x t0 order j o := by
      intro q j hj
      obtain ⟨o, ho, hr⟩ := L.ended j hj
      refine ⟨o, ?_, hr⟩
      rw [Function.update_of_ne (show j ≠ i from fun e => hnot (e ▸ hj))]
      exact ho
    obtain ⟨⟨d, b⟩, th⟩ := c
    cases b with
    | false =>
      obtain ⟨hd, hs⟩ := L.free rfl
      obtain ⟨next', rest', he, _, h2, h3⟩ := hx i
      have hi' := hs i hnot
      simp only at hi hi' hn hd
      rw [hi, he] at hi'
      cases hi'
      rw [h2] at hn
      cases hn
      refine ⟨order, L.nodup, fun h => (by cases h), fun _ => ⟨i, hnot, fun j hj hji => ?_, ?_⟩, hended⟩
      · simp only [Function.update_of_ne hji]
        exact hs j hj
      · simp only [Function.update_self]
        rw [← hd]
        exact h3 d
    | true =>
      obtain ⟨k, hk, hs, hin⟩ := L.held rfl
      by_cases hik : i = k
      · subst hik
        simp only at hi hin hn
        rw [hi] at hin
        cases hin with
        | last hl hr =>
          rw [hl] at hn
          cases hn
          refine ⟨order ++ [i], ?_, fun _ => ⟨?_, fun j hj => ?_⟩, fun h => (by cases h), fun j hj => ?_⟩
          · rw [List.nodup_append]
            refine ⟨L.nodup, (by simp), fun a ha b hb => ?_⟩
            rw [List.mem_singleton.mp hb]
            rintro rfl
            exact hnot ha
          · rw [inOrder_append]
          · simp only [List.mem_append, List.mem_singleton, not_or] at hj
            simp only [Function.update_of_ne hj.2]
            exact hs j hj.1 hj.2
          · rcases List.mem_append.mp hj with hj | hj
            · obtain ⟨o, ho, hro⟩ := hended (q := rest ⟨d, true⟩) j hj
              exact ⟨o, ho, hro.append i⟩
            · rw [List.mem_singleton.mp hj]
              refine ⟨_, ?_, order, [], rfl, rfl⟩
              simp only [Function.update_self]
              exact hr
        | more hl hr =>
          rw [hl] at hn
          cases hn
          refine ⟨order, L.nodup, fun h => (by cases h), fun _ => ⟨i, hnot, fun j hj hji => ?_, ?_⟩, hended⟩
          · simp only [Function.update_of_ne hji]
            exact hs j hj hji
          · simp only [Function.update_self]
            exact hr
      · exfalso
        obtain ⟨next', rest', he, h1, _, _⟩ := hx i
        have hi' := hs i hnot hik
        simp only at hi hi' hn
        rw [hi, he] at hi'
        cases hi'
        rw [h1] at hn
        cases hn

/-- A thread that has ended is in the order. -/
theorem Linear.mem_of_done [DecidableEq ι] {x : ι → τ → Outcome α × τ} {start : ι → Prog (Locked τ) α} {t0 : τ}
    {c : Config ι (Locked τ) α} {order : List ι} (L : Linear x start t0 c order)
    (hx : ∀ i, Critical (start i) (x i)) {i : ι} {o : Outcome α} (h : c.threads i = .done o) : i ∈ order := by
  by_contra hi
  have hne : start i ≠ .done o := by
    obtain ⟨n, r, he, _⟩ := hx i
    rw [he]
    simp
  cases hb : c.shared.held with
  | false => exact hne (((L.free hb).2 i hi).symm.trans h)
  | true =>
    obtain ⟨k, _, hs, hin⟩ := L.held hb
    by_cases hik : i = k
    · subst hik
      rw [h] at hin
      cases hin
    · exact hne ((hs i hi hik).symm.trans h)

/-- As long as some call has not ended, some thread can make a step: no deadlock. -/
theorem Linear.progress [DecidableEq ι] {x : ι → τ → Outcome α × τ} {start : ι → Prog (Locked τ) α} {t0 : τ}
    {c : Config ι (Locked τ) α} {order : List ι} (L : Linear x start t0 c order)
    (hx : ∀ i, Critical (start i) (x i)) (i : ι) (hi : ∀ o, c.threads i ≠ .done o) :
    ∃ j next rest s', c.threads j = .step next rest ∧ next c.shared = some s' := by
  obtain ⟨⟨d, b⟩, th⟩ := c
  cases b with
  | false =>
    have hni : i ∉ order := fun h => by
      obtain ⟨o, ho, -⟩ := L.ended i h
      exact hi o ho
    obtain ⟨n, r, he, _, h2, _⟩ := hx i
    exact ⟨i, n, r, _, ((L.free rfl).2 i hni).trans he, h2 d⟩
  | true =>
    obtain ⟨k, _, _, hin⟩ := L.held rfl
    simp only at hin
    generalize hp : th k = p at hin
    cases hin with
    | last hl hr => exact ⟨k, _, _, _, hp, hl⟩
    | more hl hr => exact ⟨k, _, _, _, hp, hl⟩

theorem Inside.runs {o : Outcome α} {t' : τ} {p : Prog (Locked τ) α} {t : τ} (h : Inside o t' p t) :
    Prog.Runs p ⟨t, true⟩ (.done o) ⟨t', false⟩ := by
  induction h with
  | last hl hr => exact .step hl (by rw [hr]; exact .refl)
  | more hl _ ih => exact .step hl ih

/-- Every order of the calls is possible. -/
theorem exec_inOrder [DecidableEq ι] {x : ι → τ → Outcome α × τ} {start : ι → Prog (Locked τ) α}
    (hx : ∀ i, Critical (start i) (x i)) (t0 : τ) (order : List ι) (hn : order.Nodup) :
    ∃ log c, Exec ⟨⟨t0, false⟩, start⟩ log c ∧ c.shared = ⟨inOrder x t0 order, false⟩ ∧
      (∀ i, i ∈ order → ∃ o, c.threads i = .done o) ∧ ∀ i, i ∉ order → c.threads i = start i := by
  induction order using List.reverseRecOn with
  | nil => exact ⟨[], _, .refl, rfl, fun i hi => (by simp at hi), fun _ _ => rfl⟩
  | append_singleton l i ih =>
    obtain ⟨h1, -, h2⟩ := List.nodup_append.mp hn
    have hi : i ∉ l := fun h => h2 i h i (by simp) rfl
    obtain ⟨log, c, hc, hs, hd, ho⟩ := ih h1
    obtain ⟨next, rest, he, _, ht, hin⟩ := hx i
    have hr : Prog.Runs (c.threads i) c.shared (.done (x i (inOrder x t0 l)).1)
        ⟨(x i (inOrder x t0 l)).2, false⟩ := by
      rw [ho i hi, he, hs]
      exact .step (ht _) (hin _).runs
    obtain ⟨log', hc'⟩ := hc.runs i hr
    refine ⟨_, _, hc', by rw [inOrder_append], fun j hj => ?_, fun j hj => ?_⟩
    · by_cases hji : j = i
      · exact ⟨_, by rw [hji]; exact Function.update_self _ _ _⟩
      · simp only [Function.update_of_ne hji]
        refine hd j ?_
        simpa [hji] using hj
    · simp only [List.mem_append, List.mem_singleton, not_or] at hj
      simp only [Function.update_of_ne hj.2]
      exact ho j hj.1

end Locked

/-! ## The two kinds of critical sections -/

theorem LockedDb.transact_critical (closure : KV → Outcome KV) :
    Locked.Critical (LockedDb.transact closure)
      (fun d => ((Ledger.transact closure d).out, (Ledger.transact closure d).final)) := by
  refine ⟨_, _, rfl, fun _ => rfl, fun _ => rfl, fun d => ?_⟩
  refine .more (u := d) rfl ?_
  unfold Ledger.transact
  simp only [Act.get_bind]
  cases h : (closure d.cur).unwrap with
  | ok m => exact .last rfl rfl
  | err e => exact .last rfl rfl
  | panic e => exact .last rfl rfl
  | ub => exact .last rfl rfl

theorem Node.addBlock_critical (E : Env) (b : Block) :
    Locked.Critical (Node.addBlock E b) (fun t =>
      ((Tree.onMain (MainChain.addBlock E b) t).out, (Tree.onMain (MainChain.addBlock E b) t).final)) := by
  refine ⟨_, _, rfl, fun _ => rfl, fun _ => rfl, fun t => ?_⟩
  refine .more (u := t) rfl ?_
  change Locked.Inside ((Chain.addBlock E b.info.height b.dump) t.main.chain).out
    ({ t with main := { t.main with chain := ((Chain.addBlock E b.info.height b.dump) t.main.chain).final } })
    (if b.info.height ≠ t.main.chain.height then do
        Node.unlock
        .lift (.err .chainAddingBlock)
      else do
        Node.write (Node.setChain fun s => { s with blocks := s.blocks.insert t.main.chain.height.toBE.val b.dump })
        Node.write (Node.setChain fun s =>
          { s with heightReference := s.heightReference.insert (E.sha256 b.dump).val t.main.chain.height.toBE.val })
        match t.main.chain.height.add U256.one with
        | .ok h' => do
          Node.write (Node.setChain fun s => { s with height := h' })
          Node.unlock
        | o => do
          Node.unlock
          let _ ← .lift o
          pure () : Prog Node Unit) t
  unfold Chain.addBlock
  simp only [Act.get_bind]
  split
  · exact .last rfl rfl
  · simp only [Act.step_bind]
    refine .more rfl (.more rfl ?_)
    cases h : t.main.chain.height.add U256.one with
    | ok h' => simp only [Act.lift_ok_bind]; exact .more rfl (.last rfl rfl)
    | err e => simp only [Act.lift_err_bind]; exact .last rfl rfl
    | panic e => simp only [Act.lift_panic_bind]; exact .last rfl rfl
    | ub => simp only [Act.lift_ub_bind]; exact .last rfl rfl

end BCT
