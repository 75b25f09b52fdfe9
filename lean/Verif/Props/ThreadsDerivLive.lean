import Verif.Props.ThreadsDeriv
/-!
# C121: calls on the node and on a derivative chain do not block each other for ever (chain.rs, blockchaintree.rs)
-/

namespace BCT.Props
open BCT

variable {ι α β : Type}

/-- The two height locks. -/
inductive Lock where
  | main
  | deriv
  deriving DecidableEq

/-- Some thread holds the lock for writing. -/
def Lock.held (s : Shared) : Lock → Bool
  | .main => s.node.held
  | .deriv => s.deriv.held

/-- How a program uses the locks; `mine` is the lock its thread holds. Holding none, a step has to wait only while
some thread holds a lock, and leaves the locks as they are or takes one that is free. Holding one, a step never
has to wait, and leaves the other lock alone. A program does not end holding a lock. -/
def Tidy2 : Prog Shared α → Option Lock → Prop
  | .done _, mine => mine = none
  | .step next rest, none => ∀ s : Shared, (next s = none → ∃ k : Lock, k.held s = true) ∧ ∀ s', next s = some s' →
      ((∀ k : Lock, k.held s' = k.held s) ∧ Tidy2 (rest s) none) ∨
      ∃ k : Lock, k.held s = false ∧ k.held s' = true ∧ (∀ j, j ≠ k → j.held s' = j.held s) ∧ Tidy2 (rest s) (some k)
  | .step next rest, some k => ∀ s : Shared, k.held s = true → ∃ s', next s = some s' ∧
      (∀ j, j ≠ k → j.held s' = j.held s) ∧ Tidy2 (rest s) (if k.held s' then some k else none)

theorem Tidy2.bind {p : Prog Shared α} {f : α → Prog Shared β} : ∀ {mine}, Tidy2 p mine → (∀ a, Tidy2 (f a) none) →
    Tidy2 (p >>= f) mine := by
  induction p with
  | done o =>
    intro mine h hf
    simp only [Tidy2] at h
    subst h
    cases o with
    | ok a => exact hf a
    | _ => rfl
  | step next rest ih =>
    intro mine h hf
    cases mine with
    | none =>
      intro s
      refine ⟨(h s).1, fun s' hn => ?_⟩
      rcases (h s).2 s' hn with ⟨h1, h2⟩ | ⟨k, h1, h2, h3, h4⟩
      · exact .inl ⟨h1, ih s h2 hf⟩
      · exact .inr ⟨k, h1, h2, h3, ih s h4 hf⟩
    | some k =>
      intro s hs
      obtain ⟨s', h1, h2, h3⟩ := h s hs
      exact ⟨s', h1, h2, ih s h3 hf⟩

/-- The main chain's lock, or none. -/
def mainIf (b : Bool) : Option Lock := if b then some .main else none

theorem tidy2_onNode (p : Prog Node α) : ∀ {mine}, Tidy p mine → Tidy2 (Shared.onNode p) (mainIf mine) := by
  induction p with
  | done o =>
    intro mine h
    simp only [Tidy] at h
    subst h
    rfl
  | step next rest ih =>
    intro mine h
    cases mine with
    | false =>
      intro s
      refine ⟨fun hn => ⟨.main, ?_⟩, fun s' hn => ?_⟩
      · refine Classical.byContradiction fun hc => ?_
        have := (h s.node).1 (by simpa [Lock.held] using hc)
        cases hx : next s.node with
        | none => exact this hx
        | some n => simp [hx] at hn
      · cases hx : next s.node with
        | none => simp [hx] at hn
        | some n =>
          simp only [hx, Option.map_some, Option.some.injEq] at hn
          subst hn
          rcases (h s.node).2 n hx with ⟨h1, h2⟩ | ⟨h1, h2, h3⟩
          · refine .inl ⟨fun k => ?_, ih s.node h2⟩
            cases k with
            | main => exact h1
            | deriv => rfl
          · refine .inr ⟨.main, h1, h2, fun j hj => ?_, ih s.node h3⟩
            cases j with
            | main => exact absurd rfl hj
            | deriv => rfl
    | true =>
      intro s hs
      obtain ⟨n, h1, h2⟩ := h s.node hs
      refine ⟨{ s with node := n }, by simp [h1], fun j hj => ?_, ih s.node h2⟩
      cases j with
      | main => exact absurd rfl hj
      | deriv => rfl

theorem tidy2_lift (o : Outcome α) : Tidy2 (Prog.lift o) none := rfl
theorem tidy2_pure (a : α) : Tidy2 (pure a) none := rfl

theorem tidy2_read (f : DerivativeChain → Outcome α) : Tidy2 (Shared.read f) none :=
  fun s => ⟨fun h => (by cases h), fun s' hn => by cases hn; exact .inl ⟨fun _ => rfl, rfl⟩⟩

theorem tidy2_write (f : DerivativeChain → DerivativeChain) : Tidy2 (Shared.write f) none :=
  fun s => ⟨fun h => (by cases h), fun s' hn => by cases hn; exact .inl ⟨fun k => by cases k <;> rfl, rfl⟩⟩

theorem tidy2_readHeight : Tidy2 Shared.readHeight none := fun s => by
  refine ⟨fun h => ⟨.deriv, by simpa [Lock.held] using h⟩, fun n' hn => ?_⟩
  simp only [Option.ite_none_left_eq_some] at hn
  cases hn.2
  exact .inl ⟨fun _ => rfl, rfl⟩

/-- A step of the holder that keeps the lock. -/
theorem tidy2_held {f : DerivativeChain → DerivativeChain} {g : Unit → Prog Shared α} (h : Tidy2 (g ()) (some .deriv)) :
    Tidy2 (Shared.write f >>= g) (some .deriv) := by
  intro s hs
  refine ⟨_, rfl, fun j hj => ?_, ?_⟩
  · cases j with
    | main => rfl
    | deriv => exact absurd rfl hj
  · have hs : s.deriv.held = true := hs
    change Tidy2 (g ()) (if s.deriv.held then _ else _)
    rw [hs]
    exact h

/-- A step of the holder that gives the lock back. -/
theorem tidy2_unlock {g : Unit → Prog Shared α} (h : Tidy2 (g ()) none) : Tidy2 (Shared.unlock >>= g) (some .deriv) := by
  intro s hs
  refine ⟨_, rfl, fun j hj => ?_, h⟩
  cases j with
  | main => rfl
  | deriv => exact absurd rfl hj

theorem tidy2_addBlock (E : Env) (b : DerivativeBlock) : Tidy2 (Shared.addBlock E b) none := by
  intro s
  refine ⟨fun h => ⟨.deriv, by simpa [Lock.held] using h⟩, fun n' hn => ?_⟩
  simp only [Option.ite_none_left_eq_some] at hn
  obtain ⟨h1, h2⟩ := hn
  cases h2
  refine .inr ⟨.deriv, by simpa [Lock.held] using h1, rfl, fun j hj => ?_, ?_⟩
  · cases j with
    | main => rfl
    | deriv => exact absurd rfl hj
  intro s hs
  refine ⟨s, rfl, fun _ _ => rfl, ?_⟩
  rw [hs]
  change Tidy2 (if b.defaultInfo.height ≠ s.deriv.data.chain.height then _ else _) (some .deriv)
  split
  · exact tidy2_unlock (tidy2_lift _)
  · refine tidy2_held (tidy2_held ?_)
    split
    · exact tidy2_held (tidy2_unlock (tidy2_pure ()))
    · exact tidy2_unlock (.bind (tidy2_lift _) fun _ => tidy2_pure _)

theorem tidy2_findRawByHeight (k : U256) : Tidy2 (Shared.findRawByHeight k) none := by
  refine .bind tidy2_readHeight fun _ => ?_
  split
  · exact tidy2_pure _
  · exact tidy2_read _

theorem tidy2_findRawByHash (q : Hash) : Tidy2 (Shared.findRawByHash q) none := by
  refine .bind (tidy2_read _) fun r => ?_
  cases r with
  | none => exact tidy2_pure _
  | some v => exact .bind (tidy2_lift _) fun _ => tidy2_findRawByHeight _

theorem tidy2_last : Tidy2 Shared.getLastRawBlock none := by
  refine .bind tidy2_readHeight fun _ => ?_
  split
  · exact tidy2_pure _
  · exact .bind (tidy2_lift _) fun _ => tidy2_findRawByHeight _

theorem tidy2_flush : Tidy2 Shared.flush none := by
  unfold Shared.flush Shared.dumpConfig
  exact .bind (.bind (tidy2_write _) fun _ => .bind tidy2_readHeight fun _ => .bind (tidy2_write _) fun _ =>
    .bind (tidy2_read _) fun _ => .bind (tidy2_write _) fun _ => tidy2_write _) fun _ =>
    .bind (tidy2_write _) fun _ => tidy2_write _

theorem tidy2_emit (E : Env) (pow : BytesN 32) (founder : Address) (ts : UInt64) :
    Tidy2 (Shared.emitDerivative E pow founder ts) none := by
  refine .bind (.bind (.bind tidy2_last fun _ => tidy2_lift _) fun r => ?_) fun _ => .bind (tidy2_lift _) fun _ => ?_
  · cases r with
    | some b => exact .bind (tidy2_lift _) fun _ => tidy2_pure _
    | none =>
      refine .bind (tidy2_read _) fun g => .bind (.bind (tidy2_onNode _ (tidy_lookup (.byHash g))) fun _ => tidy2_lift _)
        fun r => ?_
      cases r with
      | none => exact tidy2_lift _
      | some b => exact tidy2_pure _
  · split
    · exact tidy2_lift _
    · exact .bind (tidy2_lift _) fun _ => .bind (tidy2_addBlock E _) fun _ => tidy2_pure _

theorem tidy2_call (E : Env) (k : Shared.Call) : Tidy2 (k.prog E) none := by
  cases k with
  | node k => exact tidy2_onNode _ (tidy_call E k)
  | addBlock b => exact .bind (tidy2_addBlock E _) fun _ => tidy2_pure _
  | flush => exact .bind tidy2_flush fun _ => tidy2_pure _
  | byHeight h => exact tidy2_findRawByHeight h
  | byHash h => exact tidy2_findRawByHash h
  | last => exact tidy2_last
  | emit pow founder ts => exact .bind (tidy2_emit E pow founder ts) fun _ => tidy2_pure _

/-- Each lock that is held is held by one thread. -/
def Owned2 (c : Config ι Shared α) : Prop :=
  ∃ mine : ι → Option Lock, (∀ i, Tidy2 (c.threads i) (mine i)) ∧
    (∀ k : Lock, k.held c.shared = true ↔ ∃ i, mine i = some k) ∧ ∀ i j k, mine i = some k → mine j = some k → i = j

theorem exec_owned2 [DecidableEq ι] {start c : Config ι Shared α} {log : List (Event ι Shared)} (h : Exec start log c)
    (hs : Owned2 start) : Owned2 c := by
  induction h with
  | refl => exact hs
  | @step log c i next rest s' _ hi hn ih =>
    obtain ⟨mine, h1, h2, h3⟩ := ih
    have ht := h1 i
    rw [hi] at ht
    have tidy : ∀ m, Tidy2 (rest c.shared) m → ∀ j, Tidy2 (Function.update c.threads i (rest c.shared) j)
        (Function.update mine i m j) := by
      intro m hm j
      by_cases hj : j = i
      · subst hj; simp only [Function.update_self]; exact hm
      · simp only [Function.update_of_ne hj]; exact h1 j
    cases hmi : mine i with
    | none =>
      rw [hmi] at ht
      rcases (ht c.shared).2 s' hn with ⟨e, ht⟩ | ⟨k, e1, e2, e3, ht⟩
      · have hm : Function.update mine i none = mine := by rw [← hmi]; exact Function.update_eq_self _ _
        refine ⟨mine, fun j => ?_, fun k => by rw [e k]; exact h2 k, h3⟩
        have := tidy none ht j
        rw [hm] at this
        exact this
      · have free : ∀ j, mine j ≠ some k := fun j hj => by
          have := (h2 k).mpr ⟨j, hj⟩
          rw [e1] at this
          cases this
        refine ⟨Function.update mine i (some k), tidy _ ht, fun l => ?_, fun a b l ha hb => ?_⟩
        · by_cases hl : l = k
          · subst hl
            exact ⟨fun _ => ⟨i, by simp⟩, fun _ => e2⟩
          · rw [e3 l hl, h2 l]
            refine ⟨fun ⟨j, hj⟩ => ⟨j, ?_⟩, fun ⟨j, hj⟩ => ⟨j, ?_⟩⟩
            · rw [Function.update_of_ne]
              · exact hj
              · rintro rfl; rw [hmi] at hj; cases hj
            · by_cases hji : j = i
              · subst hji
                rw [Function.update_self] at hj
                cases hj
                exact absurd rfl hl
              · rwa [Function.update_of_ne hji] at hj
        · by_cases ha' : a = i
          · by_cases hb' : b = i
            · rw [ha', hb']
            · subst ha'
              rw [Function.update_self] at ha
              cases ha
              rw [Function.update_of_ne hb'] at hb
              exact absurd hb (free b)
          · rw [Function.update_of_ne ha'] at ha
            by_cases hb' : b = i
            · subst hb'
              rw [Function.update_self] at hb
              cases hb
              exact absurd ha (free a)
            · rw [Function.update_of_ne hb'] at hb
              exact h3 a b l ha hb
    | some k =>
      rw [hmi] at ht
      obtain ⟨s1, e1, e2, ht⟩ := ht c.shared ((h2 k).mpr ⟨i, hmi⟩)
      rw [hn] at e1
      cases e1
      refine ⟨Function.update mine i (if k.held s' then some k else none), tidy _ ht, fun l => ?_, fun a b l ha hb => ?_⟩
      · by_cases hl : l = k
        · subst hl
          refine ⟨fun hh => ⟨i, by simp [hh]⟩, fun ⟨j, hj⟩ => ?_⟩
          by_cases hji : j = i
          · subst hji
            rw [Function.update_self] at hj
            split at hj
            · assumption
            · cases hj
          · rw [Function.update_of_ne hji] at hj
            exact absurd (h3 j i l hj hmi) hji
        · simp only [e2 l hl]
          rw [h2 l]
          refine ⟨fun ⟨j, hj⟩ => ⟨j, ?_⟩, fun ⟨j, hj⟩ => ⟨j, ?_⟩⟩
          · rw [Function.update_of_ne]
            · exact hj
            · rintro rfl; rw [hmi] at hj; cases hj; exact hl rfl
          · by_cases hji : j = i
            · subst hji
              rw [Function.update_self] at hj
              split at hj
              · cases hj; exact absurd rfl hl
              · cases hj
            · rwa [Function.update_of_ne hji] at hj
      · have own : ∀ {x}, Function.update mine i (if k.held s' then some k else none) x = some l → mine x = some l := by
          intro x hx
          by_cases hxi : x = i
          · subst hxi
            rw [Function.update_self] at hx
            split at hx
            · cases hx; exact hmi
            · cases hx
          · rwa [Function.update_of_ne hxi] at hx
        exact h3 a b l (own ha) (own hb)

/-- The thread has a next step and need not wait. -/
def CanStep2 (c : Config ι Shared α) (j : ι) : Prop :=
  ∃ next rest s', c.threads j = .step next rest ∧ next c.shared = some s'

theorem Owned2.progress {c : Config ι Shared α} (h : Owned2 c) (i : ι) (hi : ¬ hasEnded (c.threads i)) :
    ∃ j, CanStep2 c j := by
  obtain ⟨mine, h1, h2, h3⟩ := h
  have holder : ∀ k j, mine j = some k → CanStep2 c j := by
    intro k j hj
    have ht := h1 j
    rw [hj] at ht
    cases hp : c.threads j with
    | done o => rw [hp] at ht; cases ht
    | step next rest =>
      rw [hp] at ht
      obtain ⟨s', e, _⟩ := ht c.shared ((h2 k).mpr ⟨j, hj⟩)
      exact ⟨next, rest, s', hp, e⟩
  cases hm : mine i with
  | some k => exact ⟨i, holder k i hm⟩
  | none =>
    have ht := h1 i
    rw [hm] at ht
    cases hp : c.threads i with
    | done o => exact absurd ⟨o, hp⟩ hi
    | step next rest =>
      rw [hp] at ht
      cases hn : next c.shared with
      | some s' => exact ⟨i, next, rest, s', hp, hn⟩
      | none =>
        obtain ⟨k, hk⟩ := (ht c.shared).1 hn
        obtain ⟨j, hj⟩ := (h2 k).mp hk
        exact ⟨j, holder k j hj⟩

theorem owned2_start (E : Env) (n : Tree) (d : DerivativeChain) (call : ι → Shared.Call) :
    Owned2 (⟨⟨⟨n, false⟩, ⟨d, false⟩⟩, fun i => (call i).prog E⟩ : Config ι Shared (Option Bytes)) := by
  refine ⟨fun _ => none, fun i => tidy2_call E (call i), fun k => ⟨fun h => ?_, fun ⟨_, h⟩ => by cases h⟩,
    fun _ _ _ h => by cases h⟩
  cases k <;> cases h

/-- C121. Any number of threads make calls on the node and on a derivative chain. As long as some call has not ended,
some thread can go on. -/
theorem C121_no_deadlock [DecidableEq ι] (E : Env) (n : Tree) (d : DerivativeChain) (call : ι → Shared.Call)
    (log : List (Event ι Shared)) (c : Config ι Shared (Option Bytes))
    (h : Exec ⟨⟨⟨n, false⟩, ⟨d, false⟩⟩, fun i => (call i).prog E⟩ log c) (i : ι) (hi : ¬ hasEnded (c.threads i)) :
    ∃ j, CanStep2 c j := (exec_owned2 h (owned2_start E n d call)).progress i hi

/-- C121. Every schedule of finitely many threads ends, after at most 27 steps per thread; and whatever has happened
so far, all calls can end. -/
theorem C121_all_end [Fintype ι] [DecidableEq ι] (E : Env) (n : Tree) (d : DerivativeChain) (call : ι → Shared.Call)
    (log : List (Event ι Shared)) (c : Config ι Shared (Option Bytes))
    (h : Exec ⟨⟨⟨n, false⟩, ⟨d, false⟩⟩, fun i => (call i).prog E⟩ log c) :
    log.length ≤ 27 * Fintype.card ι ∧
    ∃ log' c', Exec ⟨⟨⟨n, false⟩, ⟨d, false⟩⟩, fun i => (call i).prog E⟩ (log ++ log') c' ∧
      ∀ i, hasEnded (c'.threads i) := by
  have hlen : ∀ {log : List (Event ι Shared)} {c}, Exec ⟨⟨⟨n, false⟩, ⟨d, false⟩⟩, fun i => (call i).prog E⟩ log c →
      log.length ≤ 27 * Fintype.card ι := by
    intro log c h
    rw [length_eq_sum log, Nat.mul_comm]
    exact Finset.sum_le_card_nsmul _ _ _ fun i _ => (exec_within h (fun i => within_dcall E (call i)) i).1
  refine ⟨hlen h, ?_⟩
  obtain ⟨m, hm⟩ : ∃ m, m = 27 * Fintype.card ι - log.length := ⟨_, rfl⟩
  induction m using Nat.strong_induction_on generalizing log c with
  | _ m ih =>
    by_cases hall : ∀ i, hasEnded (c.threads i)
    · exact ⟨[], c, by simpa using h, hall⟩
    · obtain ⟨i, hi⟩ := not_forall.mp hall
      obtain ⟨j, next, rest, s', hj, hn⟩ := C121_no_deadlock E n d call log c h i hi
      have h' := Exec.step j h hj hn
      have hl := hlen h'
      rw [List.length_append, List.length_singleton] at hl
      obtain ⟨log', c', hc', hend⟩ := ih _ (by rw [List.length_append, List.length_singleton]; omega) _ _ h' rfl
      exact ⟨_, c', by rw [List.append_assoc] at hc'; exact hc', hend⟩

/-- C121. When all calls have ended, also by errors and panics, both locks are free. -/
theorem C121_locks_released [DecidableEq ι] (E : Env) (n : Tree) (d : DerivativeChain) (call : ι → Shared.Call)
    (log : List (Event ι Shared)) (c : Config ι Shared (Option Bytes))
    (h : Exec ⟨⟨⟨n, false⟩, ⟨d, false⟩⟩, fun i => (call i).prog E⟩ log c) (hall : ∀ i, hasEnded (c.threads i)) :
    c.shared.node.held = false ∧ c.shared.deriv.held = false := by
  obtain ⟨mine, h1, h2, _⟩ := exec_owned2 h (owned2_start E n d call)
  have free : ∀ k : Lock, k.held c.shared = false := by
    intro k
    cases hk : k.held c.shared with
    | false => rfl
    | true =>
      obtain ⟨i, hi⟩ := (h2 k).mp hk
      obtain ⟨o, ho⟩ := hall i
      have := h1 i
      rw [ho, hi] at this
      cases this
  exact ⟨free .main, free .deriv⟩

/-- Waiting does occur: a thread emitting a derivative block waits for one that is inside `add_block` of the same chain. -/
example (E : Env) (n : Tree) (d : DerivativeChain) (b : DerivativeBlock) (pow : BytesN 32) (f : Address) (ts : UInt64) :
    ∃ log c, Exec ⟨⟨⟨n, false⟩, ⟨d, false⟩⟩, fun i : Bool =>
        (if i then Shared.Call.addBlock b else .emit pow f ts).prog E⟩ log c ∧
      ¬ CanStep2 c false ∧ ¬ hasEnded (c.threads false) ∧ CanStep2 c true := by
  have h := Exec.step (start := ⟨⟨⟨n, false⟩, ⟨d, false⟩⟩, fun i : Bool =>
    (if i then Shared.Call.addBlock b else .emit pow f ts).prog E⟩) true .refl rfl
    (s' := ⟨⟨n, false⟩, ⟨d, true⟩⟩) rfl
  refine ⟨_, _, h, ?_, ?_, ?_⟩
  · rintro ⟨next, rest, s', h1, h2⟩
    have h1' : (Shared.Call.emit pow f ts).prog E = .step next rest := h1
    cases h1'
    cases h2
  · rintro ⟨o, ho⟩
    have ho' : (Shared.Call.emit pow f ts).prog E = .done o := ho
    cases ho'
  · exact ⟨_, _, _, rfl, rfl⟩

end BCT.Props
