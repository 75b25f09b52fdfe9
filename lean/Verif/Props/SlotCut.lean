import Verif.Lemmas.FaultsDeriv
import Verif.Props.Slot
import Verif.Props.ThreadsCut
/-!
# Threads whose calls are cut short and a chain behind a lock, wherever in the shared state it is

The invariant of C146 (`Props/ThreadsCut.lean`) for any place of the chain.
-/

namespace BCT.Slot
open BCT.Props

variable {σ α β ι : Type} (L : Slot σ)

/-- How a program changes the chain; `some c` says that its thread holds the lock and has left the chain as `c`, `past` what
its steps with the lock have left. Without the lock it leaves chain and lock alone or takes the lock when it is free. With
the lock it changes the chain as `add_block` of a block as `P` says does. It does not end with the lock; when it returns
something, that and the past are as `Q` says. -/
def Mindful (E : Env) (P : Block → Prop) (Q : α → List Chain → Prop) : Prog σ α → Option Chain → List Chain → Prop
  | .done o, m, past => m = none ∧ ∀ a, o = .ok a → Q a past
  | .step next rest, none, past => ∀ n n' : σ, next n = some n' → (L.Quiet n n' ∧ Mindful E P Q (rest n) none past) ∨
      ((L.get n).held = false ∧ (L.get n').held = true ∧ Chain.Same (L.get n).data (L.get n').data ∧
        Mindful E P Q (rest n) (some (L.get n').data) past)
  | .step next rest, some c, past => ∀ n n' : σ, (L.get n).held = true → Chain.Same c (L.get n).data → next n = some n' →
      Chain.StepOf E P (L.get n).data (L.get n').data ∧
      (((L.get n').held = true ∧ Mindful E P Q (rest n) (some (L.get n').data) ((L.get n').data :: past)) ∨
       ((L.get n').held = false ∧ Mindful E P Q (rest n) none ((L.get n').data :: past)))

variable {L} {E : Env} {P : Block → Prop}

theorem Mindful.bind {Q : α → List Chain → Prop} {Q' : β → List Chain → Prop} {p : Prog σ α}
    {f : α → Prog σ β} : ∀ {m past}, L.Mindful E P Q p m past → (∀ a past', Q a past' → L.Mindful E P Q' (f a) none past') →
    L.Mindful E P Q' (p >>= f) m past := by
  induction p with
  | done o =>
    intro m past h hf
    obtain ⟨rfl, h⟩ := h
    cases o with
    | ok a => exact hf a past (h a rfl)
    | _ => exact ⟨rfl, fun _ e => by cases e⟩
  | step next rest ih =>
    intro m past h hf
    cases m with
    | none =>
      intro n n' hn
      rcases h n n' hn with ⟨h1, h2⟩ | ⟨h1, h2, h3, h4⟩
      · exact .inl ⟨h1, ih n h2 hf⟩
      · exact .inr ⟨h1, h2, h3, ih n h4 hf⟩
    | some c =>
      intro n n' hh hc hn
      obtain ⟨h1, h2⟩ := h n n' hh hc hn
      exact ⟨h1, h2.imp (fun h => ⟨h.1, ih n h.2 hf⟩) (fun h => ⟨h.1, ih n h.2 hf⟩)⟩

theorem Mindful.mono {Q Q' : α → List Chain → Prop} (hQ : ∀ a l, Q a l → Q' a l) {p : Prog σ α} {m past}
    (h : L.Mindful E P Q p m past) : L.Mindful E P Q' p m past := by
  have e : p = p >>= fun a => (pure a : Prog σ α) := by
    change p = Prog.bind p _
    clear h
    induction p with
    | done o => cases o <;> rfl
    | step next rest ih => simp only [Prog.bind]; congr 1; funext s; exact ih s
  rw [e]
  exact h.bind fun a past h => ⟨rfl, fun a' e => by cases e; exact hQ _ _ h⟩

/-- The block was stored and counted. -/
def Took (b : Block) (_ : α) (past : List Chain) : Prop :=
  ∃ c ∈ past, c.height.val = b.info.height.val + 1 ∧ c.blocks.get b.info.height.toBE.val = some b.dump

/-- Nothing is said of what is returned. -/
def anyEnd (_ : α) (_ : List Chain) : Prop := True

/-- A step of the holder that gives the lock back and ends. -/
theorem mindful_unlock {Q : α → List Chain → Prop} {o : Outcome α} {c : Chain} {past : List Chain}
    (hq : ∀ c' a, Chain.Same c c' → o = .ok a → Q a (c' :: past)) :
    L.Mindful E P Q (L.unlock >>= fun _ => .done o) (some c) past := by
  intro n n' _ hs hn
  cases hn
  rw [L.get_set]
  exact ⟨Chain.stepOf_same (same_refl _), .inr ⟨rfl, rfl, fun a e => hq _ a hs e⟩⟩

/-- A step of the holder that writes. -/
theorem mindful_write {Q : α → List Chain → Prop} {f : Chain → Chain} {g : Unit → Prog σ α} {c : Chain} {past : List Chain}
    (h1 : ∀ c', Chain.Same c c' → Chain.StepOf E P c' (f c'))
    (h2 : ∀ c', Chain.Same c c' → L.Mindful E P Q (g ()) (some (f c')) (f c' :: past)) :
    L.Mindful E P Q (L.write f >>= g) (some c) past := by
  intro n n' hh hs hn
  cases hn
  rw [L.get_set]
  exact ⟨h1 _ hs, .inl ⟨hh, h2 _ hs⟩⟩

theorem get_same {d d' : Db} (h : d'.cur = d.cur) (k : Bytes) : d'.get k = d.get k := by unfold Db.get; rw [h]

theorem mindful_addBlock (E : Env) {P : Block → Prop} (b : Block) (p : P b) (past : List Chain) :
    L.Mindful E P (Took b) (L.addBlock E b) none past := by
  intro n n' hn
  simp only [Option.ite_none_left_eq_some] at hn
  obtain ⟨h1, h2⟩ := hn
  cases h2
  rw [L.get_set]
  refine .inr ⟨by simpa using h1, rfl, same_refl _, ?_⟩
  intro n1 n1' hh1 _ hn1
  cases hn1
  refine ⟨Chain.stepOf_same (same_refl _), .inl ⟨hh1, ?_⟩⟩
  change L.Mindful E P _ (L.afterRead E b (L.get n1).data.height) _ _
  generalize (L.get n1).data = c0
  unfold afterRead
  split
  · exact mindful_unlock fun _ _ _ e => by cases e
  · rename_i hb
    have hb : b.info.height = c0.height := not_not.mp hb
    refine mindful_write (fun c hs => ?_) (fun c hs => ?_)
    · refine ⟨.block b (hb.trans hs.2.2.symm) (fun q => ?_) rfl rfl, fun e => absurd rfl e⟩
      change (c.blocks.insert c0.height.toBE.val b.dump).get q = _
      rw [Db.get_insert, hs.2.2]
    · have k1 : (storeBlock b c0.height c).height = c0.height := hs.2.2
      have k2 : (storeBlock b c0.height c).blocks.get c0.height.toBE.val = some b.dump := by
        change ((c.blocks.insert _ _).get _) = _
        rw [Db.get_insert, if_pos rfl]
      generalize storeBlock b c0.height c = c1 at k1 k2 ⊢
      refine mindful_write (fun d hd => ?_) (fun d hd => ?_)
      · obtain ⟨f1, f2, f3⟩ := hd
        have g1 : d.height = c0.height := f3.trans k1
        refine ⟨.ref b (hb.trans g1.symm) (by rw [g1, get_same f1]; exact k2) rfl (fun q => ?_) rfl, fun e => absurd rfl e⟩
        change ((d.heightReference.insert _ _).get q) = _
        rw [Db.get_insert, g1]
        rfl
      · obtain ⟨f1, f2, f3⟩ := hd
        have j1 : (storeRef E b c0.height d).height = c0.height := f3.trans k1
        have j2 : (storeRef E b c0.height d).blocks.get c0.height.toBE.val = some b.dump := (get_same f1 _).trans k2
        have j3 : (storeRef E b c0.height d).heightReference.get (b.hash E).val = some c0.height.toBE.val := by
          change ((d.heightReference.insert _ _).get _) = _
          rw [Db.get_insert]
          exact if_pos rfl
        generalize storeRef E b c0.height d = c2 at j1 j2 j3 ⊢
        unfold afterRef
        cases ha : c0.height.add U256.one with
        | ok h' =>
          have hh' : h'.val = c0.height.val + 1 := by
            unfold U256.add at ha
            split at ha
            · cases ha; rfl
            · cases ha
          refine mindful_write (fun x hx => ?_) (fun x hx => ?_)
          · obtain ⟨w1, w2, w3⟩ := hx
            have q1 : x.height = c0.height := w3.trans j1
            refine ⟨.height b (hb.trans q1.symm) ?_ ?_ rfl rfl ?_, fun _ => ⟨b, p, hb.trans q1.symm, ?_⟩⟩
            · rw [q1, get_same w1]; exact j2
            · rw [q1, get_same w2]; exact j3
            · rw [q1]; exact hh'
            · rw [q1, get_same w1]; exact j2
          · refine mindful_unlock (o := .ok ()) fun y _ hy _ => ⟨_, .tail _ (.head _), ?_, ?_⟩
            · rw [hb]; exact hh'
            · rw [hb]
              exact (get_same hx.1 _).trans j2
        | err e => exact mindful_unlock fun _ _ _ e => by cases e
        | panic e => exact mindful_unlock fun _ _ _ e => by cases e
        | ub => exact mindful_unlock fun _ _ _ e => by cases e

/-- Programs that change the chain only by whole `add_block` calls are such programs. -/
theorem Adds.mindful {p : Prog σ α} (h : L.Adds E P p) : ∀ past, L.Mindful E P anyEnd p none past := by
  induction h with
  | done o => exact fun _ => ⟨rfl, fun _ _ => trivial⟩
  | quiet hq _ ih => exact fun past n n' hn => .inl ⟨hq n n' hn, ih n past⟩
  | add b hb _ ih => exact fun past => (mindful_addBlock E b hb past).bind fun a past' _ => ih a past'

/-- The chain is no lower, no block below its height changed. -/
def _root_.BCT.Chain.Above (a b : Chain) : Prop :=
  a.height.val ≤ b.height.val ∧ ∀ q : U256, q.val < a.height.val → b.blocks.get q.toBE.val = a.blocks.get q.toBE.val

theorem above_refl (a : Chain) : a.Above a := ⟨Nat.le_refl _, fun _ _ => rfl⟩

theorem above_trans {a b c : Chain} (h1 : a.Above b) (h2 : b.Above c) : a.Above c :=
  ⟨Nat.le_trans h1.1 h2.1, fun q hq => (h2.2 q (Nat.lt_of_lt_of_le hq h1.1)).trans (h1.2 q hq)⟩

theorem above_step {E : Env} {P : Block → Prop} {a b : Chain} (h : Chain.StepOf E P a b) : a.Above b := step_low h.1

/-- The thread keeps to this, and what it has left behind since `base` has stayed. -/
def Keeping (L : Slot σ) (E : Env) (P : Block → Prop) (Q : α → List Chain → Prop) (base now : Chain) (p : Prog σ α)
    (m : Option Chain) : Prop :=
  ∃ past, (∀ x ∈ past, base.Above x ∧ x.Above now) ∧ L.Mindful E P Q p m past

theorem Keeping.later {Q : α → List Chain → Prop} {base a b : Chain} {p : Prog σ α} {m : Option Chain}
    (h : L.Keeping E P Q base a p m) (hs : Chain.StepOf E P a b) : L.Keeping E P Q base b p m := by
  obtain ⟨past, h1, h2⟩ := h
  exact ⟨past, fun x hx => ⟨(h1 x hx).1, above_trans (h1 x hx).2 (above_step hs)⟩, h2⟩

/-- One thread at most holds the lock, and it knows the chain. -/
def Guarded (L : Slot σ) (E : Env) (P : Block → Prop) (Q : ι → α → List Chain → Prop) (base : Chain) (c : Config ι σ α) : Prop :=
  base.Above (L.get c.shared).data ∧
  (((L.get c.shared).held = false ∧ ∀ i, L.Keeping E P (Q i) base (L.get c.shared).data (c.threads i) none) ∨
  ((L.get c.shared).held = true ∧ ∃ k x, Chain.Same x (L.get c.shared).data ∧
    L.Keeping E P (Q k) base (L.get c.shared).data (c.threads k) (some x) ∧
    ∀ i, i ≠ k → L.Keeping E P (Q i) base (L.get c.shared).data (c.threads i) none))

/-- Every step ever taken changes the chain as a step of `add_block` does. -/
theorem exec_guarded [DecidableEq ι] {Q : ι → α → List Chain → Prop} {base : Chain} {start c : Config ι σ α}
    {log : List (Event ι σ)} (h : Exec start log c) (hs : L.Guarded E P Q base start) :
    L.Guarded E P Q base c ∧ ∀ e ∈ log, Chain.StepOf E P (L.get e.before).data (L.get e.after).data := by
  induction h with
  | refl => exact ⟨hs, by simp⟩
  | @step log c i next rest s' _ hi hn ih =>
    obtain ⟨ih, hl⟩ := ih
    suffices hnew : Chain.StepOf E P (L.get c.shared).data (L.get s').data ∧
        (base.Above (L.get s').data → L.Guarded E P Q base ⟨s', Function.update c.threads i (rest c.shared)⟩) by
      refine ⟨hnew.2 (above_trans ih.1 (above_step hnew.1)), fun e he => ?_⟩
      rcases List.mem_append.mp he with he | he
      · exact hl e he
      · rw [List.mem_singleton.mp he]; exact hnew.1
    obtain ⟨-, ih⟩ := ih
    rcases ih with ⟨h1, h2⟩ | ⟨h1, k, x, hx, ⟨past, hpast, h2⟩, h3⟩
    · obtain ⟨past, hpast, ht⟩ := h2 i
      rw [hi] at ht
      have others : Chain.StepOf E P (L.get c.shared).data (L.get s').data → ∀ j, j ≠ i →
          L.Keeping E P (Q j) base (L.get s').data (Function.update c.threads i (rest c.shared) j) none := fun hs j hj => by
        rw [Function.update_of_ne hj]; exact (h2 j).later hs
      rcases ht c.shared s' hn with ⟨hq, ht⟩ | ⟨_, e, hq, ht⟩
      · have hs : Chain.StepOf E P (L.get c.shared).data (L.get s').data := Chain.stepOf_same hq.1
        refine ⟨hs, fun hbase => ⟨hbase, .inl ⟨hq.2.trans h1, fun j => ?_⟩⟩⟩
        by_cases hj : j = i
        · subst hj; simp only [Function.update_self]; exact Keeping.later ⟨past, hpast, ht⟩ hs
        · exact others hs j hj
      · have hs : Chain.StepOf E P (L.get c.shared).data (L.get s').data := Chain.stepOf_same hq
        exact ⟨hs, fun hbase => ⟨hbase, .inr ⟨e, i, _, same_refl _, by simp only [Function.update_self]; exact Keeping.later ⟨past, hpast, ht⟩ hs,
          others hs⟩⟩⟩
    · by_cases hik : i = k
      · subst hik
        rw [hi] at h2
        obtain ⟨hst, h2⟩ := h2 c.shared s' h1 hx hn
        have others : ∀ j, j ≠ i →
            L.Keeping E P (Q j) base (L.get s').data (Function.update c.threads i (rest c.shared) j) none := fun j hj => by
          rw [Function.update_of_ne hj]; exact (h3 j hj).later hst
        refine ⟨hst, fun hbase => ?_⟩
        have hnew : ∀ x ∈ (L.get s').data :: past, base.Above x ∧ x.Above (L.get s').data := fun x hx => by
          rcases List.mem_cons.mp hx with rfl | hx
          · exact ⟨hbase, above_refl _⟩
          · exact ⟨(hpast x hx).1, above_trans (hpast x hx).2 (above_step hst)⟩
        rcases h2 with ⟨e, ht⟩ | ⟨e, ht⟩
        · exact ⟨hbase, .inr ⟨e, i, _, same_refl _, by simp only [Function.update_self]; exact ⟨_, hnew, ht⟩, others⟩⟩
        · refine ⟨hbase, .inl ⟨e, fun j => ?_⟩⟩
          by_cases hj : j = i
          · subst hj; simp only [Function.update_self]; exact ⟨_, hnew, ht⟩
          · exact others j hj
      · obtain ⟨past', hpast', ht⟩ := h3 i hik
        rw [hi] at ht
        rcases ht c.shared s' hn with ⟨hq, ht⟩ | ⟨e, _⟩
        · have hs : Chain.StepOf E P (L.get c.shared).data (L.get s').data := Chain.stepOf_same hq.1
          refine ⟨hs, fun hbase => ⟨hbase, .inr ⟨hq.2.trans h1, k, x, Chain.same_preord.trans hx hq.1, ?_, fun j hj => ?_⟩⟩⟩
          · simp only [Function.update_of_ne (Ne.symm hik)]; exact Keeping.later ⟨past, hpast, h2⟩ hs
          · by_cases hji : j = i
            · subst hji; simp only [Function.update_self]; exact Keeping.later ⟨past', hpast', ht⟩ hs
            · simp only [Function.update_of_ne hji]; exact (h3 j hj).later hs
        · rw [h1] at e; cases e

/-- Where the thread's own past is known at its end. -/
theorem Guarded.ended {Q : ι → α → List Chain → Prop} {base : Chain} {c : Config ι σ α}
    (h : L.Guarded E P Q base c) {i : ι} {a : α} (ho : c.threads i = .done (.ok a)) :
    ∃ past, (∀ x ∈ past, base.Above x ∧ x.Above (L.get c.shared).data) ∧ Q i a past := by
  have hend : ∃ m, L.Keeping E P (Q i) base (L.get c.shared).data (.done (.ok a)) m := by
    rcases h.2 with ⟨_, hg⟩ | ⟨_, k, x, _, hg, hg'⟩
    · have := hg i
      rw [ho] at this
      exact ⟨_, this⟩
    · by_cases hik : i = k
      · subst hik
        rw [ho] at hg
        exact ⟨_, hg⟩
      · have := hg' i hik
        rw [ho] at this
        exact ⟨_, this⟩
  obtain ⟨m, past, hpast, -, hq⟩ := hend
  exact ⟨past, hpast, hq a rfl⟩

end BCT.Slot
