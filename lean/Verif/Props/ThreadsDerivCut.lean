import Verif.Model.ThreadsDerivCut
import Verif.Props.SlotCut
import Verif.Props.ThreadsCut
import Verif.Props.ThreadsDerivLive
/-!
# C148: derivative chains and calls cut short (chain.rs, blockchaintree.rs)
-/

namespace BCT.Props
open BCT Shared

variable {ι α β : Type}

/-! ## Cutting short keeps the discipline of the locks -/

/-- Which of the locks held says what of the lock of the slot. -/
structure Selects (L : Slot Shared) (sel : Bool × Bool → Bool) : Prop where
  holds : ∀ mine s s', sel (Shared.holds mine s (some s')) = holdsAfter (sel mine) (L.get s).held (L.get s').held
  release : ∀ mine s, L.get (release mine s) = ⟨(L.get s).data, if sel mine then false else (L.get s).held⟩
  either : ∀ mine, sel mine = true → (mine.1 || mine.2) = true

theorem selects_main : Selects mainSlot Prod.fst := ⟨fun _ _ _ => rfl, fun _ _ => rfl, fun _ h => by simp [h]⟩
theorem selects_deriv : Selects derivSlot Prod.snd := ⟨fun _ _ _ => rfl, fun _ _ => rfl, fun _ h => by simp [h]⟩

theorem Selects.mindful_cut {L : Slot Shared} {sel : Bool × Bool → Bool} (hs : Selects L sel) {E : Env} {P : Block → Prop}
    {o : Outcome α} {p : Prog Shared α} : ∀ {m : Option Chain} {past : List Chain} (k : Nat) (mine : Bool × Bool),
    sel mine = m.isSome → L.Mindful E P Slot.anyEnd p m past → L.Mindful E P Slot.anyEnd (Shared.cut o k mine p) m past := by
  induction p with
  | done r =>
    intro m past k mine _ h
    unfold Shared.cut
    exact h
  | step next rest ih =>
    intro m past k mine hm h
    cases k with
    | zero =>
      unfold Shared.cut
      cases m with
      | none =>
        split
        · intro n n' hn
          cases hn
          refine .inl ⟨?_, rfl, fun _ _ => trivial⟩
          unfold Slot.Quiet
          rw [hs.release, hm]
          exact ⟨same_refl _, rfl⟩
        · exact ⟨rfl, fun _ _ => trivial⟩
      | some c =>
        rw [if_pos (hs.either _ hm)]
        intro n n' _ _ hn
        cases hn
        rw [hs.release, hm]
        exact ⟨Chain.stepOf_same (same_refl _), .inr ⟨rfl, rfl, fun _ _ => trivial⟩⟩
    | succ k =>
      cases m with
      | none =>
        intro n n' hn
        have e : sel (Shared.holds mine n (next n)) = (!(L.get n).held && (L.get n').held) := by
          rw [hn, hs.holds, hm]; rfl
        rcases h n n' hn with ⟨h1, h2⟩ | ⟨h1, h2, h3, h4⟩
        · exact .inl ⟨h1, ih n k _ (by rw [e, h1.2]; cases (L.get n).held <;> rfl) h2⟩
        · exact .inr ⟨h1, h2, h3, ih n (m := some _) k _ (by rw [e, h1, h2]; rfl) h4⟩
      | some c =>
        intro n n' hh hc hn
        have e : sel (Shared.holds mine n (next n)) = (L.get n').held := by rw [hn, hs.holds, hm]; rfl
        obtain ⟨h1, h2⟩ := h n n' hh hc hn
        refine ⟨h1, ?_⟩
        rcases h2 with ⟨h2, h3⟩ | ⟨h2, h3⟩
        · exact .inl ⟨h2, ih n (m := some _) k _ (by rw [e, h2]; rfl) h3⟩
        · exact .inr ⟨h2, ih n (m := none) k _ (by rw [e, h2]; rfl) h3⟩

/-- The lock held, as the two flags. -/
def lockFlags : Option Lock → Bool × Bool
  | none => (false, false)
  | some .main => (true, false)
  | some .deriv => (false, true)

theorem flags_quiet {s s' : Shared} (h : ∀ k : Lock, k.held s' = k.held s) :
    Shared.holds (lockFlags none) s (some s') = lockFlags none := by
  have h1 : s'.node.held = s.node.held := h .main
  have h2 : s'.deriv.held = s.deriv.held := h .deriv
  simp only [Shared.holds]
  rw [h1, h2]
  cases s.node.held <;> cases s.deriv.held <;> rfl

theorem flags_take {s s' : Shared} {k : Lock} (h1 : k.held s = false) (h2 : k.held s' = true)
    (h3 : ∀ j, j ≠ k → j.held s' = j.held s) : Shared.holds (lockFlags none) s (some s') = lockFlags (some k) := by
  cases k with
  | main =>
    have e1 : s.node.held = false := h1
    have e2 : s'.node.held = true := h2
    have e3 : s'.deriv.held = s.deriv.held := h3 .deriv (by decide)
    simp only [Shared.holds]
    rw [e1, e2, e3]
    cases s.deriv.held <;> rfl
  | deriv =>
    have e1 : s.deriv.held = false := h1
    have e2 : s'.deriv.held = true := h2
    have e3 : s'.node.held = s.node.held := h3 .main (by decide)
    simp only [Shared.holds]
    rw [e1, e2, e3]
    cases s.node.held <;> rfl

theorem flags_keep {s s' : Shared} {k : Lock} (h3 : ∀ j, j ≠ k → j.held s' = j.held s) :
    Shared.holds (lockFlags (some k)) s (some s') = lockFlags (if k.held s' then some k else none) := by
  cases k with
  | main =>
    have e3 : s'.deriv.held = s.deriv.held := h3 .deriv (by decide)
    change (_, _) = lockFlags (if s'.node.held then _ else _)
    rw [e3]
    cases s'.node.held <;> cases s.deriv.held <;> rfl
  | deriv =>
    have e3 : s'.node.held = s.node.held := h3 .main (by decide)
    change (_, _) = lockFlags (if s'.deriv.held then _ else _)
    rw [e3]
    cases s'.deriv.held <;> cases s.node.held <;> rfl

theorem Tidy2.cut {o : Outcome α} {p : Prog Shared α} : ∀ {mine : Option Lock} (k : Nat), Tidy2 p mine →
    Tidy2 (Shared.cut o k (lockFlags mine) p) mine := by
  induction p with
  | done r =>
    intro mine k h
    unfold Shared.cut
    exact h
  | step next rest ih =>
    intro mine k h
    cases k with
    | zero =>
      cases mine with
      | none => rfl
      | some l =>
        cases l with
        | main =>
          intro s _
          refine ⟨_, rfl, fun j hj => ?_, rfl⟩
          cases j with
          | main => exact absurd rfl hj
          | deriv => rfl
        | deriv =>
          intro s _
          refine ⟨_, rfl, fun j hj => ?_, rfl⟩
          cases j with
          | main => rfl
          | deriv => exact absurd rfl hj
    | succ k =>
      cases mine with
      | none =>
        refine fun s => ⟨(h s).1, fun s' hn => ?_⟩
        rcases (h s).2 s' hn with ⟨h1, h2⟩ | ⟨l, h1, h2, h3, h4⟩
        · refine .inl ⟨h1, ?_⟩
          change Tidy2 (Shared.cut o k (Shared.holds _ s (next s)) (rest s)) _
          rw [hn, flags_quiet h1]
          exact ih s k h2
        · refine .inr ⟨l, h1, h2, h3, ?_⟩
          change Tidy2 (Shared.cut o k (Shared.holds _ s (next s)) (rest s)) _
          rw [hn, flags_take h1 h2 h3]
          exact ih s k h4
      | some l =>
        intro s hh
        obtain ⟨s', hn, h2, h3⟩ := h s hh
        refine ⟨s', hn, h2, ?_⟩
        change Tidy2 (Shared.cut o k (Shared.holds _ s (next s)) (rest s)) _
        rw [hn, flags_keep h2]
        exact ih s k h3

theorem guar_dcut {R : Shared → Shared → Prop} (hR : ∀ m s, R s (release m s)) {o : Outcome α}
    {p : Prog Shared α} : ∀ (mine : Bool × Bool) (k : Nat), p.Guar R → (Shared.cut o k mine p).Guar R := by
  induction p with
  | done r => intro mine k _; unfold Shared.cut; trivial
  | step next rest ih =>
    intro mine k h
    cases k with
    | zero =>
      unfold Shared.cut
      split
      · exact fun n n' hn => by cases hn; exact ⟨hR _ n, trivial⟩
      · trivial
    | succ k => exact fun n n' hn => ⟨(h n n' hn).1, ih n _ k (h n n' hn).2⟩

theorem within_dcut {o : Outcome α} {p : Prog Shared α} : ∀ {m : Nat} (mine : Bool × Bool) (k : Nat), Within p m →
    Within (Shared.cut o k mine p) (m + 1) := by
  induction p with
  | done r => intro m mine k _; unfold Shared.cut; trivial
  | step next rest ih =>
    intro m mine k h
    cases m with
    | zero => exact h.elim
    | succ m =>
      cases k with
      | zero =>
        unfold Shared.cut
        split
        · exact fun _ => trivial
        · trivial
      | succ k => exact fun s => ih s _ k (h s)

/-! ## All schedules -/

/-- Threads that make the calls on the node and on the derivative chain of `o`; those given a `stop` are cut short after so
many steps, with that result. -/
def dcutStart (E : Env) (s : Tree) (o : Address) (call : ι → Shared.Call) (stop : ι → Option (Nat × Outcome (Option Bytes))) :
    Config ι Shared (Option Bytes) :=
  ⟨⟨⟨s, false⟩, ⟨s.handle o, false⟩⟩, fun i => Shared.mayCut (stop i) ((call i).prog E)⟩

section
variable [DecidableEq ι] {E : Env} {s : Tree} {o : Address} {call : ι → Shared.Call}
  {stop : ι → Option (Nat × Outcome (Option Bytes))} {log : List (Event ι Shared)} {c : Config ι Shared (Option Bytes)}

omit [DecidableEq ι] in
theorem dcut_sat {P : Prog Shared (Option Bytes) → Prop} (h : ∀ i, P ((call i).prog E))
    (hc : ∀ k r i, P (Shared.cut r k (false, false) ((call i).prog E))) (i : ι) :
    P ((dcutStart E s o call stop).threads i) := by
  change P (Shared.mayCut (stop i) _)
  cases stop i with
  | none => exact h i
  | some x => exact hc _ _ i

theorem dcut_owned (h : Exec (dcutStart E s o call stop) log c) : Owned2 c := by
  refine exec_owned2 h ⟨fun _ => none, dcut_sat (P := fun p => Tidy2 p none) (fun i => tidy2_call E (call i))
    (fun k _ i => Tidy2.cut (mine := none) k (tidy2_call E (call i))), fun k => ⟨fun h => ?_, fun ⟨_, h⟩ => by cases h⟩,
    fun _ _ _ h => by cases h⟩
  cases k <;> cases h

omit [DecidableEq ι] in
theorem dcut_start {L : Slot Shared} {sel : Bool × Bool → Bool} (hs : Selects L sel) {P : Block → Prop}
    (h0 : sel (false, false) = false) (hf : (L.get (dcutStart E s o call stop).shared).held = false)
    (ha : ∀ k : Shared.Call, L.Adds E P (k.prog E)) :
    L.Guarded E P (fun _ => Slot.anyEnd) (L.get (dcutStart E s o call stop).shared).data (dcutStart E s o call stop) := by
  refine ⟨Slot.above_refl _, .inl ⟨hf, ?_⟩⟩
  exact dcut_sat (P := fun p => L.Keeping E P Slot.anyEnd _ _ p none)
    (fun i => ⟨[], by simp, (ha (call i)).mindful []⟩)
    (fun k _ i => ⟨[], by simp, hs.mindful_cut k _ h0 ((ha (call i)).mindful [])⟩)

/-- Every step ever taken changes the derivative chain as a step of `add_block` does. -/
theorem dcut_steps (h : Exec (dcutStart E s o call stop) log c) :
    ∀ e ∈ log, Chain.StepOf E IsDeriv e.before.deriv.data.chain e.after.deriv.data.chain :=
  (Slot.exec_guarded h (dcut_start selects_deriv rfl rfl (deriv_call E))).2

/-- And so of the main chain. -/
theorem dcut_main (h : Exec (dcutStart E s o call stop) log c) :
    ∀ e ∈ log, Chain.StepOf E (fun _ => True) e.before.node.data.main.chain e.after.node.data.main.chain :=
  (Slot.exec_guarded h (dcut_start selects_main rfl rfl (main_call E))).2

theorem dcut_anchor (h : Exec (dcutStart E s o call stop) log c) : ∀ e ∈ log, SameAnchor e.before e.after :=
  (h.guar (R := fun _ => SameAnchor) (dcut_sat (P := fun p => p.Guar SameAnchor) (fun i => anchor_call E (call i))
    (fun k _ i => guar_dcut (fun _ _ => rfl) _ k (anchor_call E (call i))))).1

end

/-! ## C148 -/

/-- A derivative chain as it should be: the blocks below its height are derivative blocks of their heights, above there is
nothing, the last block is the one below the height, and looking up a hash does not fail. -/
def DerivIntact (d : DerivativeChain) : Prop :=
  (∀ q : U256, q.val < d.chain.height.val → ∃ b : DerivativeBlock, d.chain.findRawByHeight q = some b.dump ∧
    d.findByHeight q = .ok (some b) ∧ b.defaultInfo.height = q) ∧
  (∀ q : U256, d.chain.height.val < q.val → d.findByHeight q = .ok none) ∧
  (d.chain.height.val = 0 → d.getLastBlock = .ok none) ∧
  (0 < d.chain.height.val → ∃ b : DerivativeBlock, d.getLastBlock = .ok (some b) ∧
    b.defaultInfo.height.val + 1 = d.chain.height.val) ∧
  ∀ x : Hash, ∃ r, d.chain.findRawByHash x = .ok r

theorem derivIntact_of_keeps {d : DerivativeChain} {bs : List Block} (h : d.chain.KeepsOf IsDeriv bs) : DerivIntact d := by
  have hlow : ∀ q : U256, q.val < d.chain.height.val → ∃ b : DerivativeBlock, d.chain.findRawByHeight q = some b.dump ∧
      d.findByHeight q = .ok (some b) ∧ b.defaultInfo.height = q := by
    intro q hq
    have hlen : q.val < bs.length := by rw [h.keeps.len]; exact hq
    obtain ⟨b, hb⟩ := h.all _ (List.getElem_mem hlen)
    have h1 := Keeps.findRaw h.keeps q hq
    have h2 := h.keeps.heights q.val hlen
    rw [hb] at h1 h2
    refine ⟨b, h1, ?_, U256.ext h2⟩
    unfold DerivativeChain.findByHeight
    rw [h1]
    exact decode_deriv b
  refine ⟨hlow, fun q hq => ?_, fun h0 => ?_, fun hpos => ?_, fun x => ?_⟩
  · unfold DerivativeChain.findByHeight Chain.findRawByHeight
    rw [if_pos hq]
    rfl
  · unfold DerivativeChain.getLastBlock DerivativeChain.getLastRawBlock
    rw [if_pos h0]
    rfl
  · have hsub := lastIndex (h := d.chain.height) hpos
    obtain ⟨b, h1, h2, h3⟩ := hlow ⟨d.chain.height.val - 1, Nat.lt_of_le_of_lt (Nat.sub_le _ _) d.chain.height.lt⟩
      (by show _ - 1 < d.chain.height.val; omega)
    refine ⟨b, ?_, ?_⟩
    · unfold DerivativeChain.getLastBlock DerivativeChain.getLastRawBlock
      rw [if_neg (by omega), hsub, Outcome.ok_bind, h1, Outcome.ok_bind]
      exact decode_deriv b
    · rw [h3]; show d.chain.height.val - 1 + 1 = d.chain.height.val; omega
  · unfold Chain.findRawByHash
    cases hx : d.chain.heightReference.get x.val with
    | none => exact ⟨_, rfl⟩
    | some v =>
      obtain ⟨i, hi, rfl⟩ := h.keeps.refs _ _ hx
      have hlt : i < U256.size := Nat.lt_of_le_of_lt hi d.chain.height.lt
      have : U256.fromBE (beBytes 32 i) = .ok ⟨i, hlt⟩ := fromBE_toBE ⟨i, hlt⟩
      simp only [this]
      exact ⟨_, rfl⟩

/-- C148. On a node whose calls may have been cut short anywhere, every derivative chain is intact. -/
theorem C148_history (E : Env) (s : Tree) (hr : FaultyRun E s) (o : Address) : DerivIntact (s.handle o) := by
  obtain ⟨bs, h⟩ := faultyRun_derivKeeps hr o
  exact derivIntact_of_keeps h

/-- C148. Whatever calls follow, whole or cut short, no derivative chain shrinks, loses or changes a block below its height. -/
theorem C148_later (E : Env) (s t : Tree) (hr : FaultyRun E s) (hl : FaultyLater E s t) (o : Address) :
    (s.handle o).chain.height.val ≤ (t.handle o).chain.height.val ∧
    ∀ q : U256, q.val < (s.handle o).chain.height.val →
      (t.handle o).chain.findRawByHeight q = (s.handle o).chain.findRawByHeight q := by
  obtain ⟨bs, h⟩ := faultyRun_derivKeeps hr o
  obtain ⟨new, ht⟩ := (faultyLater_derivExt hl (faultyLater_derivExt hr (fresh_derivClean E)).1).2 o _ h
  have hlen := ht.keeps.len
  rw [List.length_append, h.keeps.len] at hlen
  refine ⟨by omega, fun q hq => ?_⟩
  rw [Keeps.findRaw ht.keeps q (by omega), Keeps.findRaw h.keeps q hq, List.getElem_append_left]

/-- C148. Any number of threads make calls on a node and on one of its derivative chains; any of the calls is cut short at
any point. Under every schedule, as long as some call has not ended, some thread can make a step; no call takes more than 28
steps; and when all calls have ended both locks are free. -/
theorem C148_no_deadlock [DecidableEq ι] (E : Env) (s : Tree) (o : Address) (call : ι → Shared.Call)
    (stop : ι → Option (Nat × Outcome (Option Bytes))) (log : List (Event ι Shared)) (c : Config ι Shared (Option Bytes))
    (h : Exec (dcutStart E s o call stop) log c) :
    (∀ i, ¬ hasEnded (c.threads i) → ∃ j, CanStep2 c j) ∧
    (∀ i, (log.filter (fun e => e.thread = i)).length ≤ 28) ∧
    ((∀ i, hasEnded (c.threads i)) → c.shared.node.held = false ∧ c.shared.deriv.held = false) := by
  refine ⟨(dcut_owned h).progress, fun i => ?_, fun hall => ?_⟩
  · exact (exec_within h (dcut_sat (P := fun p => Within p 28) (fun i => (within_dcall E (call i)).mono (by omega))
      (fun k _ i => within_dcut _ k (within_dcall E (call i)))) i).1
  · obtain ⟨mine, h1, h2, _⟩ := dcut_owned h
    have free : ∀ k : Lock, k.held c.shared = false := by
      intro k
      cases hk : k.held c.shared with
      | false => rfl
      | true =>
        obtain ⟨i, hi⟩ := (h2 k).mp hk
        obtain ⟨o, ho⟩ := hall i
        have := h1 i
        rw [ho, hi] at this
        cases this
    exact ⟨free .main, free .deriv⟩

theorem extendsOf_low {P : Block → Prop} {a b : Chain} {bs : List Block} (h : a.KeepsOf P bs) (hx : a.ExtendsOf P b) :
    a.height.val ≤ b.height.val ∧ ∀ q : U256, q.val < a.height.val → b.findRawByHeight q = a.findRawByHeight q := by
  obtain ⟨new, hb⟩ := hx _ h
  have hlen := hb.keeps.len
  rw [List.length_append, h.keeps.len] at hlen
  refine ⟨by omega, fun q hq => ?_⟩
  rw [Keeps.findRaw hb.keeps q (by omega), Keeps.findRaw h.keeps q hq, List.getElem_append_left]

/-- C148. On a node with any history, also one with calls cut short, both chains stay intact at every moment, the derivative
chain keeps its anchor, and between any two moments neither chain shrinks, loses or changes a block below its height. -/
theorem C148_intact [DecidableEq ι] (E : Env) (s : Tree) (hr : FaultyRun E s) (o : Address) (call : ι → Shared.Call)
    (stop : ι → Option (Nat × Outcome (Option Bytes))) (log : List (Event ι Shared)) (c : Config ι Shared (Option Bytes))
    (h : Exec (dcutStart E s o call stop) log c) :
    DerivIntact c.shared.deriv.data ∧ Intact c.shared.node.data.main ∧
    c.shared.deriv.data.genesisHash = (s.handle o).genesisHash ∧
    ∀ e ∈ log, (e.before.deriv.data.chain.height.val ≤ c.shared.deriv.data.chain.height.val ∧
      ∀ q : U256, q.val < e.before.deriv.data.chain.height.val →
        c.shared.deriv.data.chain.findRawByHeight q = e.before.deriv.data.chain.findRawByHeight q) ∧
      e.before.node.data.main.getHeight.val ≤ c.shared.node.data.main.getHeight.val ∧
      ∀ q : U256, q.val < e.before.node.data.main.getHeight.val →
        c.shared.node.data.main.findRawByHeight q = e.before.node.data.main.findRawByHeight q := by
  obtain ⟨bs, hd⟩ := faultyRun_derivKeeps hr o
  obtain ⟨new, hk⟩ := faultyLater_extends hr _ (fresh_holds E).keeps
  have hk : s.main.chain.KeepsOf (fun _ => True) (genesis E :: new) := ⟨hk, fun _ _ => trivial⟩
  obtain ⟨d1, d2, -⟩ := h.sorted (R := fun a b : Shared => a.deriv.data.chain.ExtendsOf IsDeriv b.deriv.data.chain)
    (fun _ => (Chain.extendsOf_preord _).refl _) (fun _ _ _ => (Chain.extendsOf_preord _).trans)
    (fun e he => (dcut_steps h e he).extends)
  obtain ⟨m1, m2, -⟩ := h.sorted
    (R := fun a b => a.node.data.main.chain.ExtendsOf (fun _ => True) b.node.data.main.chain)
    (fun _ => (Chain.extendsOf_preord _).refl _) (fun _ _ _ => (Chain.extendsOf_preord _).trans)
    (fun e he => (dcut_main h e he).extends)
  obtain ⟨g, -, -⟩ := h.sorted (R := SameAnchor) (fun _ => rfl) (fun _ _ _ h1 h2 => Eq.trans h2 h1) (dcut_anchor h)
  obtain ⟨dn, dc⟩ := d1 _ hd
  obtain ⟨mn, mc⟩ := m1 _ hk
  refine ⟨derivIntact_of_keeps dc, intact_of_keeps mc.keeps, g, fun e he => ⟨?_, ?_⟩⟩
  · obtain ⟨n1, hb⟩ := (d2 e he).1 _ hd
    exact extendsOf_low hb ((Chain.extendsOf_preord _).trans (dcut_steps h e he).extends (d2 e he).2)
  · obtain ⟨n1, hb⟩ := (m2 e he).1 _ hk
    exact extendsOf_low hb ((Chain.extendsOf_preord _).trans (dcut_main h e he).extends (m2 e he).2)

/-- What a call that was not cut short knows at its end of the derivative chain. -/
theorem dcut_ended [DecidableEq ι] {E : Env} {s : Tree} {o : Address} {call : ι → Shared.Call}
    {stop : ι → Option (Nat × Outcome (Option Bytes))} {log : List (Event ι Shared)} {c : Config ι Shared (Option Bytes)}
    (h : Exec (dcutStart E s o call stop) log c) {i : ι} (hi : stop i = none) {Q : Option Bytes → List Chain → Prop}
    (hq : derivSlot.Mindful E IsDeriv Q ((call i).prog E) none []) {r : Option Bytes} (ho : c.threads i = .done (.ok r)) :
    ∃ past, (∀ x ∈ past, (s.handle o).chain.Above x ∧ x.Above c.shared.deriv.data.chain) ∧ Q r past := by
  have hs : derivSlot.Guarded E IsDeriv (fun j => if j = i then Q else Slot.anyEnd) (s.handle o).chain
      (dcutStart E s o call stop) := by
    refine ⟨Slot.above_refl _, .inl ⟨rfl, fun j => ?_⟩⟩
    by_cases hj : j = i
    · subst hj
      beta_reduce
      rw [if_pos rfl]
      refine ⟨[], by simp, ?_⟩
      change derivSlot.Mindful E IsDeriv _ (Shared.mayCut (stop j) _) none []
      rw [hi]
      exact hq
    · beta_reduce
      rw [if_neg hj]
      rcases (dcut_start (s := s) (o := o) (call := call) (stop := stop) selects_deriv rfl rfl (deriv_call E)).2 with
        ⟨_, h⟩ | ⟨h, _⟩
      · exact h j
      · cases h
  obtain ⟨past, h1, h2⟩ := (Slot.exec_guarded h hs).1.ended ho
  rw [if_pos rfl] at h2
  exact ⟨past, h1, h2⟩

theorem took_stays {s : Tree} {o : Address} {now : Chain} {b : DerivativeBlock} {a : α} {past : List Chain}
    (hp : ∀ x ∈ past, (s.handle o).chain.Above x ∧ x.Above now) (hq : Slot.Took (.derivative b) a past) :
    b.defaultInfo.height.val < now.height.val ∧ now.findRawByHeight b.defaultInfo.height = some b.dump := by
  obtain ⟨x, hx, hxh, hxb⟩ := hq
  have hxh : x.height.val = b.defaultInfo.height.val + 1 := hxh
  have hxb : x.blocks.get b.defaultInfo.height.toBE.val = some b.dump := hxb
  obtain ⟨h1, h2⟩ := (hp x hx).2
  refine ⟨by omega, ?_⟩
  unfold Chain.findRawByHeight
  rw [if_neg (by omega), h2 _ (by omega)]
  exact hxb

/-- C148. A derivative block whose addition was not cut short and succeeded is in the chain, whatever additions of other
blocks were cut short before, meanwhile and since. -/
theorem C148_accepted [DecidableEq ι] (E : Env) (s : Tree) (o : Address) (call : ι → Shared.Call)
    (stop : ι → Option (Nat × Outcome (Option Bytes))) (log : List (Event ι Shared)) (c : Config ι Shared (Option Bytes))
    (h : Exec (dcutStart E s o call stop) log c) (i : ι) (hi : stop i = none) (b : DerivativeBlock)
    (hb : call i = .addBlock b) (r : Option Bytes) (ho : c.threads i = .done (.ok r)) :
    b.defaultInfo.height.val < c.shared.deriv.data.chain.height.val ∧
    c.shared.deriv.data.chain.findRawByHeight b.defaultInfo.height = some b.dump := by
  obtain ⟨past, h1, h2⟩ := dcut_ended h hi (Q := Slot.Took (.derivative b)) (by
    rw [hb]
    refine Slot.Mindful.bind (Q := Slot.Took (.derivative b)) ?_ fun _ past h => ⟨rfl, fun _ _ => h⟩
    rw [addBlock_slot]
    exact Slot.mindful_addBlock E _ ⟨b, rfl⟩ []) ho
  exact took_stays h1 h2

theorem prefix_hist {σ : Type} {J : σ → Prop} {P : List (σ × σ) → Outcome α → Prop} {p : Prog σ α} :
    ∀ {hist}, Prog.Hist J P p hist → Prog.Hist J (fun l o => P l o ∧ hist <+: l) p hist := by
  induction p with
  | done o => exact fun h => ⟨h, List.prefix_refl _⟩
  | step next rest ih =>
    intro hist h s s' hs hn
    refine ⟨(h s s' hs hn).1, (ih s (h s s' hs hn).2).mono fun l o h => ⟨h.1, ?_⟩⟩
    exact (List.prefix_append _ _).trans h.2

/-- Sequencing, keeping the order of the steps. -/
theorem ifOk_then {σ : Type} {Q : List (σ × σ) → α → Prop} {R : List (σ × σ) → β → Prop}
    {p : Prog σ α} {f : α → Prog σ β} {hist : List (σ × σ)}
    (hp : Prog.Hist (fun _ => True) (IfOk Q) p hist)
    (hf : ∀ l a, Q l a → hist <+: l → Prog.Hist (fun _ => True) (IfOk R) (f a) l) :
    Prog.Hist (fun _ => True) (IfOk R) (p >>= f) hist :=
  (prefix_hist hp).bind (fun l a h => hf l a (h.1 a rfl) h.2) (fun _ _ _ _ h => by cases h)
    (fun _ _ _ _ h => by cases h) (fun _ _ _ h => by cases h)

/-- The last block was found in the derivative chain, by looking at the height and later at the block. -/
def ThenLast (l : List (Shared × Shared)) (b : DerivativeBlock) : Prop :=
  ∃ (s1 s2 : Shared) (i : U256) (raw : Bytes), [(s1, s1), (s2, s2)].Sublist l ∧
    i.val + 1 = s1.deriv.data.chain.height.val ∧
    s2.deriv.data.chain.blocks.get i.toBE.val = some raw ∧ DerivativeChain.decode (some raw) = .ok (some b)

theorem ThenLast.mono {l l' : List (Shared × Shared)} {b : DerivativeBlock} (h : ThenLast l b) (hl : l <+: l') :
    ThenLast l' b := by
  obtain ⟨s1, s2, i, raw, h1, h2⟩ := h
  exact ⟨s1, s2, i, raw, h1.trans hl.sublist, h2⟩

theorem hist_thenLast : Prog.Hist (fun _ => True) (IfOk fun l r => ∀ b, r = some b → ThenLast l b)
    Shared.getLastBlock [] := by
  have raw : Prog.Hist (fun _ => True) (IfOk fun l r => ∀ d, r = some d → ∃ (s1 s2 : Shared) (i : U256),
      [(s1, s1), (s2, s2)].Sublist l ∧ i.val + 1 = s1.deriv.data.chain.height.val ∧
      s2.deriv.data.chain.blocks.get i.toBE.val = some d) Shared.getLastRawBlock [] := by
    intro s1 s1' _ hn
    simp only [Option.ite_none_left_eq_some] at hn
    cases hn.2
    refine ⟨trivial, ?_⟩
    change Prog.Hist _ _ (if s1.deriv.data.chain.height.val = 0 then _ else _) _
    split
    · intro a e
      cases e
      exact fun d e => by cases e
    · rename_i h0
      rw [lastIndex (h := s1.deriv.data.chain.height) (by omega)]
      intro n n' _ hn
      simp only [Option.ite_none_left_eq_some] at hn
      cases hn.2
      refine ⟨trivial, ?_⟩
      change Prog.Hist _ _ (if n.deriv.data.chain.height.val < _ then _ else _) _
      split
      · intro a e
        cases e
        exact fun d e => by cases e
      · intro s2 s2' _ hn
        cases hn
        refine ⟨trivial, fun a e d hd => ?_⟩
        cases e
        exact ⟨s1, s2, _, .cons_cons _ (.cons _ (.cons_cons _ .slnil)), by simp only; omega, hd⟩
  refine ifOk_then raw fun l r h _ => ?_
  rintro a e b rfl
  cases r with
  | none => cases e
  | some d =>
    obtain ⟨s1, s2, i, a1, a2, a3⟩ := h d rfl
    exact ⟨s1, s2, i, d, a1, a2, a3, e⟩

/-- What the new block was built on. -/
def BuiltOn (E : Env) (l : List (Shared × Shared)) (r : Hash × Hash × UInt64 × U256) : Prop :=
  (∃ b : DerivativeBlock, ThenLast l b ∧ r.1 = b.hash E ∧ r.2.1 = b.defaultInfo.difficulty ∧
    r.2.2.1 = b.defaultInfo.timestamp ∧ r.2.2.2.val = b.defaultInfo.height.val + 1) ∨ r.2.2.2 = U256.zero

theorem hist_builtOn (E : Env) : Prog.Hist (fun _ => True) (IfOk (BuiltOn E)) (Shared.derivBase E) [] := by
  refine ifOk_then hist_thenLast fun l1 last h1 _ => ?_
  cases last with
  | some b =>
    refine ifOk_then (ifOk_lift _ _) fun l2 h h2 k2 => ?_
    intro r e
    cases e
    refine .inl ⟨b, (h1 b rfl).mono k2, rfl, rfl, rfl, ?_⟩
    unfold U256.add at h2
    split at h2
    · cases h2; rfl
    · cases h2
  | none =>
    refine ifOk_then (ifOk_true _ _) fun l2 g _ _ => ifOk_then (ifOk_true _ _) fun l3 r _ _ => ?_
    cases r with
    | none => exact fun _ e => by cases e
    | some a =>
      intro r e
      cases e
      exact .inr rfl

theorem hist_built (E : Env) (pow : BytesN 32) (founder : Address) (ts : UInt64) :
    Prog.Hist (fun _ => True) (IfOk fun l b => ∃ r, BuiltOn E l r ∧ checkPow E r.1 r.2.1 [] pow.val = .ok true ∧
      recalculateDifficulty E r.2.2.1 ts r.2.1 = .ok b.defaultInfo.difficulty ∧ b.defaultInfo.previousHash = r.1 ∧
      b.defaultInfo.height = r.2.2.2 ∧ b.defaultInfo.timestamp = ts ∧ b.defaultInfo.pow = pow ∧
      b.defaultInfo.founder = founder) (Shared.emitDerivative E pow founder ts) [] := by
  unfold Shared.emitDerivative
  refine ifOk_then (hist_builtOn E) fun l1 r h1 _ => ?_
  refine ifOk_then (ifOk_lift _ _) fun l2 good h2 k2 => ?_
  cases good with
  | false => exact fun _ e => by cases e
  | true =>
    simp only [Bool.not_true, Bool.false_eq_true, if_false]
    refine ifOk_then (ifOk_lift _ _) fun l3 difficulty h3 k3 => ?_
    refine ifOk_then (ifOk_true _ _) fun l4 _ _ k4 => ?_
    intro b e
    cases e
    exact ⟨r, h1.imp (fun ⟨a, h, h'⟩ => ⟨a, h.mono (k2.trans (k3.trans k4)), h'⟩) id, h2, h3, rfl, rfl, rfl, rfl, rfl⟩

theorem ownSteps_sorted {σ : Type} [DecidableEq ι] {R : σ → σ → Prop} {log : List (Event ι σ)} (i : ι)
    (h : log.Pairwise (fun a b => R a.after b.before)) : (ownSteps i log).Pairwise (fun a b => R a.2 b.1) := by
  unfold ownSteps
  rw [List.pairwise_map]
  exact h.filter _

theorem emitted_of [DecidableEq ι] (E : Env) (s : Tree) (o : Address) (call : ι → Shared.Call)
    (stop : ι → Option (Nat × Outcome (Option Bytes))) (log : List (Event ι Shared)) (c : Config ι Shared (Option Bytes))
    (h : Exec (dcutStart E s o call stop) log c)
    (hI : ∀ e ∈ log, ∀ j : U256, j.val < e.before.deriv.data.chain.height.val → ∃ d : DerivativeBlock,
      e.before.deriv.data.chain.blocks.get j.toBE.val = some d.dump ∧ d.defaultInfo.height = j) (i : ι) (hi : stop i = none) (pow : BytesN 32) (founder : Address)
    (ts : UInt64) (hb : call i = .emit pow founder ts) (r : Option Bytes) (ho : c.threads i = .done (.ok r)) :
    ∃ b : DerivativeBlock, r = some b.dump ∧ b.defaultInfo.height.val < c.shared.deriv.data.chain.height.val ∧
      c.shared.deriv.data.chain.findRawByHeight b.defaultInfo.height = some b.dump ∧
      b.defaultInfo.timestamp = ts ∧ b.defaultInfo.pow = pow ∧ b.defaultInfo.founder = founder ∧
      (b.defaultInfo.height.val ≠ 0 → ∃ (a : DerivativeBlock) (k : U256), k.val + 1 = b.defaultInfo.height.val ∧
        a.defaultInfo.height = k ∧ c.shared.deriv.data.chain.findRawByHeight k = some a.dump ∧
        b.defaultInfo.previousHash = E.sha256 a.dump ∧
        recalculateDifficulty E a.defaultInfo.timestamp ts a.defaultInfo.difficulty = .ok b.defaultInfo.difficulty ∧
        MeetsPow E (E.sha256 a.dump) a.defaultInfo.difficulty [] pow.val) := by
  obtain ⟨past, h1, b0, hb0, h2⟩ := dcut_ended h hi
    (Q := fun r past => ∃ b : DerivativeBlock, r = some b.dump ∧ Slot.Took (.derivative b) () past) (by
    rw [hb]
    refine Slot.Mindful.bind (Q := fun b past => Slot.Took (.derivative b) () past) ?_
      fun b past h => ⟨rfl, fun _ e => by cases e; exact ⟨b, rfl, h⟩⟩
    refine Slot.Mindful.bind ((deriv_base E).mindful []) fun x past _ => ?_
    refine Slot.Mindful.bind ((Slot.adds_lift E _).mindful past) fun good past _ => ?_
    split
    · exact ⟨rfl, fun _ e => by cases e⟩
    · refine Slot.Mindful.bind ((Slot.adds_lift E _).mindful past) fun d past _ => ?_
      refine Slot.Mindful.bind (show derivSlot.Mindful E IsDeriv _ (Shared.addBlock E _) none past by
        rw [addBlock_slot]; exact Slot.mindful_addBlock E _ ⟨_, rfl⟩ past) fun _ past h => ?_
      exact ⟨rfl, fun _ e => by cases e; exact h⟩) ho
  obtain ⟨k1, k2⟩ := took_stays h1 h2
  have hP : ∃ b : DerivativeBlock, r = some b.dump ∧ ∃ x, BuiltOn E (ownSteps i log) x ∧
      checkPow E x.1 x.2.1 [] pow.val = .ok true ∧
      recalculateDifficulty E x.2.2.1 ts x.2.1 = .ok b.defaultInfo.difficulty ∧ b.defaultInfo.previousHash = x.1 ∧
      b.defaultInfo.height = x.2.2.2 ∧ b.defaultInfo.timestamp = ts ∧ b.defaultInfo.pow = pow ∧
      b.defaultInfo.founder = founder := by
    have := (h.hist (J := fun _ => True)
      (P := fun j l' o' => j = i → ∀ r, o' = .ok r → ∃ b : DerivativeBlock, r = some b.dump ∧ ∃ x, BuiltOn E l' x ∧
        checkPow E x.1 x.2.1 [] pow.val = .ok true ∧
        recalculateDifficulty E x.2.2.1 ts x.2.1 = .ok b.defaultInfo.difficulty ∧ b.defaultInfo.previousHash = x.1 ∧
        b.defaultInfo.height = x.2.2.2 ∧ b.defaultInfo.timestamp = ts ∧ b.defaultInfo.pow = pow ∧
        b.defaultInfo.founder = founder)
      trivial (fun j => by
      by_cases hj : j = i
      · subst hj
        refine Prog.Hist.mono (P := IfOk _) (fun l o h _ r e => h r e) ?_
        change Prog.Hist _ _ (Shared.mayCut (stop j) _) []
        rw [hi, hb]
        refine ifOk_then (hist_built E pow founder ts) fun l b hb _ => ?_
        intro o e
        cases e
        exact ⟨b, rfl, hb⟩
      · exact (Prog.hist_true _ _).mono fun _ _ _ e => absurd e hj)).2.2 i
    rw [ho] at this
    exact this rfl r rfl
  obtain ⟨b, hrb, x, hbase, hpow, hdif, hprev, hhei, ht, hp, hf⟩ := hP
  have hbb : b = b0 := by
    rw [hrb] at hb0
    have e : b.dump = b0.dump := Option.some.inj hb0
    have e1 := decode_deriv b
    have e2 := decode_deriv b0
    rw [e, e2] at e1
    cases e1
    rfl
  subst hbb
  refine ⟨b, hrb, k1, k2, ht, hp, hf, fun hne => ?_⟩
  rcases hbase with ⟨a, ⟨s1, s2, j, raw, a1, a3, a5, a6⟩, r1, r2, r3, r4⟩ | e
  · obtain ⟨-, d2, d3⟩ := h.sorted (R := fun a b : Shared => a.deriv.data.chain.Above b.deriv.data.chain)
      (fun _ => Slot.above_refl _) (fun _ _ _ => Slot.above_trans) (fun e he => Slot.above_step (dcut_steps h e he))
    have hown := (ownSteps_sorted (R := fun a b : Shared => a.deriv.data.chain.Above b.deriv.data.chain) i d3).sublist a1
    have h12 : s1.deriv.data.chain.Above s2.deriv.data.chain := by
      have := List.pairwise_cons.mp hown
      exact this.1 (s2, s2) (by simp)
    have m1 : (⟨i, s1, s1⟩ : Event ι Shared) ∈ log := mem_ownSteps (a1.subset (by simp))
    have m2 : (⟨i, s2, s2⟩ : Event ι Shared) ∈ log := mem_ownSteps (a1.subset (by simp))
    have hj : j.val < s1.deriv.data.chain.height.val := by omega
    obtain ⟨e3, e4⟩ := Slot.above_trans h12 (d2 _ m2).2
    obtain ⟨d, g1, g3⟩ := hI _ m1 j hj
    have g1 : s1.deriv.data.chain.blocks.get j.toBE.val = some d.dump := g1
    have hfin : c.shared.deriv.data.chain.findRawByHeight j = some d.dump := by
      unfold Chain.findRawByHeight
      rw [if_neg (by omega), e4 j hj]
      exact g1
    have hraw : raw = d.dump := by
      have := (h12.2 j hj).trans g1
      rw [a5] at this
      exact Option.some.inj this
    rw [hraw, decode_deriv] at a6
    have hda : d = a := by cases a6; rfl
    subst hda
    rw [r1] at hpow hprev
    rw [r2] at hpow hdif
    rw [r3] at hdif
    exact ⟨d, j, by rw [hhei, r4, g3], g3, hfin, hprev, hdif, (checkPow_iff ..).mp hpow⟩
  · rw [hhei, e] at hne
    exact absurd rfl hne

/-- C148. A derivative block whose emission was not cut short and succeeded stays in the chain at its height, and, unless it
is the first one, it is built on the block one below it: it bears its hash and the difficulty that follows from it, and
its proof of work is one for that block. -/
theorem C148_emitted [DecidableEq ι] (E : Env) (s : Tree) (hr : FaultyRun E s) (o : Address) (call : ι → Shared.Call)
    (stop : ι → Option (Nat × Outcome (Option Bytes))) (log : List (Event ι Shared)) (c : Config ι Shared (Option Bytes))
    (h : Exec (dcutStart E s o call stop) log c) (i : ι) (hi : stop i = none) (pow : BytesN 32) (founder : Address)
    (ts : UInt64) (hb : call i = .emit pow founder ts) (r : Option Bytes) (ho : c.threads i = .done (.ok r)) :
    ∃ b : DerivativeBlock, r = some b.dump ∧ b.defaultInfo.height.val < c.shared.deriv.data.chain.height.val ∧
      c.shared.deriv.data.chain.findRawByHeight b.defaultInfo.height = some b.dump ∧
      b.defaultInfo.timestamp = ts ∧ b.defaultInfo.pow = pow ∧ b.defaultInfo.founder = founder ∧
      (b.defaultInfo.height.val ≠ 0 → ∃ (a : DerivativeBlock) (k : U256), k.val + 1 = b.defaultInfo.height.val ∧
        a.defaultInfo.height = k ∧ c.shared.deriv.data.chain.findRawByHeight k = some a.dump ∧
        b.defaultInfo.previousHash = E.sha256 a.dump ∧
        recalculateDifficulty E a.defaultInfo.timestamp ts a.defaultInfo.difficulty = .ok b.defaultInfo.difficulty ∧
        MeetsPow E (E.sha256 a.dump) a.defaultInfo.difficulty [] pow.val) := by
  refine emitted_of E s o call stop log c h (fun e he j hj => ?_) i hi pow founder ts hb r ho
  obtain ⟨bs, hd⟩ := faultyRun_derivKeeps hr o
  obtain ⟨-, d2, -⟩ := h.sorted (R := fun a b : Shared => a.deriv.data.chain.ExtendsOf IsDeriv b.deriv.data.chain)
    (fun _ => (Chain.extendsOf_preord _).refl _) (fun _ _ _ => (Chain.extendsOf_preord _).trans)
    (fun e he => (dcut_steps h e he).extends)
  obtain ⟨n1, q1⟩ := (d2 _ he).1 _ hd
  obtain ⟨d, g1, -, g3⟩ := (derivIntact_of_keeps q1).1 j hj
  unfold Chain.findRawByHeight at g1
  rw [if_neg (by omega)] at g1
  exact ⟨d, g1, g3⟩

theorem find_first {σ : Type} [DecidableEq ι] {i : ι} {log : List (Event ι σ)} {x : σ × σ} {l : List (σ × σ)}
    (h : ownSteps i log = x :: l) : ∃ e, log.find? (fun e => e.thread = i) = some e ∧ e.before = x.1 := by
  unfold ownSteps at h
  cases hf : log.filter (fun e => decide (e.thread = i)) with
  | nil => rw [hf] at h; cases h
  | cons e l' =>
    rw [hf] at h
    simp only [List.map_cons, List.cons.injEq] at h
    refine ⟨e, ?_, by rw [← h.1]⟩
    rw [← List.head?_filter, hf]
    rfl

/-- The steps of a lookup by height. -/
def SawBlock (k : U256) (l : List (Shared × Shared)) (o : Outcome (Option Bytes)) : Prop :=
  ∃ n1, (n1.deriv.data.chain.height.val < k.val ∧ l = [(n1, n1)] ∧ o = .ok none) ∨
    ∃ n2, l = [(n1, n1), (n2, n2)] ∧ k.val ≤ n1.deriv.data.chain.height.val ∧
      o = .ok (n2.deriv.data.chain.blocks.get k.toBE.val)

theorem hist_dbyHeight (k : U256) (hist : List (Shared × Shared)) : Prog.Hist (fun _ => True)
    (fun l o => ∃ l', l = hist ++ l' ∧ SawBlock k l' o) (Shared.findRawByHeight k) hist := by
  intro n1 n1' _ hn
  simp only [Option.ite_none_left_eq_some] at hn
  cases hn.2
  refine ⟨trivial, ?_⟩
  change Prog.Hist _ _ (if n1.deriv.data.chain.height.val < k.val then _ else _) _
  split
  · rename_i hk
    exact ⟨[(n1, n1)], rfl, n1, .inl ⟨hk, rfl, rfl⟩⟩
  · rename_i hk
    intro n2 n2' _ hn
    cases hn
    exact ⟨trivial, [(n1, n1), (n2, n2)], by simp, n1, .inr ⟨n2, rfl, by omega, rfl⟩⟩

/-- The steps of a lookup of the last block. -/
def SawTop (l : List (Shared × Shared)) (o : Outcome (Option Bytes)) : Prop :=
  ∃ n1, (n1.deriv.data.chain.height.val = 0 ∧ l = [(n1, n1)] ∧ o = .ok none) ∨
    ∃ k l', k.val + 1 = n1.deriv.data.chain.height.val ∧ l = (n1, n1) :: l' ∧ SawBlock k l' o

theorem hist_dlast : Prog.Hist (fun _ => True) SawTop Shared.getLastRawBlock [] := by
  intro n1 n1' _ hn
  simp only [Option.ite_none_left_eq_some] at hn
  cases hn.2
  refine ⟨trivial, ?_⟩
  change Prog.Hist _ _ (if n1.deriv.data.chain.height.val = 0 then _ else _) _
  split
  · rename_i h0
    exact ⟨n1, .inl ⟨h0, rfl, rfl⟩⟩
  · rename_i h0
    rw [lastIndex (h := n1.deriv.data.chain.height) (by omega)]
    refine (hist_dbyHeight _ _).mono fun l o ⟨l', h1, h2⟩ => ?_
    exact ⟨n1, .inr ⟨_, l', by simp only; omega, h1, h2⟩⟩

/-- C148. A lookup in the derivative chain that is not itself cut short is answered as if no call had been: a block below the
height when the lookup began is found, and the last block is the one the chain had then. -/
theorem C148_lookup [DecidableEq ι] (E : Env) (s : Tree) (hr : FaultyRun E s) (o : Address) (call : ι → Shared.Call)
    (stop : ι → Option (Nat × Outcome (Option Bytes))) (log : List (Event ι Shared)) (c : Config ι Shared (Option Bytes))
    (h : Exec (dcutStart E s o call stop) log c) (i : ι) (hi : stop i = none) (r : Outcome (Option Bytes))
    (ho : c.threads i = .done r) :
    (∀ k : U256, call i = .byHeight k → ∃ e, log.find? (fun e => e.thread = i) = some e ∧
      (k.val < e.before.deriv.data.chain.height.val → r = .ok (e.before.deriv.data.chain.findRawByHeight k))) ∧
    (call i = .last → ∃ e, log.find? (fun e => e.thread = i) = some e ∧ r = e.before.deriv.data.getLastRawBlock) := by
  obtain ⟨bs0, hk⟩ := faultyRun_derivKeeps hr o
  obtain ⟨-, hso, hpw⟩ := h.sorted (R := fun a b : Shared => a.deriv.data.chain.ExtendsOf IsDeriv b.deriv.data.chain)
    (fun _ => (Chain.extendsOf_preord _).refl _) (fun _ _ _ => (Chain.extendsOf_preord _).trans)
    (fun e he => (dcut_steps h e he).extends)
  have hown := ownSteps_sorted (R := fun a b : Shared => a.deriv.data.chain.ExtendsOf IsDeriv b.deriv.data.chain) i hpw
  have hmem : ∀ n ∈ ownSteps i log, ∃ bs, n.1.deriv.data.chain.KeepsOf IsDeriv bs := by
    intro n hn
    obtain ⟨bs, hb⟩ := (hso _ (mem_ownSteps hn)).1 _ hk
    exact ⟨_, hb⟩
  have hist : ∀ {S : List (Shared × Shared) → Outcome (Option Bytes) → Prop},
      Prog.Hist (fun _ => True) S ((call i).prog E) [] → S (ownSteps i log) r := by
    intro S hS
    have := (h.hist (J := fun _ => True) (P := fun j l' o' => j = i → S l' o') trivial (fun j => by
      by_cases hj : j = i
      · subst hj
        change Prog.Hist _ _ (Shared.mayCut (stop j) _) []
        rw [hi]
        exact hS.mono fun _ _ h _ => h
      · exact (Prog.hist_true _ _).mono fun _ _ _ e => absurd e hj)).2.2 i
    rw [ho] at this
    exact this rfl
  have later : ∀ {n1 n2 : Shared} {k : U256}, (∃ bs, n1.deriv.data.chain.KeepsOf IsDeriv bs) →
      n1.deriv.data.chain.ExtendsOf IsDeriv n2.deriv.data.chain → k.val < n1.deriv.data.chain.height.val →
      n2.deriv.data.chain.blocks.get k.toBE.val = n1.deriv.data.chain.findRawByHeight k := by
    intro n1 n2 k ⟨bs, h1⟩ h12 hlt
    obtain ⟨e1, e2⟩ := extendsOf_low h1 h12
    rw [← e2 k hlt]
    unfold Chain.findRawByHeight
    rw [if_neg (by omega)]
  refine ⟨fun k hl => ?_, fun hl => ?_⟩
  · obtain ⟨l', hlist, n1, hsaw⟩ := hist (S := fun l o => ∃ l', l = [] ++ l' ∧ SawBlock k l' o) (by
      rw [hl]; exact hist_dbyHeight k [])
    rw [List.nil_append] at hlist
    rcases hsaw with ⟨hlt, rfl, rfl⟩ | ⟨n2, rfl, hle, rfl⟩
    · obtain ⟨e, he, hb⟩ := find_first hlist
      refine ⟨e, he, fun hk' => ?_⟩
      rw [hb] at hk'
      have hk' : k.val < n1.deriv.data.chain.height.val := hk'
      omega
    · obtain ⟨e, he, hb⟩ := find_first hlist
      refine ⟨e, he, fun hk' => ?_⟩
      rw [hb] at hk' ⊢
      rw [hlist] at hown hmem
      exact congrArg Outcome.ok (later (hmem (n1, n1) (by simp)) ((List.pairwise_cons.mp hown).1 (n2, n2) (by simp)) hk')
  · obtain ⟨n1, hsaw⟩ := hist (S := SawTop) (by rw [hl]; exact hist_dlast)
    rcases hsaw with ⟨h0, hlist, rfl⟩ | ⟨k, l', hk1, hlist, n2, hsaw⟩
    · obtain ⟨e, he, hb⟩ := find_first hlist
      refine ⟨e, he, ?_⟩
      rw [hb]
      unfold DerivativeChain.getLastRawBlock
      rw [if_pos h0]
    · obtain ⟨e, he, hb⟩ := find_first hlist
      refine ⟨e, he, ?_⟩
      have hlast : e.before.deriv.data.getLastRawBlock = .ok (n1.deriv.data.chain.findRawByHeight k) := by
        rw [hb]
        unfold DerivativeChain.getLastRawBlock
        rw [if_neg (by show n1.deriv.data.chain.height.val ≠ 0; omega),
          lastIndex (by show 1 ≤ n1.deriv.data.chain.height.val; omega), Outcome.ok_bind]
        have : (⟨n1.deriv.data.chain.height.val - 1, by have := n1.deriv.data.chain.height.lt; omega⟩ : U256) = k :=
          U256.ext (by simp only; omega)
        simp only [this]
      rw [hlast]
      rw [hlist] at hown hmem
      obtain ⟨p1, p2⟩ := List.pairwise_cons.mp hown
      have h1 := hmem (n1, n1) (by simp)
      rcases hsaw with ⟨hlt, rfl, rfl⟩ | ⟨n3, rfl, hle, rfl⟩
      · obtain ⟨bs, h1⟩ := h1
        have := (extendsOf_low h1 (p1 (n2, n2) (by simp))).1
        simp only at this
        omega
      · exact congrArg Outcome.ok (later h1 (p1 (n3, n3) (by simp)) (by omega))

/-- Two threads add blocks of the same height to a derivative chain; the call of the first is cut short with the lock in its
hand and its block stored. The second thread's call succeeds, and its block is the one found. -/
theorem cut_then_add (E : Env) (s : Tree) (o : Address) (a b : DerivativeBlock) (ha : a.defaultInfo.height = (s.handle o).chain.height)
    (hb : b.defaultInfo.height = (s.handle o).chain.height) (hm : (s.handle o).chain.height.val + 1 < U256.size) (e : Err) :
    ∃ log c, Exec (dcutStart E s o (fun i : Bool => .addBlock (if i then a else b))
        (fun i => if i then some (3, .err e) else none)) log c ∧
      c.threads true = .done (.err e) ∧ c.threads false = .done (.ok none) ∧ c.shared.deriv.held = false ∧
      c.shared.node.data = s ∧ c.shared.deriv.data.chain.findRawByHeight (s.handle o).chain.height = some b.dump := by
  have h0 : Exec (dcutStart E s o (fun i : Bool => .addBlock (if i then a else b))
        (fun i => if i then some (3, .err e) else none)) [] _ := .refl
  obtain ⟨d, hd⟩ : ∃ d, d = s.handle o := ⟨_, rfl⟩
  unfold dcutStart at h0 ⊢
  rw [← hd] at h0 ha hb hm ⊢
  have r1 : Prog.Runs (Shared.cut (.err e) 3 (false, false) ((Shared.Call.addBlock a).prog E)) ⟨⟨s, false⟩, ⟨d, false⟩⟩
      (.done (.err e)) ⟨⟨s, false⟩, ⟨Shared.setChain (fun c => c.put1 a.dump) d, false⟩⟩ := by
    refine .step (s' := ⟨⟨s, false⟩, ⟨d, true⟩⟩) rfl (.step (s' := ⟨⟨s, false⟩, ⟨d, true⟩⟩) rfl ?_)
    have key : Prog.Runs (Shared.cut (.err e) 1 (false, true) (derivSlot.afterRead E (.derivative a) d.chain.height >>=
          fun _ => (pure none : Prog Shared (Option Bytes))))
        ⟨⟨s, false⟩, ⟨d, true⟩⟩ (.done (.err e)) ⟨⟨s, false⟩, ⟨Shared.setChain (fun c => c.put1 a.dump) d, false⟩⟩ := by
      unfold Slot.afterRead
      rw [if_neg (not_not.mpr (show (Block.derivative a).info.height = d.chain.height from ha))]
      exact .step (s' := ⟨⟨s, false⟩, ⟨Shared.setChain (fun c => c.put1 a.dump) d, true⟩⟩) rfl
        (.step (s' := ⟨⟨s, false⟩, ⟨Shared.setChain (fun c => c.put1 a.dump) d, false⟩⟩) rfl .refl)
    exact key
  obtain ⟨l1, h1⟩ := h0.runs true r1
  have hx := Chain.addBlock_right (E := E) (dump := b.dump) (s := d.chain.put1 a.dump) hm
  have hh : b.defaultInfo.height = (d.chain.put1 a.dump).height := hb
  have r2 : Prog.Runs ((Shared.Call.addBlock b).prog E) ⟨⟨s, false⟩, ⟨Shared.setChain (fun c => c.put1 a.dump) d, false⟩⟩
      (.done (.ok none)) ⟨⟨s, false⟩, ⟨(DerivativeChain.addBlock E b (Shared.setChain (fun c => c.put1 a.dump) d)).final, false⟩⟩ := by
    have := derivAddBlock_alone E ⟨s, false⟩ (Shared.setChain (fun c => c.put1 a.dump) d) b
    have e1 : (DerivativeChain.addBlock E b (Shared.setChain (fun c => c.put1 a.dump) d)).out = .ok () := by
      change (Chain.addBlock E b.defaultInfo.height b.dump (d.chain.put1 a.dump)).out = _
      rw [hh, hx]
    rw [e1] at this
    exact Prog.runs_bind_ok this _
  obtain ⟨l2, h2⟩ := h1.runs false r2
  refine ⟨_, _, h2, ?_, ?_, rfl, rfl, ?_⟩
  · simp
  · simp
  · change (Chain.addBlock E b.defaultInfo.height b.dump (d.chain.put1 a.dump)).final.findRawByHeight d.chain.height = _
    rw [hh, hx]
    unfold Chain.findRawByHeight
    rw [if_neg (by simp [Chain.put3, Chain.put1])]
    simp [Chain.put3, Chain.put1]

end BCT.Props
