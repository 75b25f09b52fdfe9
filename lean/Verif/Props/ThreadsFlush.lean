import Verif.Model.Late
import Verif.Props.ThreadsRead
import Verif.Props.Crash
/-!
# C106, C107: flushing while other threads run (chain.rs)
-/

namespace BCT.Props
open BCT Late

variable {ι : Type}

/-! ## Threads that do not flush -/

/-- The step leaves the config file alone, and the blocks database recovers to what it would have, or to what it is now. -/
def Mild (n n' : Node) : Prop :=
  n'.data.main.chain.config = n.data.main.chain.config ∧
  ∀ m ∈ n'.data.main.chain.blocks.recov, m ∈ n.data.main.chain.blocks.recov ∨ m = n'.data.main.chain.blocks.cur

theorem mild_refl (n : Node) : Mild n n := ⟨rfl, fun _ h => .inl h⟩

theorem mild_addBlock (E : Env) (b : Block) : (Node.addBlock E b).Guar Mild := by
  unfold Node.addBlock
  refine .bind (Node.guar_lock fun n => mild_refl n) fun _ => .bind (Node.guar_read mild_refl _) fun h => ?_
  split
  · exact .bind (Node.guar_unlock fun n => mild_refl n) fun _ => Prog.guar_lift _
  · refine .bind (Node.guar_write fun n => ⟨rfl, fun m hm => ?_⟩) fun _ =>
      .bind (Node.guar_write fun n => mild_refl n) fun _ => ?_
    · rcases List.mem_cons.mp hm with hm | hm
      · exact .inr hm
      · exact .inl hm
    split
    · exact .bind (Node.guar_write fun n => mild_refl n) fun _ => Node.guar_unlock fun n => mild_refl n
    · exact .bind (Node.guar_unlock fun n => mild_refl n) fun _ => .bind (Prog.guar_lift _) fun _ => Prog.guar_pure _

theorem mild_findRawByHeight (k : U256) : (Node.findRawByHeight k).Guar Mild := by
  unfold Node.findRawByHeight
  refine .bind (Node.guar_readHeight mild_refl) fun _ => ?_
  split
  · exact Prog.guar_pure _
  · exact Node.guar_read mild_refl _

theorem mild_lookup (l : Node.Lookup) : l.prog.Guar Mild := by
  cases l with
  | byHeight k => exact mild_findRawByHeight k
  | byHash h =>
    refine .bind (Node.guar_read mild_refl _) fun r => ?_
    cases r with
    | none => exact Prog.guar_pure _
    | some v => exact .bind (Prog.guar_lift _) fun _ => mild_findRawByHeight _
  | last => exact .bind (Node.guar_readHeight mild_refl) fun _ => .bind (Prog.guar_lift _) fun _ => mild_findRawByHeight _

theorem sendAmount_main (a b : Bytes) (v : U256) (t : Tree) : (Tree.sendAmount a b v t).final.main = t.main := by
  unfold Tree.sendAmount
  split <;> rfl

theorem mild_call (E : Env) (k : Call) (h : ¬ k.Flushes) : (k.prog E).Guar Mild := by
  cases k with
  | flush l => exact absurd trivial h
  | addBlock b => exact mild_addBlock E b
  | addTransaction t => exact Node.guar_onTree fun n => mild_refl n
  | lookup l => exact .bind (mild_lookup l) fun _ => Prog.guar_pure _
  | send tx =>
    show (Node.sendTransaction E tx).Guar Mild
    unfold Node.sendTransaction
    refine .bind (Node.guar_read mild_refl _) fun _ => .bind (Node.guar_read mild_refl _) fun _ =>
      .bind (Prog.guar_lift _) fun _ => ?_
    split
    · exact Prog.guar_lift _
    · refine .bind (Node.guar_getLastBlock mild_refl) fun _ => .bind (Prog.guar_lift _) fun _ =>
        .bind (Prog.guar_lift _) fun _ => .bind (Prog.guar_lift _) fun _ => ?_
      split
      · exact Prog.guar_lift _
      · refine .bind (Node.guar_onTree fun n => mild_refl n) fun _ =>
          .bind (Node.guar_onTree fun n => ?_) fun _ => Node.guar_onTree fun n => mild_refl n
        unfold Mild
        simp only [sendAmount_main]
        exact ⟨trivial, (mild_refl n).2⟩

/-! ## Threads that flush -/

theorem adds_run (E : Env) (d : Hash) : ∀ js, Adds E (run d js)
  | [] => adds_pure E _
  | j :: js => .bind (adds_write E fun t => by cases j <;> exact ⟨rfl, rfl, rfl⟩) fun _ => adds_run E d js

theorem adds_late (E : Env) (k : Call) : Adds E (k.prog E) := by
  cases k with
  | flush l =>
    exact .bind (adds_write E fun t => same_refl _) fun _ => .bind (adds_readHeight E) fun _ =>
      .bind (adds_write E fun t => same_refl _) fun _ => .bind (adds_read E _) fun _ => adds_run E _ _
  | addBlock b => exact adds_addBlock E b
  | addTransaction t => exact adds_onTree E fun t => same_refl _
  | send tx => exact adds_send E tx
  | lookup l => exact .bind (adds_lookup E l) fun _ => adds_pure E _

def afterDiff (late : Fin 4) : Prog Node Unit :=
  Node.read (fun t => .ok t.main.chain.difficulty) >>= fun d => run d (jobs late)

def afterHeight (late : Fin 4) (h : U256) : Prog Node Unit :=
  Node.write (Node.writeConfigAt 0 h.toBE.val) >>= fun _ => afterDiff late

def afterOpen (late : Fin 4) : Prog Node Unit := Node.readHeight >>= afterHeight late

theorem flush_stages (late : Fin 4) : Late.flush late =
    Node.write (Node.setChain fun c => { c with config := some [] }) >>= fun _ => afterOpen late := rfl

/-- How far a thread has come. -/
inductive Pos where
  | other
  | idle
  /-- the file is truncated, the height not yet written -/
  | opened
  /-- the height is written, the difficulty is not -/
  | half (flushed : Bool)
  | wrote (flushed : Bool)
  deriving DecidableEq

/-- `At H p x`: the program is at that point; heights it has read are at least `H`. -/
inductive At (H : Nat) : Prog Node Unit → Pos → Prop where
  | other {p : Prog Node Unit} : p.Guar Mild → At H p .other
  | idle (late : Fin 4) : At H (Late.flush late) .idle
  | opened (late : Fin 4) : At H (afterOpen late) .opened
  | read (late : Fin 4) (h : U256) : H ≤ h.val → At H (afterHeight late h) .opened
  | written (late : Fin 4) : At H (afterDiff late) (.half false)
  | half (d : Hash) (js : List Job) : .last ∈ js → At H (run d js) (.half (decide (Job.blocks ∉ js)))
  | wrote (d : Hash) (js : List Job) : .last ∉ js → At H (run d js) (.wrote (decide (Job.blocks ∉ js)))

/-- The file begins with a height that is at least `H`. -/
def Real (H : Nat) (c : Option Bytes) : Prop := ∃ f h, c = some f ∧ 32 ≤ f.length ∧ f.take 32 = (U256.toBE h).val ∧ H ≤ h.val

/-- The file has a height and a difficulty. -/
def Complete (c : Option Bytes) : Prop := ∃ f, c = some f ∧ 64 ≤ f.length

/-- Unless the process stops before a flush reaches the end, what `B` has is there after a crash. -/
def Pin (B : KV) (n : Node) : Prop := ∀ m, m = n.data.main.chain.blocks.cur ∨ m ∈ n.data.main.chain.blocks.recov →
  ∀ k v, B.get k = some v → m.get k = some v

theorem writeAt_length (o : Nat) (d f : Bytes) : (Node.writeAt o d f).length = max (o + d.length) f.length := by
  unfold Node.writeAt
  simp only [List.length_append, List.length_take, List.length_replicate, List.length_drop]
  omega

theorem writeAt_zero_take (d f : Bytes) : (Node.writeAt 0 d f).take d.length = d := by
  unfold Node.writeAt
  simp

theorem writeAt_take {n o : Nat} (d f : Bytes) (hn : n ≤ o) (hf : n ≤ f.length) : (Node.writeAt o d f).take n = f.take n := by
  unfold Node.writeAt
  rw [List.append_assoc, List.take_append_of_le_length (by simp; omega), List.take_take, Nat.min_eq_left hn,
    List.take_append_of_le_length hf]

theorem real_height (H : Nat) (h : U256) (hh : H ≤ h.val) (f : Bytes) : Real H (some (Node.writeAt 0 h.toBE.val f)) :=
  ⟨_, h, rfl, by rw [writeAt_length, h.toBE.property]; omega, by
    have := writeAt_zero_take h.toBE.val f
    rwa [h.toBE.property] at this, hh⟩

theorem real_last {H : Nat} {c : Option Bytes} (h : Real H c) (d : Hash) : Real H (c.map (Node.writeAt 32 d.val)) := by
  obtain ⟨f, q, rfl, h1, h2, h3⟩ := h
  exact ⟨_, q, rfl, by rw [writeAt_length]; omega, by rw [writeAt_take _ _ (Nat.le_refl _) h1]; exact h2, h3⟩

theorem complete_height {c : Option Bytes} (h : Complete c) (d : Bytes) : Complete (c.map (Node.writeAt 0 d)) := by
  obtain ⟨f, rfl, h⟩ := h
  exact ⟨_, rfl, by rw [writeAt_length]; omega⟩

theorem complete_last {f : Bytes} (d : Hash) : Complete (some (Node.writeAt 32 d.val f)) :=
  ⟨_, rfl, by rw [writeAt_length, d.property]; omega⟩

/-- The file begins with zeros. -/
def Hole (c : Option Bytes) : Prop := ∃ f, c = some f ∧ f.take 32 = List.replicate 32 0

theorem hole_last {c : Option Bytes} (h : Hole c) (d : Hash) : Hole (c.map (Node.writeAt 32 d.val)) := by
  obtain ⟨f, rfl, h⟩ := h
  refine ⟨_, rfl, ?_⟩
  have := congrArg List.length h
  rw [List.length_take, List.length_replicate] at this
  rw [writeAt_take _ _ (Nat.le_refl _) (by omega)]
  exact h

theorem hole_empty (d : Hash) : Hole (some (Node.writeAt 32 d.val [])) := by
  refine ⟨_, rfl, ?_⟩
  unfold Node.writeAt
  simp

/-- Threads, file and blocks since `st`, at which moment no flush was in progress. -/
structure Mid (E : Env) (st c : Config ι Node Unit) (pos : ι → Pos) : Prop where
  inv : Inv E c
  above : Above st.shared.data.main.chain c.shared.data.main.chain
  at' : ∀ i, At st.shared.data.main.chain.height.val (c.threads i) (pos i)
  pin : Pin st.shared.data.main.chain.blocks.cur st.shared → Pin st.shared.data.main.chain.blocks.cur c.shared
  done : ∀ i, pos i = .half true ∨ pos i = .wrote true → Pin st.shared.data.main.chain.blocks.cur c.shared
  begun : (∀ i, pos i = .other ∨ pos i = .idle) → c.shared.data.main.chain.config = st.shared.data.main.chain.config
  shape : ∀ i, pos i ≠ .other → pos i ≠ .idle → c.shared.data.main.chain.config = some [] ∨
    Real st.shared.data.main.chain.height.val c.shared.data.main.chain.config ∨ Hole c.shared.data.main.chain.config
  real : ∀ i, pos i ≠ .other → pos i ≠ .idle → (∃ j, pos j = .opened) ∨
    Real st.shared.data.main.chain.height.val c.shared.data.main.chain.config
  complete : ∀ i, pos i ≠ .other → pos i ≠ .idle → (∃ j, pos j = .opened ∨ ∃ b, pos j = .half b) ∨
    Complete c.shared.data.main.chain.config
  single : ∀ i, (∀ j, j ≠ i → pos j = .other) → pos i ≠ .other → pos i ≠ .idle →
    (pos i = .opened ∧ c.shared.data.main.chain.config = some []) ∨
    Real st.shared.data.main.chain.height.val c.shared.data.main.chain.config

/-- What a step does to the config file, and to the position of the thread. -/
inductive Kind (H : Nat) (c c' : Option Bytes) : Pos → Pos → Prop where
  | same {x y : Pos} : c' = c → (x = .other ↔ y = .other) → x ≠ .idle → y ≠ .idle → (x = .opened ↔ y = .opened) →
      ((∃ b, x = .half b) → ∃ b, y = .half b) → Kind H c c' x y
  | truncate : c' = some [] → Kind H c c' .idle .opened
  | height (h : U256) : H ≤ h.val → c' = c.map (Node.writeAt 0 h.toBE.val) → Kind H c c' .opened (.half false)
  | last (d : Hash) {b : Bool} {y : Pos} : c' = c.map (Node.writeAt 32 d.val) →
      ((∃ b, y = .half b) ∨ ∃ b, y = .wrote b) → Kind H c c' (.half b) y

theorem Mid.file {E : Env} {st c : Config ι Node Unit} {pos : ι → Pos} (h : Mid E st c pos) {i : ι} (h1 : pos i ≠ .other)
    (h2 : pos i ≠ .idle) : ∃ f, c.shared.data.main.chain.config = some f := by
  rcases h.shape i h1 h2 with h | ⟨f, _, h, _⟩ | ⟨f, h, _⟩
  · exact ⟨_, h⟩
  · exact ⟨f, h⟩
  · exact ⟨f, h⟩

theorem Mid.next [DecidableEq ι] {E : Env} {st c : Config ι Node Unit} {pos : ι → Pos} (h : Mid E st c pos) {i : ι} {n' : Node}
    {p' : Prog Node Unit} {y : Pos} (hinv : Inv E ⟨n', Function.update c.threads i p'⟩)
    (habove : Above c.shared.data.main.chain n'.data.main.chain)
    (hrec : ∀ m ∈ n'.data.main.chain.blocks.recov, m ∈ c.shared.data.main.chain.blocks.recov ∨ m = n'.data.main.chain.blocks.cur)
    (hat : At st.shared.data.main.chain.height.val p' y)
    (hdone : y = .half true ∨ y = .wrote true → (pos i = .half true ∨ pos i = .wrote true) ∨
      ∀ m ∈ n'.data.main.chain.blocks.recov, m = n'.data.main.chain.blocks.cur)
    (hk : Kind st.shared.data.main.chain.height.val c.shared.data.main.chain.config n'.data.main.chain.config (pos i) y) :
    Mid E st ⟨n', Function.update c.threads i p'⟩ (Function.update pos i y) := by
  have hab := above_trans h.above habove
  have hcur : ∀ k v, st.shared.data.main.chain.blocks.cur.get k = some v → n'.data.main.chain.blocks.cur.get k = some v := hab.2.1
  have hpin : Pin st.shared.data.main.chain.blocks.cur c.shared → Pin st.shared.data.main.chain.blocks.cur n' := by
    intro hp m hm
    rcases hm with rfl | hm
    · exact hcur
    · rcases hrec m hm with hm | rfl
      · exact hp m (.inr hm)
      · exact hcur
  have hself : Function.update pos i y i = y := Function.update_self ..
  have hne : ∀ j, j ≠ i → Function.update pos i y j = pos j := fun j hj => Function.update_of_ne hj ..
  refine ⟨hinv, hab, fun j => ?_, fun hp => hpin (h.pin hp), fun j hj => ?_, fun hb => ?_, fun j h1 h2 => ?_, fun j h1 h2 => ?_,
    fun j h1 h2 => ?_, fun j hs h1 h2 => ?_⟩
  · by_cases hji : j = i
    · subst hji
      simp only [Function.update_self]
      exact hat
    · simp only [Function.update_of_ne hji]
      exact h.at' j
  · by_cases hji : j = i
    · subst hji
      rw [hself] at hj
      rcases hdone hj with hd | hd
      · exact hpin (h.done j hd)
      · intro m hm
        rcases hm with rfl | hm
        · exact hcur
        · rw [hd m hm]; exact hcur
    · rw [hne j hji] at hj
      exact hpin (h.done j hj)
  · have hy := hb i
    rw [hself] at hy
    generalize hxi : pos i = x at hk
    cases hk with
    | same e ho hx hi hop hh =>
      show n'.data.main.chain.config = _
      rw [e]
      refine h.begun fun j => ?_
      by_cases hji : j = i
      · subst hji
        rw [hxi]
        exact .inl (ho.mpr (hy.resolve_right hi))
      · rw [← hne j hji]; exact hb j
    | truncate e => simp at hy
    | height q _ e => simp at hy
    | last d e hy' => rcases hy' with ⟨b, rfl⟩ | ⟨b, rfl⟩ <;> simp at hy
  · show n'.data.main.chain.config = some [] ∨ Real _ n'.data.main.chain.config ∨ Hole n'.data.main.chain.config
    generalize hxi : pos i = x at hk
    cases hk with
    | same e ho hx hi hop hh =>
      rw [e]
      by_cases hji : j = i
      · subst hji
        rw [hself] at h1
        exact h.shape j (fun hc => h1 (ho.mp (hxi ▸ hc))) (hxi ▸ hx)
      · rw [hne j hji] at h1 h2
        exact h.shape j h1 h2
    | truncate e => exact .inl e
    | height q hq e =>
      have := h.file (i := i) (by simp [hxi]) (by simp [hxi])
      obtain ⟨f, hf⟩ := this
      rw [e, hf]
      exact .inr (.inl (real_height _ q hq f))
    | last d e hy' =>
      rw [e]
      rcases h.shape i (by simp [hxi]) (by simp [hxi]) with hs | hs | hs
      · rw [hs]; exact .inr (.inr (hole_empty d))
      · exact .inr (.inl (real_last hs d))
      · exact .inr (.inr (hole_last hs d))
  · show _ ∨ Real _ n'.data.main.chain.config
    generalize hxi : pos i = x at hk
    cases hk with
    | same e ho hx hi hop hh =>
      rw [e]
      have : (∃ j, pos j = .opened) ∨ Real st.shared.data.main.chain.height.val c.shared.data.main.chain.config := by
        by_cases hji : j = i
        · subst hji
          rw [hself] at h1
          exact h.real j (fun hc => h1 (ho.mp (hxi ▸ hc))) (hxi ▸ hx)
        · rw [hne j hji] at h1 h2
          exact h.real j h1 h2
      refine this.imp (fun ⟨k, hk⟩ => ⟨k, ?_⟩) id
      by_cases hki : k = i
      · subst hki
        rw [hself]
        exact hop.mp (hxi ▸ hk)
      · rw [hne k hki]; exact hk
    | truncate e => exact .inl ⟨i, hself⟩
    | height q hq e =>
      obtain ⟨f, hf⟩ := h.file (i := i) (by simp [hxi]) (by simp [hxi])
      rw [e, hf]
      exact .inr (real_height _ q hq f)
    | last d e hy' =>
      rw [e]
      refine (h.real i (by simp [hxi]) (by simp [hxi])).imp (fun ⟨k, hk⟩ => ⟨k, ?_⟩) (fun hr => real_last hr d)
      rw [hne k (fun hc => by rw [hc, hxi] at hk; cases hk)]
      exact hk
  · show _ ∨ Complete n'.data.main.chain.config
    generalize hxi : pos i = x at hk
    cases hk with
    | same e ho hx hi hop hh =>
      rw [e]
      have : (∃ j, pos j = .opened ∨ ∃ b, pos j = .half b) ∨ Complete c.shared.data.main.chain.config := by
        by_cases hji : j = i
        · subst hji
          rw [hself] at h1
          exact h.complete j (fun hc => h1 (ho.mp (hxi ▸ hc))) (hxi ▸ hx)
        · rw [hne j hji] at h1 h2
          exact h.complete j h1 h2
      refine this.imp (fun ⟨k, hk⟩ => ⟨k, ?_⟩) id
      by_cases hki : k = i
      · subst hki
        rw [hself]
        exact hk.imp (fun hk => hop.mp (hxi ▸ hk)) (fun hk => hh (hxi ▸ hk))
      · rw [hne k hki]; exact hk
    | truncate e => exact .inl ⟨i, .inl hself⟩
    | height q hq e => exact .inl ⟨i, .inr ⟨false, hself⟩⟩
    | last d e hy' =>
      obtain ⟨f, hf⟩ := h.file (i := i) (by simp [hxi]) (by simp [hxi])
      rw [e, hf]
      exact .inr (complete_last d)
  · show (Function.update pos i y j = _ ∧ n'.data.main.chain.config = _) ∨ Real _ n'.data.main.chain.config
    generalize hxi : pos i = x at hk
    by_cases hji : j = i
    · subst hji
      have hs' : ∀ k, k ≠ j → pos k = .other := fun k hk => by rw [← hne k hk]; exact hs k hk
      rw [hself] at h1 h2 ⊢
      cases hk with
      | same e ho hx hi hop hh =>
        rw [e]
        have := h.single j hs' (by rw [hxi]; exact fun hc => h1 (ho.mp hc)) (by rw [hxi]; exact hx)
        rw [hxi, hop] at this
        exact this
      | truncate e => exact .inl ⟨rfl, e⟩
      | height q hq e =>
        obtain ⟨f, hf⟩ := h.file (i := j) (by simp [hxi]) (by simp [hxi])
        rw [e, hf]
        exact .inr (real_height _ q hq f)
      | last d e hy' =>
        rw [e]
        rcases h.single j hs' (by simp [hxi]) (by simp [hxi]) with ⟨hc, _⟩ | hr
        · rw [hxi] at hc; cases hc
        · exact .inr (real_last hr d)
    · have hy := hs i (Ne.symm hji)
      rw [hself] at hy
      subst hy
      rw [hne j hji] at h1 h2 ⊢
      cases hk with
      | same e ho hx hi hop hh =>
        rw [e]
        refine h.single j (fun k hk => ?_) h1 h2
        by_cases hki : k = i
        · subst hki; rw [hxi]; exact ho.mpr rfl
        · rw [← hne k hki]; exact hs k hk
      | last d e hy' => rcases hy' with ⟨b, hb⟩ | ⟨b, hb⟩ <;> cases hb

/-- A step of any thread. -/
theorem Mid.step [DecidableEq ι] {E : Env} {st c : Config ι Node Unit} {pos : ι → Pos} (h : Mid E st c pos) {i : ι}
    {next : Node → Option Node} {rest : Node → Prog Node Unit} {n' : Node} (hi : c.threads i = .step next rest)
    (hn : next c.shared = some n') (hm : c.shared.data.main.chain.height.val + 1 < U256.size) :
    ∃ y, (pos i = .other ↔ y = .other) ∧ y ≠ .idle ∧
      Mid E st ⟨n', Function.update c.threads i (rest c.shared)⟩ (Function.update pos i y) := by
  obtain ⟨habove, _, hinv⟩ := h.inv.step hi hn hm
  have hat := h.at' i
  rw [hi] at hat
  generalize hxi : pos i = x at hat
  have jobStep : ∀ (d : Hash) (j : Job) (js : List Job), run d (j :: js) = .step next rest →
      rest c.shared = run d js ∧ n' = { c.shared with data := j.write d c.shared.data } := by
    intro d j js e
    unfold run at e
    cases e
    cases hn
    exact ⟨rfl, rfl⟩
  have jobRec : ∀ (d : Hash) (j : Job) (n : Node), ∀ m ∈ (j.write d n.data).main.chain.blocks.recov,
      m ∈ n.data.main.chain.blocks.recov ∨ m = (j.write d n.data).main.chain.blocks.cur := by
    intro d j n m hm
    cases j with
    | blocks => exact .inr (by simpa [Job.write, Node.setChain, Db.flush] using hm)
    | last => exact .inl hm
    | references => exact .inl hm
    | transactions => exact .inl hm
  have jobDone : ∀ (d : Hash) (j : Job) (js : List Job) (n : Node), Job.blocks ∉ js → ¬ (Job.blocks ∉ j :: js) →
      ∀ m ∈ (j.write d n.data).main.chain.blocks.recov, m = (j.write d n.data).main.chain.blocks.cur := by
    intro d j js n h1 h2 m hm
    have : j = .blocks := by
      by_contra hj
      exact h2 (by simp [h1, Ne.symm hj])
    subst this
    simpa [Job.write, Node.setChain, Db.flush] using hm
  generalize hp : Prog.step next rest = p at hat
  cases hat with
  | other hg =>
    subst hp
    obtain ⟨hmild, hrest⟩ := hg _ _ hn
    exact ⟨.other, by simp, by simp, h.next hinv habove hmild.2 (.other hrest) (by simp)
      (.same hmild.1 (by simp [hxi]) (by simp [hxi]) (by simp) (by simp [hxi]) (by simp [hxi]))⟩
  | idle late =>
    cases hp
    cases hn
    refine ⟨.opened, by simp, by simp, h.next hinv habove (fun m hm => .inl hm) (.opened late) (by simp) ?_⟩
    rw [hxi]
    exact .truncate rfl
  | opened late =>
    cases hp
    simp only [Option.ite_none_left_eq_some] at hn
    cases hn.2
    refine ⟨.opened, by simp, by simp, h.next hinv habove (fun m hm => .inl hm) (.read late _ h.above.1) (by simp) ?_⟩
    exact .same rfl (by simp [hxi]) (by simp [hxi]) (by simp) (by simp [hxi]) (by simp [hxi])
  | read late q hq =>
    cases hp
    cases hn
    refine ⟨.half false, by simp, by simp, h.next hinv habove (fun m hm => .inl hm) (.written late) (by simp) ?_⟩
    rw [hxi]
    exact .height q hq rfl
  | written late =>
    cases hp
    cases hn
    have e : decide (Job.blocks ∉ jobs late) = false := (by decide : ∀ l, decide (Job.blocks ∉ jobs l) = false) late
    have hl : Job.last ∈ jobs late := (by decide : ∀ l, Job.last ∈ jobs l) late
    refine ⟨.half false, by simp, by simp, h.next hinv habove (fun m hm => .inl hm) (e ▸ .half _ _ hl) (by simp) ?_⟩
    exact .same rfl (by simp [hxi]) (by simp [hxi]) (by simp) (by simp [hxi]) (by simp [hxi])
  | half d js hl =>
    cases js with
    | nil => simp at hl
    | cons j js =>
      obtain ⟨e1, e2⟩ := jobStep d j js hp.symm
      rw [e1] at hinv ⊢
      subst e2
      have hd : ∀ y, y = Pos.half (decide (Job.blocks ∉ js)) ∨ y = .wrote (decide (Job.blocks ∉ js)) →
          (y = .half true ∨ y = .wrote true) → (pos i = .half true ∨ pos i = .wrote true) ∨
          ∀ m ∈ (j.write d c.shared.data).main.chain.blocks.recov, m = (j.write d c.shared.data).main.chain.blocks.cur := by
        intro y hy hy'
        have hjs : Job.blocks ∉ js := by
          rcases hy with rfl | rfl <;> simpa using hy'
        by_cases hb : Job.blocks ∉ j :: js
        · exact .inl (.inl (by rw [hxi]; simp only [hb, not_false_eq_true, decide_true]))
        · exact .inr (jobDone d j js c.shared hjs hb)
      by_cases hj : j = .last
      · subst hj
        by_cases hl' : Job.last ∈ js
        · refine ⟨_, by simp, by simp, h.next hinv habove (jobRec d _ _) (.half d js hl') (hd _ (.inl rfl)) ?_⟩
          rw [hxi]
          exact .last d rfl (.inl ⟨_, rfl⟩)
        · refine ⟨_, by simp, by simp, h.next hinv habove (jobRec d _ _) (.wrote d js hl') (hd _ (.inr rfl)) ?_⟩
          rw [hxi]
          exact .last d rfl (.inr ⟨_, rfl⟩)
      · have hl' : Job.last ∈ js := by
          rcases List.mem_cons.mp hl with hc | hc
          · exact absurd hc.symm hj
          · exact hc
        refine ⟨_, by simp, by simp, h.next hinv habove (jobRec d _ _) (.half d js hl') (hd _ (.inl rfl)) ?_⟩
        exact .same (by cases j <;> first | rfl | exact absurd rfl hj) (by simp [hxi]) (by simp [hxi]) (by simp) (by simp [hxi])
          (fun _ => ⟨_, rfl⟩)
  | wrote d js hl =>
    cases js with
    | nil => cases hp
    | cons j js =>
      obtain ⟨e1, e2⟩ := jobStep d j js hp.symm
      rw [e1] at hinv ⊢
      subst e2
      have hj : j ≠ .last := fun hc => hl (by simp [hc])
      refine ⟨_, by simp, by simp, h.next hinv habove (jobRec d _ _) (.wrote d js fun hc => hl (by simp [hc])) (fun hy => ?_) ?_⟩
      · have hjs : Job.blocks ∉ js := by simpa using hy
        by_cases hb : Job.blocks ∉ j :: js
        · exact .inl (.inr (by rw [hxi]; simp only [hb, not_false_eq_true, decide_true]))
        · exact .inr (jobDone d j js c.shared hjs hb)
      · exact .same (by cases j <;> first | rfl | exact absurd rfl hj) (by simp [hxi]) (by simp [hxi]) (by simp) (by simp [hxi])
          (by simp [hxi])

/-- Every state the threads go through from a moment at which no flush is in progress. -/
theorem exec_mid [DecidableEq ι] {E : Env} {st c : Config ι Node Unit} {log : List (Event ι Node)} (h : Exec st log c)
    {pos : ι → Pos} (hs : Mid E st st pos) (hm : st.shared.data.main.chain.height.val + log.length + 1 < U256.size) :
    ∃ pos', Mid E st c pos' ∧ ∀ i, (pos i = .other ↔ pos' i = .other) ∧ (pos i ≠ .idle → pos' i ≠ .idle) := by
  induction h with
  | refl => exact ⟨pos, hs, fun i => ⟨Iff.rfl, id⟩⟩
  | @step log c i next rest s' hprev hi hn ih =>
    rw [List.length_append, List.length_singleton] at hm
    obtain ⟨pos', h1, h2⟩ := ih (by omega)
    obtain ⟨_, hle, _⟩ := exec_chain hprev hs.inv (by omega)
    obtain ⟨y, e1, e2, h3⟩ := h1.step hi hn (by omega)
    refine ⟨_, h3, fun j => ?_⟩
    by_cases hji : j = i
    · subst hji
      rw [Function.update_self]
      exact ⟨(h2 j).1.trans e1, fun _ => e2⟩
    · rw [Function.update_of_ne hji]
      exact h2 j

theorem Prog.guar_any {R : Node → Node → Prop} (h : ∀ n n', R n n') (p : Prog Node Unit) : p.Guar R := by
  induction p with
  | done o => trivial
  | step next rest ih => exact fun s s' _ => ⟨h _ _, ih s⟩

/-! ## Statements -/

/-- A crash that left `d` has cost nothing that node `t` had: the node opens again, at no lower a height, with the same
blocks below it. -/
def Kept (E : Env) (t : Tree) (d : Disk) : Prop := (openTree E d).out = .ok () ∧
  t.main.getHeight.val ≤ (openTree E d).final.main.getHeight.val ∧
  ∀ q : U256, q.val < t.main.getHeight.val → (openTree E d).final.main.findRawByHeight q = t.main.findRawByHeight q

/-- No flush is in progress, nor a write in the background: every thread that flushes is yet to begin or at the end. -/
def Settled (E : Env) (calls : ι → Call) (c : Config ι Node Unit) : Prop :=
  ∀ i, (calls i).Flushes → c.threads i = (calls i).prog E ∨ c.threads i = .done (.ok ())

theorem readConfig_real {H : Nat} {c : Option Bytes} (h : Real H c) :
    (∃ q df, MainChain.readConfig c = .ok (q, df) ∧ H ≤ q.val) ∨ (MainChain.readConfig c = .err .chainInit ∧ ¬ Complete c) := by
  obtain ⟨f, q, rfl, h1, h2, h3⟩ := h
  unfold MainChain.readConfig
  simp only [if_pos h1]
  by_cases h64 : 64 ≤ f.length
  · rw [dif_pos h64, h2, fromBE_toBE, Outcome.ok_bind]
    exact .inl ⟨q, _, rfl, h3⟩
  · rw [dif_neg h64]
    exact .inr ⟨rfl, fun ⟨f', e, h⟩ => by cases e; exact h64 h⟩

theorem readConfig_hole {f : Bytes} {q : U256} {df : Hash} (h : MainChain.readConfig (some f) = .ok (q, df))
    (hz : f.take 32 = List.replicate 32 0) : q.val = 0 := by
  unfold MainChain.readConfig at h
  simp only at h
  split at h
  · split at h
    · rw [hz, show List.replicate 32 (0 : UInt8) = U256.zero.toBE.val by decide, fromBE_toBE, Outcome.ok_bind] at h
      cases h
      rfl
    · cases h
  · cases h

/-- What `Pin` and the config file give after a crash. -/
theorem kept_of {E : Env} {m c : Node} {d : Disk} {bs : List Block} (hg : Good E m.data.main.chain bs)
    (h1 : 1 ≤ m.data.main.chain.height.val) (hab : Above m.data.main.chain c.data.main.chain)
    (hp : Pin m.data.main.chain.blocks.cur c)
    (hc : ∃ q df, MainChain.readConfig c.data.main.chain.config = .ok (q, df) ∧ m.data.main.chain.height.val ≤ q.val)
    (hd : Crash c.data d) : Kept E m.data d := by
  have hs : ∀ q : U256, q.val < m.data.main.chain.height.val → ∃ v, m.data.main.chain.blocks.cur.get q.toBE.val = some v := by
    intro q hq
    exact ⟨_, hg.2.1 q.val (by rw [hg.1]; exact hq)⟩
  have hpin : Pinned m.data.main.chain.blocks.cur m.data.main.chain.height.val c.data.main.chain :=
    ⟨hc, hab.1, fun x hx q hq => by
      obtain ⟨v, hv⟩ := hs q hq
      rw [hv]
      exact hp x hx _ _ hv⟩
  obtain ⟨k1, k2, k3⟩ := hpin.reopen (E := E) hd h1
  refine ⟨k1, k2, fun q hq => (k3 q hq).trans ?_⟩
  unfold MainChain.findRawByHeight Chain.findRawByHeight
  rw [if_neg (show ¬ m.data.main.chain.height.val < q.val by
    have : q.val < m.data.main.chain.height.val := hq
    omega)]
  rfl

/-- What tells the first step of a flush from its other steps: it creates the file. -/
def probe : Prog Node Unit → Option (Option Bytes)
  | .done _ => none
  | .step next _ => (next ⟨Disk.empty.boot, false⟩).map fun n => n.data.main.chain.config

theorem at_initial {H : Nat} {late : Fin 4} {x : Pos} (h : At H (Late.flush late) x) : x = .other ∨ x = .idle := by
  generalize hp : Late.flush late = p at h
  have e : probe (Late.flush late) = some (some []) := rfl
  have hrun : ∀ d js, probe (run d js) ≠ some (some []) := by
    intro d js hc
    cases js with
    | nil => cases hc
    | cons j js => cases j <;> cases hc
  rw [hp] at e
  cases h with
  | other _ => exact .inl rfl
  | idle _ => exact .inr rfl
  | opened l => cases e
  | read l q _ => cases e
  | written l => cases e
  | half d js _ => exact absurd e (hrun d js)
  | wrote d js _ => exact absurd e (hrun d js)

theorem at_done {H : Nat} {o : Outcome Unit} {x : Pos} (h : At H (.done o) x) : x = .other ∨ x = .wrote true := by
  generalize hp : Prog.done o = p at h
  cases h with
  | other _ => exact .inl rfl
  | idle _ => cases hp
  | opened l => cases hp
  | read l q _ => cases hp
  | written l => cases hp
  | half d js hl =>
    cases js with
    | nil => simp at hl
    | cons j js => cases hp
  | wrote d js _ =>
    cases js with
    | nil => exact .inr rfl
    | cons j js => cases hp

/-- Positions at a settled moment. -/
theorem settled_mid [DecidableEq ι] {E : Env} {t : Tree} {calls : ι → Call} {log : List (Event ι Node)} {m : Config ι Node Unit}
    (hr : Run E t) (h : Exec (Late.start E t calls) log m) (hm : t.main.getHeight.val + log.length + 1 < U256.size)
    (hs : Settled E calls m) :
    ∃ pos, Mid E m m pos ∧ (∀ i, pos i = .other ∨ pos i = .idle) ∧
      (∀ i, ¬ (calls i).Flushes → pos i = .other) ∧
      (∀ i, (calls i).Flushes → m.threads i = (calls i).prog E → pos i = .idle) := by
  classical
  obtain ⟨bs, hbs⟩ := run_holds hr (by have : t.main.getHeight.val = t.main.chain.height.val := rfl; omega)
  have hinv0 : Inv E (Late.start E t calls) := .inl ⟨rfl, ⟨_, hbs⟩, fun i => adds_late E (calls i)⟩
  obtain ⟨hinv, _, _⟩ := exec_chain h hinv0 hm
  have hg := (h.guar (R := fun i n n' => (calls i).Flushes ∨ Mild n n') fun i => by
    by_cases hf : (calls i).Flushes
    · exact Prog.guar_any (fun _ _ => .inl hf) _
    · exact (mild_call E (calls i) hf).mono fun _ _ h => .inr h).2
  refine ⟨fun i => if (calls i).Flushes ∧ m.threads i = (calls i).prog E then .idle else .other, ?_, fun i => ?_, fun i hi => ?_,
    fun i hi he => ?_⟩
  · refine ⟨hinv, above_refl _, fun i => ?_, id, fun i hi => ?_, fun _ => rfl, fun i h1 h2 => ?_, fun i h1 h2 => ?_,
      fun i h1 h2 => ?_, fun i _ h1 h2 => ?_⟩
    · by_cases hi : (calls i).Flushes ∧ m.threads i = (calls i).prog E
      · rw [if_pos hi, hi.2]
        have hf := hi.1
        cases hcall : calls i with
        | flush late => exact .idle late
        | addBlock _ => rw [hcall] at hf; exact hf.elim
        | addTransaction _ => rw [hcall] at hf; exact hf.elim
        | send _ => rw [hcall] at hf; exact hf.elim
        | lookup _ => rw [hcall] at hf; exact hf.elim
      · rw [if_neg hi]
        by_cases hf : (calls i).Flushes
        · rcases hs i hf with he | he
          · exact absurd ⟨hf, he⟩ hi
          · rw [he]; exact .other trivial
        · exact .other ((hg i).mono fun _ _ h => h.resolve_left hf)
    · split at hi <;> simp at hi
    all_goals split at h1 <;> simp_all
  · by_cases hi : (calls i).Flushes ∧ m.threads i = (calls i).prog E
    · exact .inr (if_pos hi)
    · exact .inl (if_neg hi)
  · exact if_neg fun h => hi h.1
  · exact if_pos ⟨hi, he⟩

/-- C107 in full: once a flush has returned, and no other flush is under way, a crash costs nothing that was there
before the flush began. -/
def C107_full : Prop := ∀ (E : Env) (ι : Type) [DecidableEq ι] (t : Tree) (calls : ι → Call) (log log' : List (Event ι Node))
  (m c : Config ι Node Unit) (i : ι) (d : Disk), Run E t → t.main.getHeight.val + log.length + log'.length + 1 < U256.size →
  Exec (Late.start E t calls) log m → Exec m log' c → (calls i).Flushes → m.threads i = (calls i).prog E →
  Returned (c.threads i) → (∀ j, (calls j).Flushes → c.threads j = (calls j).prog E ∨ Returned (c.threads j)) →
  Crash c.shared.data d → Kept E m.shared.data d

/-- C107 when no flush is in progress as this one begins, any number of flushes and other calls overlap with it, and all
of them, writes in the background included, have come to an end. -/
theorem C107_settled_partial (E : Env) (ι : Type) [DecidableEq ι] (t : Tree) (calls : ι → Call) (log log' : List (Event ι Node))
    (m c : Config ι Node Unit) (i : ι) (d : Disk) (hr : Run E t)
    (hm : t.main.getHeight.val + log.length + log'.length + 1 < U256.size)
    (h : Exec (Late.start E t calls) log m) (h' : Exec m log' c) (hi : (calls i).Flushes) (hb : m.threads i = (calls i).prog E)
    (hsm : Settled E calls m) (hsc : Settled E calls c) (he : c.threads i = .done (.ok ())) (hd : Crash c.shared.data d) :
    Kept E m.shared.data d := by
  obtain ⟨pos, hmid, hall, hother, hidle⟩ := settled_mid hr h (by omega) hsm
  obtain ⟨bs, hbs⟩ := run_holds hr (by have : t.main.getHeight.val = t.main.chain.height.val := rfl; omega)
  have hinv0 : Inv E (Late.start E t calls) := .inl ⟨rfl, ⟨_, hbs⟩, fun i => adds_late E (calls i)⟩
  obtain ⟨_, hle, hev⟩ := exec_chain h hinv0 (by show t.main.getHeight.val + _ + _ < _; omega)
  have hab := (h.sorted (R := fun n n' : Node => Above n.data.main.chain n'.data.main.chain) (fun _ => above_refl _)
    (fun _ _ _ => above_trans) (fun e he => (hev e he).2.2)).1
  have h1 : 1 ≤ m.shared.data.main.chain.height.val := Nat.le_trans (life_height_pos (run_life hr)) hab.1
  have hle' : m.shared.data.main.chain.height.val ≤ t.main.getHeight.val + log.length := hle
  obtain ⟨pos', hc, hpos⟩ := exec_mid h' hmid (by omega)
  have hat := hc.at' i
  rw [he] at hat
  have hno : pos' i ≠ .other := by
    intro hx
    have := (hpos i).1.mpr hx
    rw [hidle i hi hb] at this
    cases this
  have hw : pos' i = .wrote true := (at_done hat).resolve_left hno
  have hrest : ∀ j, pos' j ≠ .opened ∧ ∀ b, pos' j ≠ .half b := by
    intro j
    by_cases hf : (calls j).Flushes
    · have hatj := hc.at' j
      rcases hsc j hf with e | e
      · rw [e] at hatj
        cases hcall : calls j with
        | flush late =>
          rw [hcall] at hatj
          rcases at_initial hatj with e | e <;> simp [e]
        | addBlock _ => rw [hcall] at hf; exact hf.elim
        | addTransaction _ => rw [hcall] at hf; exact hf.elim
        | send _ => rw [hcall] at hf; exact hf.elim
        | lookup _ => rw [hcall] at hf; exact hf.elim
      · rw [e] at hatj
        rcases at_done hatj with e | e <;> simp [e]
    · have := (hpos j).1.mp (hother j hf)
      simp [this]
  have hreal := (hc.real i hno (by simp [hw])).resolve_left fun ⟨j, hj⟩ => (hrest j).1 hj
  have hcomp := (hc.complete i hno (by simp [hw])).resolve_left fun ⟨j, hj⟩ => by
    rcases hj with hj | ⟨b, hj⟩
    · exact (hrest j).1 hj
    · exact (hrest j).2 b hj
  obtain ⟨bs', hg⟩ := hmid.inv.good
  refine kept_of hg h1 hc.above (hc.done i (.inr hw)) ?_ hd
  rcases readConfig_real hreal with h | ⟨_, h⟩
  · exact h
  · exact absurd hcomp h

/-- C106 in full: whatever threads do on a node that was flushed, a crash after which the node opens again costs nothing
that was there then. -/
def C106_full : Prop := ∀ (E : Env) (ι : Type) [DecidableEq ι] (s : Tree) (calls : ι → Call) (log : List (Event ι Node))
  (c : Config ι Node Unit) (d : Disk), Run E s → s.main.getHeight.val + log.length + 1 < U256.size →
  Exec (Late.start E (Op.flush.run E s).final calls) log c → Crash c.shared.data d → (openTree E d).out = .ok () → Kept E s d

/-- C106, exactly what can go wrong: the config file begins with zeros where the height should be, and the node starts
over. With one flush at most it cannot. -/
theorem C106_only_hole_partial (E : Env) (ι : Type) [DecidableEq ι] (s : Tree) (calls : ι → Call) (log : List (Event ι Node))
    (c : Config ι Node Unit) (d : Disk) (hr : Run E s) (hm : s.main.getHeight.val + log.length + 1 < U256.size)
    (h : Exec (Late.start E (Op.flush.run E s).final calls) log c) (hd : Crash c.shared.data d)
    (ho : (openTree E d).out = .ok ()) :
    (Kept E s d ∨ ((∃ f, d.config = some f ∧ f.take 32 = List.replicate 32 0) ∧
      (openTree E d).final.main.getHeight.val = 1)) ∧
    ((∀ i j, (calls i).Flushes → (calls j).Flushes → i = j) → Kept E s d) := by
  have hrun : Run E (Op.flush.run E s).final := .call s .flush hr trivial
  have hfl := (flush_op E s).2
  have hheight : (Op.flush.run E s).final.main.getHeight = s.main.getHeight := by rw [hfl]; rfl
  have hkeep : Kept E (Op.flush.run E s).final d → Kept E s d := by
    rintro ⟨k1, k2, k3⟩
    rw [hheight] at k2
    refine ⟨k1, k2, fun q hq => ?_⟩
    rw [k3 q (by rw [hheight]; exact hq), hfl]
    rfl
  obtain ⟨pos, hmid, hall, hother, hidle⟩ := settled_mid hrun (Exec.refl (start := Late.start E (Op.flush.run E s).final calls))
    (by rw [hheight]; simp only [List.length_nil]; omega) (fun i _ => .inl rfl)
  obtain ⟨pos', hc, hpos⟩ := exec_mid h hmid (by
    show (Op.flush.run E s).final.main.getHeight.val + _ + _ < _
    rw [hheight]; exact hm)
  have hpin : Pin (Op.flush.run E s).final.main.chain.blocks.cur c.shared := by
    refine hc.pin fun x hx => ?_
    have : x = (Op.flush.run E s).final.main.chain.blocks.cur := by
      rcases hx with hx | hx
      · exact hx
      · rw [hfl]
        have hx : x ∈ (Op.flush.run E s).final.main.chain.blocks.recov := hx
        rw [hfl] at hx
        exact Db.flush_recov hx
    rw [this]
    exact fun _ _ h => h
  obtain ⟨bs', hg⟩ := hmid.inv.good
  have h1 : 1 ≤ (Op.flush.run E s).final.main.chain.height.val := life_height_pos (run_life hrun)
  have hfin := fun hcfg => hkeep (kept_of (E := E) hg h1 hc.above hpin hcfg hd)
  have hreal : Real (Op.flush.run E s).final.main.chain.height.val c.shared.data.main.chain.config → Kept E s d := by
    intro hre
    rcases readConfig_real hre with h | ⟨h, _⟩
    · exact hfin h
    · rw [← hd.config] at h
      rw [openTree_torn h] at ho
      cases ho
  have hempty : c.shared.data.main.chain.config = some [] → False := by
    intro e
    rw [← hd.config] at e
    rw [openTree_torn (by rw [e]; rfl)] at ho
    cases ho
  by_cases hbeg : ∀ i, pos' i = .other ∨ pos' i = .idle
  · have hk : Kept E s d := by
      refine hfin ?_
      rw [hc.begun hbeg]
      refine ⟨_, s.main.chain.difficulty, ?_, Nat.le_refl _⟩
      show MainChain.readConfig (Op.flush.run E s).final.main.chain.config = .ok ((Op.flush.run E s).final.main.chain.height, _)
      rw [hfl]
      exact MainChain.readConfig_written _ _
    exact ⟨.inl hk, fun _ => hk⟩
  · obtain ⟨i, hi⟩ : ∃ i, ¬ (pos' i = .other ∨ pos' i = .idle) := by
      by_contra hx
      exact hbeg fun i => by
        by_contra hi
        exact hx ⟨i, hi⟩
    simp only [not_or] at hi
    refine ⟨?_, fun hu => ?_⟩
    · rcases hc.shape i hi.1 hi.2 with hs | hs | hs
      · exact (hempty hs).elim
      · exact .inl (hreal hs)
      · rw [← hd.config] at hs
        obtain ⟨f, hf, hz⟩ := hs
        refine .inr ⟨⟨f, hf, hz⟩, ?_⟩
        rcases openTree_ok ho with ⟨q, df, hq, hne⟩ | ⟨df, hq⟩
        · exact absurd (readConfig_hole (hf ▸ hq) hz) hne
        · rw [(openTree_zero hq).2]
          rfl
    · have hfi : (calls i).Flushes := by
        by_contra hx
        exact hi.1 ((hpos i).1.mp (hother i hx))
      rcases hc.single i (fun j hj => (hpos j).1.mp (hother j fun hx => hj (hu j i hx hfi))) hi.1 hi.2 with ⟨_, hs⟩ | hs
      · exact (hempty hs).elim
      · exact hreal hs

/-! ## Executions that lose something -/

/-- One thread alone gets from one point to another in so many steps. -/
inductive RunsIn : Nat → Prog Node Unit → Node → Prog Node Unit → Node → Prop where
  | refl {p s} : RunsIn 0 p s p s
  | step {k : Nat} {next : Node → Option Node} {rest : Node → Prog Node Unit} {s s' q t} : next s = some s' →
      RunsIn k (rest s) s' q t → RunsIn (k + 1) (.step next rest) s q t

theorem Exec.goIn [DecidableEq ι] {start : Config ι Node Unit} {s : Node} {th : ι → Prog Node Unit} {log : List (Event ι Node)}
    (h : Exec start log ⟨s, th⟩) (i : ι) {k : Nat} {p q : Prog Node Unit} {t : Node} (hp : th i = p) (hr : RunsIn k p s q t) :
    ∃ log', log'.length = k ∧ Exec start (log ++ log') ⟨t, Function.update th i q⟩ := by
  induction hr generalizing th log with
  | refl =>
    refine ⟨[], rfl, ?_⟩
    rw [← hp, Function.update_eq_self, List.append_nil]
    exact h
  | @step k next rest s s' q t hn _ ih =>
    obtain ⟨log', hl, hl'⟩ := ih (Exec.step i h hp hn) (by simp)
    refine ⟨⟨i, s, s'⟩ :: log', by rw [List.length_cons, hl], ?_⟩
    rw [Function.update_idem] at hl'
    simpa using hl'

/-- After a flush has returned and before its last write is made. -/
def pending (t : Tree) : Tree :=
  Job.transactions.write t.main.chain.difficulty (Job.references.write t.main.chain.difficulty
    (Job.blocks.write t.main.chain.difficulty (Node.writeConfigAt 0 t.main.chain.height.toBE.val
      (Node.setChain (fun c => { c with config := some [] }) t))))

theorem runs_pending (t : Tree) :
    RunsIn 7 (Late.flush 3) ⟨t, false⟩ (Late.run t.main.chain.difficulty [.last]) ⟨pending t, false⟩ :=
  .step rfl (.step rfl (.step rfl (.step rfl (.step rfl (.step rfl (.step rfl .refl))))))

/-- The next flush truncates the config file before the write is made. -/
def holed (t : Tree) : Tree :=
  Job.last.write t.main.chain.difficulty (Node.setChain (fun c => { c with config := some [] }) (pending t))

theorem runs_truncate (t : Tree) : RunsIn 1 (Late.flush 3) ⟨t, false⟩ (afterOpen 3)
    ⟨Node.setChain (fun c => { c with config := some [] }) t, false⟩ := .step rfl .refl

theorem runs_last (t : Tree) (d : Hash) : RunsIn 1 (Late.run d [.last]) ⟨t, false⟩ (.done (.ok ()))
    ⟨Job.last.write d t, false⟩ := .step rfl .refl

theorem pending_sound {t : Tree} (h : Sound t) : Sound (pending t) :=
  { h with
    blocks := Db.sound_flush _
    heightReference := Db.sound_flush _
    transactions := Db.sound_flush _ }

theorem holed_sound {t : Tree} (h : Sound t) : Sound (holed t) :=
  { h with
    blocks := Db.sound_flush _
    heightReference := Db.sound_flush _
    transactions := Db.sound_flush _ }

theorem pending_config (t : Tree) : (pending t).main.chain.config = some t.main.chain.height.toBE.val := by
  show some (Node.writeAt 0 t.main.chain.height.toBE.val []) = _
  rw [Node.writeAt_zero_nil]

theorem holed_config (t : Tree) :
    (holed t).main.chain.config = some (List.replicate 32 0 ++ t.main.chain.difficulty.val) := by
  show some (Node.writeAt 32 t.main.chain.difficulty.val []) = _
  simp [Node.writeAt]

theorem readConfig_holed (d : Hash) :
    MainChain.readConfig (some (List.replicate 32 0 ++ d.val)) = .ok (U256.zero, d) := by
  rw [show List.replicate 32 (0 : UInt8) = U256.zero.toBE.val by decide]
  exact MainChain.readConfig_written _ _

/-- Two threads flush. -/
def twoFlushes : Bool → Call := fun _ => .flush 3

/-- C106 refuted. A node of any state is flushed. One thread flushes it again, and the call returns; then another thread
begins to flush it. Should the process die now, the node opens as a new one: all its blocks are forgotten. -/
theorem C106_refuted :
    (∀ (E : Env) (s : Tree), Run E s → ∃ log m log' c, log.length = 7 ∧ log'.length = 2 ∧
      Exec (Late.start E (Op.flush.run E s).final twoFlushes) log m ∧ Returned (m.threads false) ∧
      m.threads true = (twoFlushes true).prog E ∧ Exec m log' c ∧
      (Op.flush.run E s).final.main.getHeight = s.main.getHeight ∧
      Crash c.shared.data c.shared.data.close ∧
      ∀ d, Crash c.shared.data d → (openTree E d).out = .ok () ∧ (openTree E d).final.main.getHeight.val = 1) ∧
    ¬ C106_full := by
  have main : ∀ (E : Env) (s : Tree), Run E s → ∃ log m log' c, log.length = 7 ∧ log'.length = 2 ∧
      Exec (Late.start E (Op.flush.run E s).final twoFlushes) log m ∧ Returned (m.threads false) ∧
      m.threads true = (twoFlushes true).prog E ∧ Exec m log' c ∧
      (Op.flush.run E s).final.main.getHeight = s.main.getHeight ∧
      Crash c.shared.data c.shared.data.close ∧
      ∀ d, Crash c.shared.data d → (openTree E d).out = .ok () ∧ (openTree E d).final.main.getHeight.val = 1 := by
    intro E s hr
    have hrun : Run E (Op.flush.run E s).final := .call s .flush hr trivial
    have hheight : (Op.flush.run E s).final.main.getHeight = s.main.getHeight := by rw [(flush_op E s).2]; rfl
    generalize (Op.flush.run E s).final = t at hrun hheight ⊢
    obtain ⟨l1, e1, h1⟩ := Exec.goIn (start := Late.start E t twoFlushes) (log := []) (s := ⟨t, false⟩)
      (th := fun i => (twoFlushes i).prog E) .refl false (p := Late.flush 3) rfl (runs_pending t)
    obtain ⟨l2, e2, h2⟩ := Exec.goIn (Exec.refl (start := ⟨⟨pending t, false⟩, _⟩)) true (p := Late.flush 3)
      (th := Function.update (fun i => (twoFlushes i).prog E) false (Late.run t.main.chain.difficulty [.last])) rfl
      (runs_truncate (pending t))
    obtain ⟨l3, e3, h3⟩ := Exec.goIn h2 false (p := Late.run t.main.chain.difficulty [.last]) rfl (runs_last _ _)
    refine ⟨_, _, _, _, e1, ?_, h1, .inr ⟨_, rfl⟩, rfl, h3, hheight, (holed_sound (life_sound (run_life hrun))).close, ?_⟩
    · rw [List.length_append, List.nil_append, e2, e3]
    · intro d hd
      have hcfg : d.config = (holed t).main.chain.config := hd.config
      have hc : MainChain.readConfig d.config = .ok (U256.zero, t.main.chain.difficulty) := by
        rw [hcfg, holed_config]
        exact readConfig_holed _
      have := openTree_zero (E := E) hc
      exact ⟨this.1, by rw [this.2]; rfl⟩
  refine ⟨main, fun hfull => ?_⟩
  have hr : Run zeroEnv ((Op.addBlock nextBlock).run zeroEnv (openTree zeroEnv Disk.empty).final).final :=
    .call _ _ .fresh trivial
  have hb : nextBlock.info.height = (openTree zeroEnv Disk.empty).final.main.chain.height := by
    rw [(openTree_fresh zeroEnv).2]; rfl
  have hm : (openTree zeroEnv Disk.empty).final.main.chain.height.val + 1 < U256.size := by
    rw [← hb]; decide +kernel
  have h2 : ((Op.addBlock nextBlock).run zeroEnv (openTree zeroEnv Disk.empty).final).final.main.getHeight.val = 2 := by
    rw [(add_ok _ _ _ hb hm).2]
    show (openTree zeroEnv Disk.empty).final.main.chain.height.val + 1 = 2
    rw [← hb]; rfl
  obtain ⟨log, m, log', c, e, e', h, -, -, h', -, hcr, hd⟩ := main zeroEnv _ hr
  have := hfull zeroEnv Bool _ twoFlushes (log ++ log') c _ hr (by
    rw [h2, List.length_append, e, e']; decide +kernel) (h.trans h') hcr (hd _ hcr).1
  have h3 := this.2.1
  rw [h2, (hd _ hcr).2] at h3
  omega

/-- Two threads flush and one adds a block. -/
def overlap (b : Block) : Fin 3 → Call
  | ⟨0, _⟩ => .flush 0
  | ⟨1, _⟩ => .flush 0
  | ⟨2, _⟩ => .addBlock b

/-- What is left of a flush that has read the height. -/
theorem runs_read (t : Tree) : RunsIn 2 (Late.flush 0) ⟨t, false⟩ (afterHeight 0 t.main.chain.height)
    ⟨Node.setChain (fun c => { c with config := some [] }) t, false⟩ := .step rfl (.step rfl .refl)

/-- The flush as a whole, begun now. -/
def done (h : U256) (t : Tree) : Tree :=
  Job.transactions.write t.main.chain.difficulty (Job.references.write t.main.chain.difficulty
    (Job.blocks.write t.main.chain.difficulty (Job.last.write t.main.chain.difficulty
      (Node.writeConfigAt 0 h.toBE.val t))))

theorem runs_rest (h : U256) (t : Tree) : RunsIn 6 (afterHeight 0 h) ⟨t, false⟩ (.done (.ok ())) ⟨done h t, false⟩ :=
  .step rfl (.step rfl (.step rfl (.step rfl (.step rfl (.step rfl .refl)))))

/-- With no write left in the background the flush is that of `Model.Threads`. -/
theorem late_zero : Late.flush 0 = Node.mainFlush := rfl

theorem config_rewritten (a b : U256) (d : Hash) :
    Node.writeAt 32 d.val (Node.writeAt 0 a.toBE.val (Node.writeAt 32 d.val (Node.writeAt 0 b.toBE.val []))) =
      a.toBE.val ++ d.val := by
  have h1 := Node.writeAt_end b.toBE.val d.val
  rw [b.toBE.property] at h1
  rw [Node.writeAt_zero_nil, h1]
  have ha := a.toBE.property
  have hb := b.toBE.property
  have hd := d.property
  simp [Node.writeAt, ha, hb, hd]

/-- C107 refuted, in two ways. A flush has returned, on a node of any state and with no other call under way, and its last
write is still to be made: should the process die now, the node never opens again. And with every write made: one flush reads
the height, a block is added, another flush is made from beginning to end, and the first goes on and writes the height it
has read; the block is gone, although a flush that began after the block was added has come to an end. -/
theorem C107_refuted :
    (∀ (E : Env) (t : Tree), Run E t → ∃ log c, log.length = 7 ∧
      Exec (Late.start E t fun _ : Unit => .flush 3) log c ∧ Returned (c.threads ()) ∧
      Crash c.shared.data c.shared.data.close ∧
      ∀ d, Crash c.shared.data d → (openTree E d).out = .err .chainInit) ∧
    (∀ (E : Env) (t : Tree) (b : Block), Run E t → b.info.height = t.main.getHeight → t.main.getHeight.val + 1 < U256.size →
      ∃ log m log' c, Exec (Late.start E t (overlap b)) log m ∧ m.threads 1 = (overlap b 1).prog E ∧
        m.threads 2 = .done (.ok ()) ∧ m.shared.data.main.getHeight.val = t.main.getHeight.val + 1 ∧
        Exec m log' c ∧ (∀ i, c.threads i = .done (.ok ())) ∧ Crash c.shared.data c.shared.data.close ∧
        ∀ d, Crash c.shared.data d →
          (openTree E d).out = .ok () ∧ (openTree E d).final.main.getHeight = t.main.getHeight) ∧
    ¬ C107_full := by
  have main : ∀ (E : Env) (t : Tree), Run E t → ∃ log c, log.length = 7 ∧
      Exec (Late.start E t fun _ : Unit => .flush 3) log c ∧ Returned (c.threads ()) ∧
      Crash c.shared.data c.shared.data.close ∧
      ∀ d, Crash c.shared.data d → (openTree E d).out = .err .chainInit := by
    intro E t hr
    obtain ⟨l1, e1, h1⟩ := Exec.goIn (start := Late.start E t fun _ : Unit => .flush 3) (log := []) (s := ⟨t, false⟩)
      (th := fun _ => Late.flush 3) .refl () (p := Late.flush 3) rfl (runs_pending t)
    refine ⟨_, _, e1, h1, .inr ⟨_, rfl⟩, (pending_sound (life_sound (run_life hr))).close, fun d hd => ?_⟩
    have hcfg : d.config = (pending t).main.chain.config := hd.config
    rw [openTree_torn]
    rw [hcfg, pending_config]
    simp [MainChain.readConfig, t.main.chain.height.toBE.property]
  refine ⟨main, ?_, fun hfull => ?_⟩
  · intro E t b hr hb hm
    have hb' : b.info.height = (Node.setChain (fun c => { c with config := some [] }) t).main.chain.height := hb
    obtain ⟨t1, ht1⟩ : ∃ t1, t1 = Node.setChain (fun c => { c with config := some [] }) t := ⟨_, rfl⟩
    rw [← ht1] at hb'
    have hm1 : t1.main.chain.height.val + 1 < U256.size := by rw [ht1]; exact hm
    have hadd := Node.addBlock_impl E b t1
    have hres : Tree.onMain (MainChain.addBlock E b) t1 = (Op.addBlock b).run E t1 := by rw [addBlock_op]; rfl
    rw [Node.ImplAt, hres, (add_ok E t1 b hb' hm1).1, (add_ok E t1 b hb' hm1).2] at hadd
    obtain ⟨l1, -, h1⟩ := Exec.goIn (start := Late.start E t (overlap b)) (log := []) (s := ⟨t, false⟩)
      (th := fun i => (overlap b i).prog E) .refl 0 (p := Late.flush 0) rfl (runs_read t)
    rw [← ht1] at h1
    obtain ⟨l2, h2⟩ := h1.go 2 rfl (Prog.runs_of_solo hadd)
    generalize ht2 : ({ t1 with main := { t1.main with chain := t1.main.chain.put3 E b.dump ⟨t1.main.chain.height.val + 1, hm1⟩ } } : Tree) = t2 at h2
    obtain ⟨l3, -, h3⟩ := Exec.goIn (Exec.refl (start := ⟨⟨t2, false⟩, _⟩)) 1 (p := Late.flush 0)
      (th := Function.update (Function.update (fun i => (overlap b i).prog E) 0 (afterHeight 0 t.main.chain.height)) 2
        (.done (.ok ()))) rfl (runs_read t2)
    obtain ⟨l4, -, h4⟩ := Exec.goIn h3 1 (p := afterHeight 0 t2.main.chain.height) rfl (runs_rest _ _)
    obtain ⟨l5, -, h5⟩ := Exec.goIn h4 0 (p := afterHeight 0 t.main.chain.height) rfl (runs_rest _ _)
    have hs := life_sound (run_life hr)
    refine ⟨_, _, _, _, h2, rfl, rfl, ?_, h5, ?_, ?_, ?_⟩
    · subst ht2; subst ht1; rfl
    · intro i
      match i with
      | ⟨0, _⟩ => rfl
      | ⟨1, _⟩ => rfl
      | ⟨2, _⟩ => rfl
    · refine Sound.close ?_
      subst ht2; subst ht1
      exact { hs with
        blocks := Db.sound_flush _
        heightReference := Db.sound_flush _
        transactions := Db.sound_flush _ }
    · intro d hd
      have hcfg := hd.config
      have hc : MainChain.readConfig d.config = .ok (t.main.chain.height, t.main.chain.difficulty) := by
        rw [hcfg]
        subst ht2; subst ht1
        show MainChain.readConfig (some (Node.writeAt 32 t.main.chain.difficulty.val (Node.writeAt 0 t.main.chain.height.toBE.val
          (Node.writeAt 32 t.main.chain.difficulty.val (Node.writeAt 0 (U256.toBE _).val []))))) = _
        rw [config_rewritten]
        exact MainChain.readConfig_written _ _
      have hp := life_height_pos (run_life hr)
      have := openTree_pos (E := E) hc (by omega)
      exact ⟨this.1, by rw [this.2]; rfl⟩
  · obtain ⟨log, c, e, h, hret, hcr, hd⟩ := main zeroEnv _ .fresh
    have := (hfull zeroEnv Unit _ (fun _ => .flush 3) [] log _ c () _ .fresh (by
      rw [e, (openTree_fresh zeroEnv).2]; decide +kernel) .refl h trivial rfl hret (fun _ _ => .inr hret) hcr).1
    rw [hd _ hcr] at this
    cases this

/-- A thread adds a block to a new node and another flushes it, the write in the background made after the first database
is flushed: the hypotheses of `C107_settled_partial` hold, and those of `C106_only_hole_partial` with one flush. -/
example (E : Env) : ∃ log m log' c, Exec (Late.start E (openTree E Disk.empty).final
      fun i : Bool => if i then .flush 1 else .addBlock nextBlock) log m ∧ Exec m log' c ∧
    m.threads true = Late.flush 1 ∧ m.shared.data.main.getHeight.val = 2 ∧ c.threads true = .done (.ok ()) ∧
    Settled E (fun i : Bool => if i then .flush 1 else .addBlock nextBlock) m ∧
    Settled E (fun i : Bool => if i then .flush 1 else .addBlock nextBlock) c ∧ Crash c.shared.data c.shared.data.close := by
  obtain ⟨t, ht⟩ : ∃ t, t = (openTree E Disk.empty).final := ⟨_, rfl⟩
  rw [← ht]
  have hb : nextBlock.info.height = t.main.chain.height := by rw [ht, (openTree_fresh E).2]; rfl
  have h1 : t.main.chain.height.val = 1 := by rw [← hb]; rfl
  have hm : t.main.chain.height.val + 1 < U256.size := by rw [← hb]; decide +kernel
  have hadd := Node.addBlock_impl E nextBlock t
  have hres : Tree.onMain (MainChain.addBlock E nextBlock) t = (Op.addBlock nextBlock).run E t := by rw [addBlock_op]; rfl
  rw [Node.ImplAt, hres, (add_ok E t _ hb hm).1, (add_ok E t _ hb hm).2] at hadd
  obtain ⟨l1, hl1⟩ := Exec.go (start := Late.start E t fun i : Bool => if i then .flush 1 else .addBlock nextBlock) (log := [])
    (s := ⟨t, false⟩) .refl false (p := Node.addBlock E nextBlock) rfl (Prog.runs_of_solo hadd)
  obtain ⟨l2, -, hl2⟩ := Exec.goIn (Exec.refl (start := ⟨⟨{ t with main := { t.main with
      chain := t.main.chain.put3 E nextBlock.dump ⟨t.main.chain.height.val + 1, hm⟩ } }, false⟩, _⟩)) true (p := Late.flush 1)
    (th := Function.update (fun i : Bool => Call.prog E (if i then .flush 1 else .addBlock nextBlock)) false (.done (.ok ()))) rfl
    (.step rfl (.step rfl (.step rfl (.step rfl (.step rfl (.step rfl (.step rfl (.step rfl .refl))))))))
  have hs : Sound t := by rw [ht]; exact life_sound (life_fresh E)
  refine ⟨_, _, _, _, hl1, hl2, rfl, ?_, rfl, ?_, ?_, Sound.close ?_⟩
  · show t.main.chain.height.val + 1 = 2
    rw [h1]
  · intro i hi
    cases i with
    | false => exact hi.elim
    | true => exact .inl rfl
  · intro i hi
    cases i with
    | false => exact hi.elim
    | true => exact .inr rfl
  · exact { hs with
      blocks := Db.sound_flush _
      heightReference := Db.sound_flush _
      transactions := Db.sound_flush _ }

end BCT.Props
