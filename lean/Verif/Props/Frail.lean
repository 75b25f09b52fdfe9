import Verif.Lemmas.DurableCrash
import Verif.Props.Refine
/-!
# C138: a node that is killed and started again

`Verif/Spec/Frail.lean` has an abstract node made of lists and tables that also remembers how much of them was written
out. It is killed and started again any number of times, between calls, during calls and while it begins. All that can
happen to the node can happen to the abstract one, with the same replies and the same answers, and the other way round.
-/

namespace BCT.Props
open BCT

/-! ## What can happen to the node -/

/-- A process begins on a directory. It may be killed while it begins; then the next one begins on what is left. The
reply is that of the last one. -/
inductive Boots (E : Env) : Disk → Spec.Reply → Tree → Prop where
  | done (d : Disk) : Boots E d (replyOf (openTree E d).out) (openTree E d).final
  | again {d d' : Disk} {u t : Tree} {r : Spec.Reply} : (u ∈ (openTree E d).trace ∨ u = (openTree E d).final) → Crash u d' →
      Boots E d' r t → Boots E d r t

/-- The calls that write none of the configuration files. -/
def NoConfig (t : Tree) : Op → Prop
  | .flush | .mainFlush | .derivFlush _ => False
  | .emitMain _ _ _ _ => t.main.chain.height.val % 1000000 ≠ 0
  | _ => True

/-- What can happen to the node. -/
inductive Happens (E : Env) : Tree → List Spec.Frail.Incident → List Spec.Reply → Tree → Prop where
  | nil (t : Tree) : Happens E t [] [] t
  | call {t t' : Tree} {op : Op} {evs : List Spec.Frail.Incident} {rs : List Spec.Reply} :
      Happens E (op.run E t).final evs rs t' → Happens E t (.call op :: evs) (replyOf (op.run E t).out :: rs) t'
  | crash {t t₁ t' : Tree} {d : Disk} {r : Spec.Reply} {evs : List Spec.Frail.Incident} {rs : List Spec.Reply} :
      Crash t d → Boots E d r t₁ → Happens E t₁ evs rs t' → Happens E t (.crash :: evs) (r :: rs) t'
  | die {t u t₁ t' : Tree} {d : Disk} {r : Spec.Reply} {op : Op} {evs : List Spec.Frail.Incident} {rs : List Spec.Reply} :
      NoConfig t op → (u ∈ (op.run E t).trace ∨ u = (op.run E t).final) → Crash u d → Boots E d r t₁ →
      Happens E t₁ evs rs t' → Happens E t (.die op :: evs) (r :: rs) t'

/-! ## The two are the same -/

section
variable {E : Env}

theorem frail_short {k : Nat} {f : Spec.Frail} (h : Short k f.node) (op : Op) : Short (k + 1) (f.step E op).2.node := by
  rw [frail_step_node]; exact short_stepOver h op

theorem bears_pos {t : Tree} {f : Spec.Frail} (h : Bears E t f) {k : Nat} (hk : Short k f.node) : 1 ≤ k := by
  obtain ⟨bs, e⟩ := h.mirrors.first
  have := hk.1
  rw [e, List.length_cons] at this
  omega

theorem noConfig_iff {t : Tree} {f : Spec.Frail} (h : Bears E t f) (op : Op) : NoConfig t op ↔ f.writesNoConfig op := by
  have hh := h.mirrors.height
  cases op with
  | emitMain p fo txs ts =>
    show _ % 1000000 ≠ 0 ↔ _ % 1000000 ≠ 0
    rw [show t.main.chain.height.val = f.node.blocks.length from hh]
  | _ => exact Iff.rfl

theorem die_less {t : Tree} {f : Spec.Frail} (h : Bears E t f) {op : Op} (hop : NoConfig t op) {u : Tree}
    (hu : u ∈ (op.run E t).trace ∨ u = (op.run E t).final) : u.Less (op.run E t).final := by
  rcases hu with hu | rfl
  · refine (op_less t op (by rintro rfl; exact hop) (by rintro rfl; exact hop) (by rintro o rfl; exact hop) ?_).2 u hu
    rintro p fo txs ts rfl r hr
    have hop : t.main.chain.height.val % 1000000 ≠ 0 := hop
    obtain ⟨last, h1, h2, _⟩ := emitChecks_ok hr
    have hh : r.1.height.val = f.node.blocks.length := by
      rcases h.mirrors.last with ⟨b, _, _, h3, h4⟩ | ⟨_, e, h3⟩
      · rw [h3] at h1; cases h1
        have := h2.height
        omega
      · rw [h3] at h1; cases h1
    rw [hh, ← h.mirrors.height]
    exact hop
  · exact tree_less.refl _

/-- A start of the node is a start of the abstract node. -/
theorem boots_starts {d : Disk} {r : Spec.Reply} {t' : Tree} (hb : Boots E d r t') : ∀ {t : Tree} {f : Spec.Frail} {k : Nat},
    Bears E t f → Short k f.node → Crash t d →
    r = .done ∧ ∃ f', Spec.Frail.Starts E f f' ∧ Bears E t' f' ∧ Short k f'.node := by
  induction hb with
  | done d =>
    intro t f k h hk hc
    obtain ⟨l, hl⟩ := h.left hc
    obtain ⟨ho, hf⟩ := h.reborn hl
    exact ⟨by rw [ho]; rfl, _, .now l, hf, short_reborn hk (bears_pos h hk) l⟩
  | @again d d' u t' r hu hc' _ ih =>
    intro t f k h hk hc
    obtain ⟨l, hl⟩ := h.left hc
    obtain ⟨_, hf⟩ := h.reborn hl
    have hlt : u.Less (openTree E d).final := by
      rcases hu with hu | rfl
      · exact open_less d u hu
      · exact tree_less.refl _
    obtain ⟨hr, f', h1, h2, h3⟩ := ih hf (short_reborn hk (bears_pos h hk) l) (hlt.crash hc')
    exact ⟨hr, f', .again l h1, h2, h3⟩

/-- And the other way round. -/
theorem starts_boots {f f' : Spec.Frail} (hs : Spec.Frail.Starts E f f') : ∀ {t : Tree} {k : Nat}, Bears E t f → Short k f.node →
    ∃ d t', Crash t d ∧ Boots E d .done t' ∧ Bears E t' f' ∧ Short k f'.node := by
  induction hs with
  | now l =>
    intro t k h hk
    obtain ⟨d, hc, hl⟩ := h.leaves l
    obtain ⟨ho, hf⟩ := h.reborn hl
    have := Boots.done (E := E) d
    rw [ho] at this
    exact ⟨d, _, hc, this, hf, short_reborn hk (bears_pos h hk) l⟩
  | again l _ ih =>
    intro t k h hk
    obtain ⟨d, hc, hl⟩ := h.leaves l
    obtain ⟨_, hf⟩ := h.reborn hl
    obtain ⟨d', t', hc', hb, h2, h3⟩ := ih hf (short_reborn hk (bears_pos h hk) l)
    exact ⟨d, t', hc, .again (.inr rfl) hc' hb, h2, h3⟩

theorem happens_runs {t t' : Tree} {evs : List Spec.Frail.Incident} {rs : List Spec.Reply} (hh : Happens E t evs rs t') :
    ∀ {f : Spec.Frail} {k : Nat}, Bears E t f → Short k f.node → k + evs.length < 2 ^ 256 →
    ∃ f', Spec.Frail.Runs E f evs rs f' ∧ Bears E t' f' := by
  induction hh with
  | nil t => intro f k h _ _; exact ⟨f, .nil f, h⟩
  | @call t t' op evs rs _ ih =>
    intro f k h hk hl
    rw [List.length_cons] at hl
    obtain ⟨h1, h2⟩ := bears_step h hk (by unfold U256.size; omega) op
    obtain ⟨f', h3, h4⟩ := ih h2 (frail_short hk op) (by omega)
    exact ⟨f', by rw [h1]; exact .call h3, h4⟩
  | crash hc hb _ ih =>
    intro f k h hk hl
    rw [List.length_cons] at hl
    obtain ⟨rfl, f₁, h1, h2, h3⟩ := boots_starts hb h hk hc
    obtain ⟨f', h4, h5⟩ := ih h2 h3 (by omega)
    exact ⟨f', .crash h1 h4, h5⟩
  | @die t u t₁ t' d r op evs rs hop hu hc hb _ ih =>
    intro f k h hk hl
    rw [List.length_cons] at hl
    obtain ⟨_, h1⟩ := bears_step h hk (by unfold U256.size; omega) op
    obtain ⟨rfl, f₁, h2, h3, h4⟩ := boots_starts hb h1 (frail_short hk op) ((die_less h hop hu).crash hc)
    obtain ⟨f', h5, h6⟩ := ih h3 h4 (by omega)
    exact ⟨f', .die ((noConfig_iff h op).mp hop) h2 h5, h6⟩

theorem runs_happens {f f' : Spec.Frail} {evs : List Spec.Frail.Incident} {rs : List Spec.Reply}
    (hr : Spec.Frail.Runs E f evs rs f') : ∀ {t : Tree} {k : Nat}, Bears E t f → Short k f.node → k + evs.length < 2 ^ 256 →
    ∃ t', Happens E t evs rs t' ∧ Bears E t' f' := by
  induction hr with
  | nil f => intro t k h _ _; exact ⟨t, .nil t, h⟩
  | @call f f' op evs rs _ ih =>
    intro t k h hk hl
    rw [List.length_cons] at hl
    obtain ⟨h1, h2⟩ := bears_step h hk (by unfold U256.size; omega) op
    obtain ⟨t', h3, h4⟩ := ih h2 (frail_short hk op) (by omega)
    exact ⟨t', by rw [← h1]; exact .call h3, h4⟩
  | crash hs _ ih =>
    intro t k h hk hl
    rw [List.length_cons] at hl
    obtain ⟨d, t₁, hc, hb, h2, h3⟩ := starts_boots hs h hk
    obtain ⟨t', h4, h5⟩ := ih h2 h3 (by omega)
    exact ⟨t', .crash hc hb h4, h5⟩
  | @die f f₁ f' op evs rs hop hs _ ih =>
    intro t k h hk hl
    rw [List.length_cons] at hl
    obtain ⟨_, h1⟩ := bears_step h hk (by unfold U256.size; omega) op
    obtain ⟨d, t₁, hc, hb, h2, h3⟩ := starts_boots hs h1 (frail_short hk op)
    obtain ⟨t', h4, h5⟩ := ih h2 h3 (by omega)
    exact ⟨t', .die ((noConfig_iff h op).mpr hop) (.inr rfl) hc hb h4, h5⟩

end

/-- C138. Let a new node be called, killed (between calls, during calls that write no configuration file, while it
begins) and started again in any order. The replies and the answers afterwards that are possible are those that are
possible of the abstract node. Every start succeeds. -/
theorem C138_killed_node (E : Env) (evs : List Spec.Frail.Incident) (h : evs.length + 1 < 2 ^ 256) (rs : List Spec.Reply)
    (ans : Spec.Query → Spec.Answer) :
    (∃ t, Happens E (openTree E Disk.empty).final evs rs t ∧ ∀ q, ask E t q = ans q) ↔
    ∃ f, Spec.Frail.Runs E (Spec.Frail.start E) evs rs f ∧ ∀ q, f.answer E q = ans q := by
  constructor
  · rintro ⟨t, ht, ha⟩
    obtain ⟨f, hf, hb⟩ := happens_runs ht (bears_start E) (short_start E) (by omega)
    exact ⟨f, hf, fun q => (sim_askOver hb.mirrors q).symm.trans (ha q)⟩
  · rintro ⟨f, hf, ha⟩
    obtain ⟨t, ht, hb⟩ := runs_happens hf (bears_start E) (short_start E) (by omega)
    exact ⟨t, ht, fun q => (sim_askOver hb.mirrors q).trans (ha q)⟩

/-! ## A case -/

/-- Anna is paid, mines a block, and the process dies. -/
def diesEarly : List Spec.Frail.Incident :=
  [.call (.addAmount anna.val (U256.ofNat 1000)), .call (.emitMain (someCalls.padN 32) anna [someCalls.padN 32] 1706093000), .crash]

/-- Before the process dies. -/
def beforeDeath : Spec.Frail :=
  (((Spec.Frail.start zeroEnv).step zeroEnv (.addAmount anna.val (U256.ofNat 1000))).2.step zeroEnv
    (.emitMain (someCalls.padN 32) anna [someCalls.padN 32] 1706093000)).2

/-- All of the chain is left, but not its index, and some value of the coins. -/
def remains (b : Spec.Book) (hb : b ∈ beforeDeath.coins) : Spec.Frail.Left zeroEnv beforeDeath where
  blocks := 2
  index := 0
  blocks_le := by decide +kernel
  index_le := by decide +kernel
  txs := 0
  txs_le := by decide +kernel
  coins := b
  coins_mem := hb
  gas := []
  gas_mem := by decide +kernel
  oldCoins := []
  oldCoins_mem := by decide +kernel
  oldGas := []
  oldGas_mem := by decide +kernel
  blocksOf _ := 0
  indexOf _ := 0
  blocksOf_le _ := ⟨Nat.le_refl _, Nat.zero_le _⟩
  indexOf_le _ := ⟨Nat.le_refl _, Nat.zero_le _⟩

theorem remains_runs (b : Spec.Book) (hb : b ∈ beforeDeath.coins) :
    Spec.Frail.Runs zeroEnv (Spec.Frail.start zeroEnv) diesEarly [.done, .done, .done] (beforeDeath.reborn zeroEnv (remains b hb)) := by
  have h1 : ((Spec.Frail.start zeroEnv).step zeroEnv (.addAmount anna.val (U256.ofNat 1000))).1 = .done := by decide +kernel
  have h2 : (((Spec.Frail.start zeroEnv).step zeroEnv (.addAmount anna.val (U256.ofNat 1000))).2.step zeroEnv
    (.emitMain (someCalls.padN 32) anna [someCalls.padN 32] 1706093000)).1 = .done := by decide +kernel
  rw [show [Spec.Reply.done, .done, .done] = [((Spec.Frail.start zeroEnv).step zeroEnv (.addAmount anna.val (U256.ofNat 1000))).1,
    (((Spec.Frail.start zeroEnv).step zeroEnv (.addAmount anna.val (U256.ofNat 1000))).2.step zeroEnv
    (.emitMain (someCalls.padN 32) anna [someCalls.padN 32] 1706093000)).1, .done] by rw [h1, h2]]
  exact .call (.call (.crash (.now _) (.nil _)))

/-- The payment may be there afterwards, or not; the block is not (the height is 1), but it is found at height 1. -/
theorem C138_a_case : ∀ paid ∈ [1000, 0], ∃ t, Happens zeroEnv (openTree zeroEnv Disk.empty).final diesEarly [.done, .done, .done] t ∧
    ask zeroEnv t (.amount anna) = .number paid ∧ ask zeroEnv t .height = .number 1 ∧
    ∃ b, ask zeroEnv t (.byHeight U256.one) = .block b := by
  have go : ∀ (b : Spec.Book) (hb : b ∈ beforeDeath.coins) (paid : Nat),
      (beforeDeath.reborn zeroEnv (remains b hb)).answer zeroEnv (.amount anna) = .number paid →
      ∃ t, Happens zeroEnv (openTree zeroEnv Disk.empty).final diesEarly [.done, .done, .done] t ∧
        ask zeroEnv t (.amount anna) = .number paid ∧ ask zeroEnv t .height = .number 1 ∧
        ∃ b, ask zeroEnv t (.byHeight U256.one) = .block b := by
    intro b hb paid hp
    obtain ⟨t, ht, ha⟩ := (C138_killed_node zeroEnv diesEarly (by decide) [.done, .done, .done] _).mpr
      ⟨_, remains_runs b hb, fun _ => rfl⟩
    refine ⟨t, ht, (ha _).trans hp, ?_, ?_⟩
    · rw [ha]; rfl
    · rw [ha]
      exact ⟨_, rfl⟩
  intro paid hpaid
  simp only [List.mem_cons, List.not_mem_nil, or_false] at hpaid
  rcases hpaid with rfl | rfl
  · exact go _ (List.mem_cons_self) 1000 (by decide +kernel)
  · exact go [] (by decide +kernel) 0 (by decide +kernel)

end BCT.Props
