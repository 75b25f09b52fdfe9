import Verif.Lemmas.EmitDeriv
import Verif.Lemmas.Ledger
/-!
# Restarts and crashes
-/

namespace BCT

/-! ### What opening does -/

/-- Opening fails exactly on a config file shorter than 64 bytes; then nothing is changed. -/
theorem openTree_torn {E : Env} {d : Disk} (h : MainChain.readConfig d.config = .err .chainInit) :
    openTree E d = ⟨.err .chainInit, d.boot, [d.boot]⟩ := by
  rw [openTree_of_err (MainChain.new_err E d.boot.main .chainInit h)]
  rfl

theorem openTree_pos {E : Env} {d : Disk} {h : U256} {df : Hash}
    (hc : MainChain.readConfig d.config = .ok (h, df)) (hp : h.val ≠ 0) :
    (openTree E d).out = .ok () ∧
    (openTree E d).final = { d.boot with
      main := { d.boot.main with chain := d.boot.main.chain.loaded h df }
      summary := seedSummary h d.boot.summary } := by
  rw [openTree_of_new (MainChain.new_pos E d.boot.main h df hc hp)]
  exact ⟨rfl, rfl⟩

theorem openTree_zero {E : Env} {d : Disk} {df : Hash}
    (hc : MainChain.readConfig d.config = .ok (U256.zero, df)) :
    (openTree E d).out = .ok () ∧
    (openTree E d).final = { d.boot with
      main := { d.boot.main with chain := bootChain E (Db.open' d.blocks) (Db.open' d.heightReference) df d.config }
      summary := seedSummary U256.one d.boot.summary } := by
  rw [openTree_of_new (MainChain.new_zero E d.boot.main df hc)]
  exact ⟨rfl, rfl⟩

theorem u256_zero {h : U256} (hp : h.val = 0) : h = U256.zero := by
  cases h; simp only at hp; subst hp; rfl

/-- The three ways of opening. -/
theorem openTree_cases (d : Disk) :
    MainChain.readConfig d.config = .err .chainInit ∨
    (∃ h df, MainChain.readConfig d.config = .ok (h, df) ∧ h.val ≠ 0) ∨
    ∃ df, MainChain.readConfig d.config = .ok (U256.zero, df) := by
  rcases MainChain.readConfig_cases d.config with ⟨h, df, hc⟩ | hc
  · right
    by_cases hp : h.val = 0
    · right; rw [u256_zero hp] at hc; exact ⟨df, hc⟩
    · left; exact ⟨h, df, hc, hp⟩
  · exact .inl hc

theorem openTree_ok {E : Env} {d : Disk} (h : (openTree E d).out = .ok ()) :
    (∃ h df, MainChain.readConfig d.config = .ok (h, df) ∧ h.val ≠ 0) ∨
    ∃ df, MainChain.readConfig d.config = .ok (U256.zero, df) := by
  rcases openTree_cases d with hc | hc
  · rw [openTree_torn hc] at h; cases h
  · exact hc

theorem readConfig_ok_iff (c : Option Bytes) :
    (∃ r, MainChain.readConfig c = .ok r) ↔ ∀ f, c = some f → 64 ≤ f.length := by
  cases c with
  | none => simp [MainChain.readConfig]
  | some f =>
    simp only [Option.some.injEq, forall_eq']
    constructor
    · rintro ⟨r, h⟩
      unfold MainChain.readConfig at h
      simp only at h
      split at h
      · split at h
        · assumption
        · cases h
      · cases h
    · intro h
      rcases MainChain.readConfig_cases (some f) with ⟨a, b, hc⟩ | hc
      · exact ⟨_, hc⟩
      · exfalso
        unfold MainChain.readConfig at hc
        simp only at hc
        rw [if_pos (by omega), dif_pos h] at hc
        have : U256.fromBE (f.take 32) = .ok ⟨beNat (f.take 32), beNat_lt_size _ (by rw [List.length_take]; omega)⟩ := by
          unfold U256.fromBE; rw [dif_pos (by rw [List.length_take]; omega)]
        rw [this] at hc
        cases hc

theorem openTree_ok_iff (E : Env) (d : Disk) :
    (openTree E d).out = .ok () ↔ ∀ f, d.config = some f → 64 ≤ f.length := by
  rw [← readConfig_ok_iff]
  rcases openTree_cases d with hc | ⟨h, df, hc, hp⟩ | ⟨df, hc⟩
  · rw [openTree_torn hc]; simp [hc]
  · simp [(openTree_pos (E := E) hc hp).1, hc]
  · simp [(openTree_zero (E := E) hc).1, hc]

/-! ### Opening as an action -/

/-- Opening only sets memory, adds a block and sets one balance. -/
theorem Tree.new_rel {E : Env} {R : Tree → Tree → Prop} (hR : Act.PreOrd R)
    (h1 : ∀ t, R t { t with derivMem := fun _ => none })
    (h2 : ∀ (t : Tree) h d, R t { t with main := { t.main with chain := t.main.chain.loaded h d } })
    (h3 : Act.Rel R (Tree.onMain (MainChain.addBlock E (genesis E))))
    (h4 : Act.Rel R (Tree.onSummary (Ledger.set ROOT_PUBLIC_ADDRESS.val COINS_PER_CYCLE))) :
    Act.Rel R (Tree.new E) := by
  have C := Act.rel_closed hR
  unfold Tree.new
  refine C.bind (Act.rel_step h1) fun _ => C.bind ?_ fun _ => C.bind C.get fun t => ?_
  · unfold MainChain.new Tree.onMain
    rw [Act.zoom_bind onMain_lens]
    refine C.bind (fun s => ⟨hR.refl s, by simp [Act.zoom]⟩) fun m => ?_
    rw [Act.zoom_bind onMain_lens]
    refine C.bind (fun s => ⟨hR.refl s, by simp [Act.zoom]⟩) fun hd => ?_
    rw [Act.zoom_bind onMain_lens]
    refine C.bind ?_ fun _ => ?_
    · intro s
      simp only [Act.zoom_run, Act.step_run, List.map_cons, List.map_nil]
      exact ⟨h2 s _ _, fun t ht => by rw [List.mem_singleton.mp ht]; exact h2 s _ _⟩
    · split
      · rw [merkleRoot_eq, Act.lift_ok_bind]
        exact C.mapErr _ h3
      · rw [Act.zoom_pure onMain_lens]; exact C.pure _
  · split
    · exact h4
    · exact C.pure _

/-! ### Heights -/

theorem life_opened_height {E : Env} {d : Disk} (h : (openTree E d).out = .ok ()) :
    1 ≤ (openTree E d).final.main.chain.height.val := by
  rcases openTree_ok h with ⟨q, df, hc, hp⟩ | ⟨df, hc⟩
  · rw [(openTree_pos (E := E) hc hp).2]
    show 1 ≤ q.val
    omega
  · rw [(openTree_zero (E := E) hc).2]
    exact Nat.le_refl 1

theorem op_height_mono (E : Env) (op : Op) (s : Tree) :
    s.main.chain.height.val ≤ (op.run E s).final.main.chain.height.val :=
  (Op.sat (mainGrows_prims E _) (Act.relF_closed (mainGrows_preord E _)) op op.adds_true s).1

/-- An open node always has a block. -/
theorem life_height_pos {E : Env} {s : Tree} (h : Life E (.idle s)) : 1 ≤ s.main.chain.height.val := by
  generalize hm : Moment.idle s = m at h
  induction h generalizing s with
  | start => cases hm
  | opening => cases hm
  | opened d _ ho => cases hm; exact life_opened_height ho
  | running => cases hm
  | call s' op _ ih => cases hm; exact Nat.le_trans (ih rfl) (op_height_mono E op s')
  | crashIdle => cases hm
  | crashBusy => cases hm

/-! ### The current contents are always among the recoverable ones -/

/-- A crash may lose nothing. -/
def Db.Sound (d : Db) : Prop := d.cur ∈ d.recov

theorem Db.sound_open (m : KV) : (Db.open' m).Sound := List.mem_singleton.mpr rfl
theorem Db.sound_commit (d : Db) (f : KV → KV) : (d.commit f).Sound := List.mem_cons_self
theorem Db.sound_insert (d : Db) (k v : Bytes) : (d.insert k v).Sound := List.mem_cons_self
theorem Db.sound_flush (d : Db) : d.flush.Sound := List.mem_singleton.mpr rfl

structure Sound (t : Tree) : Prop where
  blocks : t.main.chain.blocks.Sound
  heightReference : t.main.chain.heightReference.Sound
  transactions : t.main.transactions.Sound
  summary : t.summary.Sound
  oldSummary : t.oldSummary.Sound
  gas : t.gas.Sound
  oldGas : t.oldGas.Sound
  deriv : ∀ n, (t.derivFiles n).blocks.Sound ∧ (t.derivFiles n).heightReference.Sound

theorem Ledger.transact_rel {R : Db → Db → Prop} (hr : ∀ d, R d d) (hc : ∀ d m, R d (d.commit fun _ => m))
    (c : KV → Outcome KV) : Act.Rel R (Ledger.transact c) := by
  intro d
  cases h : c d.cur with
  | ok m => rw [Ledger.transact_ok h]; exact ⟨hc d m, fun t ht => by rw [List.mem_singleton.mp ht]; exact hc d m⟩
  | err e => rw [Ledger.transact_err h]; exact ⟨hr d, by simp⟩
  | panic e => rw [Ledger.transact_panic h]; exact ⟨hr d, by simp⟩
  | ub => rw [Ledger.transact_ub h]; exact ⟨hr d, by simp⟩

theorem Chain.addBlock_rel {R : Chain → Chain → Prop} (E : Env) (hr : ∀ c, R c c) (bh : U256) (dump : Bytes)
    (h1 : ∀ c : Chain, bh = c.height → R c (c.put1 dump)) (h2 : ∀ c : Chain, bh = c.height → R c (c.put2 E dump))
    (h3 : ∀ (c : Chain) (h : c.height.val + 1 < U256.size), bh = c.height → R c (c.put3 E dump ⟨c.height.val + 1, h⟩)) :
    Act.Rel R (Chain.addBlock E bh dump) := by
  intro c
  by_cases hb : bh = c.height
  · have g1 := h1 c hb
    have g2 := h2 c hb
    have g3 := h3 c
    by_cases hm : c.height.val + 1 < U256.size
    · have g3 := h3 c hm hb
      rw [hb, Chain.addBlock_right hm]
      refine ⟨g3, fun t ht => ?_⟩
      simp only [List.mem_cons, List.not_mem_nil, or_false] at ht
      rcases ht with rfl | rfl | rfl <;> assumption
    · rw [hb, Chain.addBlock_max hm]
      refine ⟨g2, fun t ht => ?_⟩
      simp only [List.mem_cons, List.not_mem_nil, or_false] at ht
      rcases ht with rfl | rfl <;> assumption
  · rw [Chain.addBlock_wrong hb]; exact ⟨hr c, by simp⟩

theorem MainChain.addBlock_rel {R : Chain → Chain → Prop} {Q : MainChain → MainChain → Prop} {E : Env} {b : Block}
    (hx : Act.Rel R (Chain.addBlock E b.info.height b.dump)) (h : ∀ m c, R m.chain c → Q m { m with chain := c }) :
    Act.Rel Q (MainChain.addBlock E b) :=
  Act.rel_zoom (part := fun m : MainChain => m.chain) (put := fun c m => { m with chain := c }) hx h

theorem DerivativeChain.addBlock_rel {R : Chain → Chain → Prop} {Q : DerivativeChain → DerivativeChain → Prop} {E : Env}
    {b : DerivativeBlock} (hx : Act.Rel R (Chain.addBlock E b.defaultInfo.height b.dump))
    (h : ∀ m c, R m.chain c → Q m { m with chain := c }) : Act.Rel Q (DerivativeChain.addBlock E b) :=
  Act.rel_zoom (part := fun m : DerivativeChain => m.chain) (put := fun c m => { m with chain := c }) hx h

/-- `MainChain.flush`, step by step. -/
theorem MainChain.flush_rel {R : MainChain → MainChain → Prop} (hR : Act.PreOrd R)
    (h1 : ∀ (m : MainChain) f, R m { m with chain := { m.chain with config := some f } })
    (h2 : ∀ m : MainChain, R m { m with chain := { m.chain with blocks := m.chain.blocks.flush } })
    (h3 : ∀ m : MainChain, R m { m with chain := { m.chain with heightReference := m.chain.heightReference.flush } })
    (h4 : ∀ m : MainChain, R m { m with transactions := m.transactions.flush }) : Act.Rel R MainChain.flush := by
  have C := Act.rel_closed hR
  unfold MainChain.flush MainChain.dumpConfig MainChain.writeConfig
  exact C.bind (C.bind (Act.rel_step fun m => h1 m _) fun _ => C.bind (Act.rel_step fun m => h1 m _) fun _ =>
    Act.rel_step fun m => h1 m _) fun _ =>
    C.bind (Act.rel_step h2) fun _ => C.bind (Act.rel_step h3) fun _ => Act.rel_step h4

/-- `Tree.flush`, step by step. -/
theorem Tree.flush_rel {R : Tree → Tree → Prop} (hR : Act.PreOrd R) (h0 : Act.Rel R (Tree.onMain MainChain.flush))
    (h1 : ∀ t : Tree, R t { t with summary := t.summary.flush })
    (h2 : ∀ t : Tree, R t { t with oldSummary := t.oldSummary.flush })
    (h3 : ∀ t : Tree, R t { t with gas := t.gas.flush })
    (h4 : ∀ t : Tree, R t { t with oldGas := t.oldGas.flush }) : Act.Rel R Tree.flush := by
  have C := Act.rel_closed hR
  unfold Tree.flush
  exact C.bind h0 fun _ => C.bind (Act.rel_step h1) fun _ => C.bind (Act.rel_step h2) fun _ =>
    C.bind (Act.rel_step h3) fun _ => Act.rel_step h4

/-- `Tree.rotateDbs`, step by step. -/
theorem Tree.rotate_rel {R : Tree → Tree → Prop} (hR : Act.PreOrd R) (h0 : Act.Rel R Tree.flush)
    (h1 : ∀ (t : Tree) m, R t { t with oldSummary := Db.open' m })
    (h2 : ∀ (t : Tree) m, R t { t with oldGas := Db.open' m }) : Act.Rel R Tree.rotateDbs := by
  have C := Act.rel_closed hR
  unfold Tree.rotateDbs
  exact C.bind h0 fun _ => C.bind (Act.rel_step fun t => h1 t _) fun _ => C.bind (Act.rel_step fun t => h2 t _) fun _ =>
    C.bind (Act.rel_step fun t => h1 t _) fun _ => Act.rel_step fun t => h2 t _

/-- `get_derivative_chain`: nothing, or a handle on the files found. -/
theorem Tree.getDeriv_rel {R : Tree → Tree → Prop} (hr : ∀ t, R t t) (E : Env) (o : Address)
    (h : ∀ (t : Tree) (c : DerivativeChain), t.derivMem o = none → c.chain.blocks = (t.derivFiles (hexEncode o.val)).blocks →
      c.chain.heightReference = (t.derivFiles (hexEncode o.val)).heightReference →
      c.chain.config = (t.derivFiles (hexEncode o.val)).config → R t (Tree.putHandle o c t)) :
    Act.Rel R (Tree.getDerivativeChain E o) := by
  intro s
  rcases Tree.getDeriv_cases E o s with ⟨_, e⟩ | ⟨hm, ⟨out, _, e⟩ | ⟨b, c, _, hc, e⟩⟩
  · rw [e]; exact ⟨hr s, by simp⟩
  · rw [e]; exact ⟨hr s, by simp⟩
  · rw [e]
    have : R s (Tree.putHandle o c s) := by
      unfold DerivativeChain.new at hc
      cases hr : DerivativeChain.readConfig (b.hash E) (s.derivFiles (hexEncode o.val)).config with
      | ok r =>
        rw [hr, Outcome.ok_bind] at hc
        have := Outcome.ok.inj hc
        subst this
        exact h s _ hm rfl rfl rfl
      | err e => rw [hr] at hc; cases hc
      | panic e => rw [hr] at hc; cases hc
      | ub => rw [hr] at hc; cases hc
    exact ⟨this, fun t ht => by rw [List.mem_singleton.mp ht]; exact this⟩

section
variable {E : Env}

theorem sound_preord : Act.PreOrd (fun s t => Sound s → Sound t) := Act.inv_preord _

theorem sound_onMain {α : Type} {x : Act MainChain α}
    (hx : Act.Rel (fun a b : MainChain => (a.chain.blocks.Sound ∧ a.chain.heightReference.Sound ∧ a.transactions.Sound) →
      (b.chain.blocks.Sound ∧ b.chain.heightReference.Sound ∧ b.transactions.Sound)) x) :
    Act.Rel (fun s t => Sound s → Sound t) (Tree.onMain x) :=
  Act.rel_zoom hx fun _ _ h1 h2 => by
    obtain ⟨a, b, c⟩ := h1 ⟨h2.blocks, h2.heightReference, h2.transactions⟩
    exact ⟨a, b, c, h2.summary, h2.oldSummary, h2.gas, h2.oldGas, h2.deriv⟩

theorem sound_onSummary {c : KV → Outcome KV} :
    Act.Rel (fun s t => Sound s → Sound t) (Tree.onSummary (Ledger.transact c)) :=
  Act.rel_zoom (R := fun a b : Db => a.Sound → b.Sound)
    (Ledger.transact_rel (fun _ h => h) (fun _ _ _ => Db.sound_commit _ _) c)
    fun _ _ h1 h => ⟨h.blocks, h.heightReference, h.transactions, h1 h.summary, h.oldSummary, h.gas, h.oldGas, h.deriv⟩

theorem sound_onGas {c : KV → Outcome KV} :
    Act.Rel (fun s t => Sound s → Sound t) (Tree.onGas (Ledger.transact c)) :=
  Act.rel_zoom (R := fun a b : Db => a.Sound → b.Sound)
    (Ledger.transact_rel (fun _ h => h) (fun _ _ _ => Db.sound_commit _ _) c)
    fun _ _ h1 h => ⟨h.blocks, h.heightReference, h.transactions, h.summary, h.oldSummary, h1 h.gas, h.oldGas, h.deriv⟩

theorem sound_onDeriv {α : Type} {o : Address} {x : Act DerivativeChain α}
    (hx : Act.Rel (fun a b : DerivativeChain => (a.chain.blocks.Sound ∧ a.chain.heightReference.Sound) →
      (b.chain.blocks.Sound ∧ b.chain.heightReference.Sound)) x) :
    Act.Rel (fun s t => Sound s → Sound t) (Tree.onDeriv o x) :=
  Act.rel_zoom hx fun t c h1 h => by
    refine ⟨h.blocks, h.heightReference, h.transactions, h.summary, h.oldSummary, h.gas, h.oldGas, fun n => ?_⟩
    unfold Tree.putHandle
    simp only
    split
    · exact h1 (h.deriv (hexEncode o.val))
    · exact h.deriv n

theorem sound_addBlock (b : Block) : Act.Rel (fun s t => Sound s → Sound t) (Tree.onMain (MainChain.addBlock E b)) :=
  sound_onMain (MainChain.addBlock_rel (R := fun a b : Chain => (a.blocks.Sound ∧ a.heightReference.Sound) →
      (b.blocks.Sound ∧ b.heightReference.Sound))
    (Chain.addBlock_rel E (fun _ h => h) _ _ (fun _ _ h => ⟨Db.sound_insert _ _ _, h.2⟩)
      (fun _ _ _ => ⟨Db.sound_insert _ _ _, Db.sound_insert _ _ _⟩)
      (fun _ _ _ _ => ⟨Db.sound_insert _ _ _, Db.sound_insert _ _ _⟩))
    fun _ _ h1 h => ⟨(h1 ⟨h.1, h.2.1⟩).1, (h1 ⟨h.1, h.2.1⟩).2, h.2.2⟩)

theorem sound_mainFlush : Act.Rel (fun s t => Sound s → Sound t) (Tree.onMain MainChain.flush) :=
  sound_onMain (MainChain.flush_rel (Act.inv_preord _) (fun _ _ h => h)
    (fun _ h => ⟨Db.sound_flush _, h.2⟩) (fun _ h => ⟨h.1, Db.sound_flush _, h.2.2⟩)
    (fun _ h => ⟨h.1, h.2.1, Db.sound_flush _⟩))

theorem sound_flush : Act.Rel (fun s t => Sound s → Sound t) Tree.flush :=
  Tree.flush_rel sound_preord sound_mainFlush
    (fun _ h => ⟨h.blocks, h.heightReference, h.transactions, Db.sound_flush _, h.oldSummary, h.gas, h.oldGas, h.deriv⟩)
    (fun _ h => ⟨h.blocks, h.heightReference, h.transactions, h.summary, Db.sound_flush _, h.gas, h.oldGas, h.deriv⟩)
    (fun _ h => ⟨h.blocks, h.heightReference, h.transactions, h.summary, h.oldSummary, Db.sound_flush _, h.oldGas, h.deriv⟩)
    (fun _ h => ⟨h.blocks, h.heightReference, h.transactions, h.summary, h.oldSummary, h.gas, Db.sound_flush _, h.deriv⟩)

theorem sound_prims : Prims E (fun _ => True) (fun {α} (x : Act Tree α) => Act.Rel (fun s t => Sound s → Sound t) x) where
  addBlock b _ := sound_addBlock b
  addTransaction _ := sound_onMain (Act.rel_step fun _ h => ⟨h.1, h.2.1, Db.sound_insert _ _ _⟩)
  mainFlush := sound_mainFlush
  addAmount _ _ := sound_onSummary
  setAmount _ _ := sound_onSummary
  subAmount _ _ := sound_onSummary
  sendAmount _ _ _ _ := sound_onSummary
  addGas _ _ := sound_onGas
  subGas _ _ := sound_onGas
  sendGas _ _ _ := sound_onGas
  flush := sound_flush
  rotate := Tree.rotate_rel sound_preord sound_flush
    (fun _ _ h => ⟨h.blocks, h.heightReference, h.transactions, h.summary, Db.sound_open _, h.gas, h.oldGas, h.deriv⟩)
    (fun _ _ h => ⟨h.blocks, h.heightReference, h.transactions, h.summary, h.oldSummary, h.gas, Db.sound_open _, h.deriv⟩)
  getDeriv o := Tree.getDeriv_rel (fun _ h => h) E o fun t c _ hb hh _ h => by
    refine ⟨h.blocks, h.heightReference, h.transactions, h.summary, h.oldSummary, h.gas, h.oldGas, fun n => ?_⟩
    unfold Tree.putHandle
    simp only
    split
    · rw [hb, hh]; exact h.deriv _
    · exact h.deriv n
  derivAdd o b := sound_onDeriv (DerivativeChain.addBlock_rel (R := fun a b : Chain => (a.blocks.Sound ∧ a.heightReference.Sound) →
      (b.blocks.Sound ∧ b.heightReference.Sound))
    (Chain.addBlock_rel E (fun _ h => h) _ _ (fun _ _ h => ⟨Db.sound_insert _ _ _, h.2⟩)
      (fun _ _ _ => ⟨Db.sound_insert _ _ _, Db.sound_insert _ _ _⟩)
      (fun _ _ _ _ => ⟨Db.sound_insert _ _ _, Db.sound_insert _ _ _⟩))
    fun _ _ h1 => h1)
  derivFlush o := sound_onDeriv (by
    have C := Act.rel_closed (Act.inv_preord (fun a : DerivativeChain => a.chain.blocks.Sound ∧ a.chain.heightReference.Sound))
    have W : ∀ f, Act.Rel (fun a b : DerivativeChain => (a.chain.blocks.Sound ∧ a.chain.heightReference.Sound) →
      (b.chain.blocks.Sound ∧ b.chain.heightReference.Sound)) (DerivativeChain.writeConfig f) :=
      fun f => Act.rel_step fun _ h => h
    unfold DerivativeChain.flush DerivativeChain.dumpConfig
    exact C.bind (C.bind (W _) fun _ => C.bind (W _) fun _ => C.bind (W _) fun _ => W _) fun _ =>
      C.bind (Act.rel_step fun _ h => ⟨Db.sound_flush _, h.2⟩) fun _ => Act.rel_step fun _ h => ⟨h.1, Db.sound_flush _⟩)

theorem boot_sound (d : Disk) : Sound d.boot :=
  ⟨Db.sound_open _, Db.sound_open _, Db.sound_open _, Db.sound_open _, Db.sound_open _, Db.sound_open _, Db.sound_open _,
    fun _ => ⟨Db.sound_open _, Db.sound_open _⟩⟩

theorem new_sound : Act.Rel (fun s t => Sound s → Sound t) (Tree.new E) :=
  Tree.new_rel sound_preord
    (fun _ h => ⟨h.blocks, h.heightReference, h.transactions, h.summary, h.oldSummary, h.gas, h.oldGas, h.deriv⟩)
    (fun _ _ _ h => ⟨h.blocks, h.heightReference, h.transactions, h.summary, h.oldSummary, h.gas, h.oldGas, h.deriv⟩)
    (sound_addBlock _) sound_onSummary

/-- An invariant of running nodes that survives crashes and openings. -/
theorem life_inv {P : Tree → Prop} {Q : Disk → Prop} (h0 : Q Disk.empty) (hb : ∀ d, Q d → P d.boot)
    (hn : Act.Rel (fun s t => P s → P t) (Tree.new E))
    (ho : ∀ op : Op, Act.Rel (fun s t => P s → P t) (op.run E))
    (hc : ∀ t d, P t → Crash t d → Q d) {m : Moment} (h : Life E m) :
    match m with
    | .idle t => P t
    | .busy t => P t
    | .down d => Q d := by
  induction h with
  | start => exact h0
  | opening d t _ ht ih => exact (hn d.boot).2 t ht (hb d ih)
  | opened d _ _ ih => exact (hn d.boot).1 (hb d ih)
  | running s t op _ ht ih => exact (ho op s).2 t ht ih
  | call s op _ ih => exact (ho op s).1 ih
  | crashIdle s d _ hd ih => exact hc s d ih hd
  | crashBusy s d _ hd ih => exact hc s d ih hd

theorem life_sound {m : Moment} (h : Life E m) :
    match m with
    | .idle t => Sound t
    | .busy t => Sound t
    | .down _ => True :=
  life_inv (Q := fun _ => True) trivial (fun d _ => boot_sound d) new_sound
    (fun op => Op.sat sound_prims (Act.rel_closed sound_preord) op op.adds_true) (fun _ _ _ _ => trivial) h

end

/-- A clean shutdown is one of the things a crash can do. -/
theorem Sound.close {t : Tree} (h : Sound t) : Crash t t.close :=
  ⟨h.blocks, h.heightReference, h.transactions, rfl, h.summary, h.oldSummary, h.gas, h.oldGas,
    fun n => ⟨(h.deriv n).1, (h.deriv n).2, rfl⟩⟩

/-! ### Flushing -/

/-- A flushed database. -/
theorem Db.flush_recov {d : Db} {m : KV} (h : m ∈ d.flush.recov) : m = d.cur := List.mem_singleton.mp h

/-- The config file `dump_config` leaves. -/
def Chain.saved (c : Chain) : Bytes := c.height.toBE.val ++ c.difficulty.val

/-- The main chain after `MainChain.flush`. -/
def MainChain.flushed (m : MainChain) : MainChain :=
  { chain :=
      { m.chain with
        config := some m.chain.saved
        blocks := m.chain.blocks.flush
        heightReference := m.chain.heightReference.flush }
    transactions := m.transactions.flush }

/-- The states `MainChain.flush` passes through. -/
theorem MainChain.flush_run (m : MainChain) : MainChain.flush m = ⟨.ok (), m.flushed,
    [{ m with chain := { m.chain with config := some [] } },
     { m with chain := { m.chain with config := some m.chain.height.toBE.val } },
     { m with chain := { m.chain with config := some m.chain.saved } },
     { m with chain := { m.chain with config := some m.chain.saved, blocks := m.chain.blocks.flush } },
     { m with
       chain :=
       { m.chain with
         config := some m.chain.saved
         blocks := m.chain.blocks.flush
         heightReference := m.chain.heightReference.flush } },
     m.flushed]⟩ := by
  unfold MainChain.flush MainChain.dumpConfig MainChain.writeConfig
  simp [Act.step_bind, Act.bind_assoc', Chain.saved, MainChain.flushed]

/-- The node after `flush`. -/
def Tree.flushed (t : Tree) : Tree :=
  { t with
    main := t.main.flushed
    summary := t.summary.flush
    oldSummary := t.oldSummary.flush
    gas := t.gas.flush
    oldGas := t.oldGas.flush }

theorem Tree.flush_run (t : Tree) : ∃ tr, Tree.flush t = ⟨.ok (), t.flushed, tr⟩ ∧
    { t with main := { t.main with chain := { t.main.chain with config := some [] } } } ∈ tr ∧
    { t with main := { t.main with chain := { t.main.chain with config := some t.main.chain.saved } } } ∈ tr := by
  unfold Tree.flush
  obtain ⟨tr, htr⟩ : ∃ tr, tr = (MainChain.flush t.main).trace.map (fun m => { t with main := m }) := ⟨_, rfl⟩
  have hm : Tree.onMain MainChain.flush t = ⟨.ok (), { t with main := t.main.flushed }, tr⟩ := by
    rw [htr]
    unfold Tree.onMain
    rw [Act.zoom_run, MainChain.flush_run]
  rw [Act.bind_ok hm]
  rw [MainChain.flush_run] at htr
  subst htr
  simp only [Act.step_bind]
  exact ⟨_, rfl, by simp, by simp⟩

/-! ### Relations between the main chains before and after -/

/-- Calls only change the main chain through three of its methods. -/
theorem main_prims {E : Env} {A : Block → Prop} {R : MainChain → MainChain → Prop} (hR : Act.PreOrd R)
    (h1 : ∀ b, A b → Act.RelF R (MainChain.addBlock E b)) (h2 : ∀ t, Act.RelF R (MainChain.addTransaction E t))
    (h3 : Act.RelF R MainChain.flush) :
    Prims E A (fun {α} (x : Act Tree α) => Act.RelF (fun s t => R s.main t.main) x) := by
  have hT : Act.PreOrd (fun s t : Tree => R s.main t.main) := ⟨fun _ => hR.refl _, fun a b => hR.trans a b⟩
  have C := Act.relF_closed hT
  have F : Act.RelF (fun s t : Tree => R s.main t.main) Tree.flush := by
    unfold Tree.flush
    exact C.bind (Act.relF_zoom h3 fun _ _ h => h) fun _ => C.bind (Act.relF_step fun _ => hR.refl _) fun _ =>
      C.bind (Act.relF_step fun _ => hR.refl _) fun _ => C.bind (Act.relF_step fun _ => hR.refl _) fun _ =>
        Act.relF_step fun _ => hR.refl _
  refine ⟨fun b hb => Act.relF_zoom (h1 b hb) fun _ _ h => h, fun t => Act.relF_zoom (h2 t) fun _ _ h => h,
    Act.relF_zoom h3 fun _ _ h => h, fun _ _ => ?_, fun _ _ => ?_, fun _ _ => ?_, fun _ _ _ _ => ?_, fun _ _ => ?_,
    fun _ _ => ?_, fun _ _ _ => ?_, F, ?_, fun o => ?_, fun _ _ => ?_, fun _ => ?_⟩
  case refine_8 =>
    unfold Tree.rotateDbs
    exact C.bind F fun _ => C.bind (Act.relF_step fun _ => hR.refl _) fun _ =>
      C.bind (Act.relF_step fun _ => hR.refl _) fun _ => C.bind (Act.relF_step fun _ => hR.refl _) fun _ =>
        Act.relF_step fun _ => hR.refl _
  case refine_9 =>
    exact (Tree.getDeriv_rel (R := fun s t : Tree => R s.main t.main) (fun _ => hR.refl _) E o
      fun _ _ _ _ _ _ => hR.refl _).relF
  all_goals exact Act.relF_zoom (Act.rel_true _).relF fun _ _ _ => hR.refl _

/-- The calls that write the config file. -/
def Op.Flushes : Op → Prop
  | .mainFlush => True
  | .flush => True
  | .emitMain _ _ txs _ => txs = []
  | _ => False

/-- The other calls only add blocks and transactions to the main chain. -/
theorem Op.calm_rel {E : Env} {A : Block → Prop} {R : MainChain → MainChain → Prop} (hR : Act.PreOrd R)
    (h1 : ∀ b, A b → Act.Rel R (MainChain.addBlock E b)) (h2 : ∀ t, Act.Rel R (MainChain.addTransaction E t))
    (op : Op) (hA : op.Adds A) (hop : ¬ op.Flushes) : Act.Rel (fun s t : Tree => R s.main t.main) (op.run E) := by
  have hT : Act.PreOrd (fun s t : Tree => R s.main t.main) := ⟨fun _ => hR.refl _, fun a b => hR.trans a b⟩
  have C := Act.rel_closed hT
  have B : ∀ b, A b → Act.Rel (fun s t : Tree => R s.main t.main) (Tree.onMain (MainChain.addBlock E b)) :=
    fun b hb => Act.rel_zoom (h1 b hb) fun _ _ h => h
  have T : ∀ t, Act.Rel (fun s t : Tree => R s.main t.main) (Tree.onMain (MainChain.addTransaction E t)) :=
    fun t => Act.rel_zoom (h2 t) fun _ _ h => h
  have TS : ∀ ts, Act.Rel (fun s t : Tree => R s.main t.main) (Tree.onMain (MainChain.addTransactions E ts)) := fun ts => by
    unfold Tree.onMain MainChain.addTransactions
    rw [Act.zoom_forEach onMain_lens]
    exact C.forEach fun t => T t
  have S : ∀ x : Act Db Unit, Act.Rel (fun s t : Tree => R s.main t.main) (Tree.onSummary x) :=
    fun x => Act.rel_zoom (Act.rel_true _) fun _ _ _ => hR.refl _
  have G : ∀ x : Act Db Unit, Act.Rel (fun s t : Tree => R s.main t.main) (Tree.onGas x) :=
    fun x => Act.rel_zoom (Act.rel_true _) fun _ _ _ => hR.refl _
  have D : ∀ o, Act.Rel (fun s t : Tree => R s.main t.main) (Tree.getDerivativeChain E o) := fun o =>
    Tree.getDeriv_rel (fun _ => hR.refl _) E o fun _ _ _ _ _ _ => hR.refl _
  have DD : ∀ o (x : Act DerivativeChain Unit), Act.Rel (fun s t : Tree => R s.main t.main) (Tree.onDeriv o x) := fun o x =>
    Act.rel_zoom (Act.rel_true _) fun _ _ _ => hR.refl _
  have SA : ∀ a b n, Act.Rel (fun s t : Tree => R s.main t.main) (Tree.sendAmount a b n) := fun a b n => by
    unfold Tree.sendAmount
    split
    · exact C.pure ()
    · exact S _
  cases op with
  | addBlock b => exact B b hA
  | addNewBlock b txs => exact C.bind (B b hA) fun _ => TS txs
  | addTransaction t => exact T t
  | addTransactions ts => exact TS ts
  | addAmount o a => exact S _
  | setAmount o a => exact S _
  | subAmount o a => exact S _
  | sendAmount s t a => exact SA s t a
  | addGas o a => exact G _
  | subGas o a => exact G _
  | sendGas s t a => exact G _
  | sendTransaction tx =>
    change Act.Rel _ (Tree.sendTransaction E tx)
    unfold Tree.sendTransaction
    refine C.bind C.get fun t => C.bind (C.lift _) fun g => C.bind (C.lift _) fun a => C.bind (C.lift _) fun r => ?_
    split
    · exact C.lift _
    · refine C.bind (C.lift _) fun _ => C.bind (C.lift _) fun _ => C.bind (C.lift _) fun _ => C.bind (C.lift _) fun _ => ?_
      split
      · exact C.lift _
      · exact C.bind (T _) fun _ => C.bind (SA _ _ _) fun _ => G _
  | emitMain p f txs ts =>
    refine C.void (x := Tree.emitMain E p f txs ts) fun s => ?_
    rw [emitMain_checks]
    have ht : txs ≠ [] := hop
    cases hr : emitChecks E s p f txs ts with
    | ok r =>
      rw [Act.lift_ok_bind]
      by_cases he : r.1.height.val % BLOCKS_PER_EPOCH = 0
      · rw [emitRest_wrong_epoch he ht]; exact ⟨hR.refl _, by simp⟩
      · rw [emitRest_tx he ht]
        exact C.bind (B _ (hA _ (by simp [newTxBlock, Block.IsMain]))) (fun _ => C.pure _) s
    | err e => rw [Act.lift_err_bind]; exact ⟨hR.refl _, by simp⟩
    | panic e => rw [Act.lift_panic_bind]; exact ⟨hR.refl _, by simp⟩
    | ub => rw [Act.lift_ub_bind]; exact ⟨hR.refl _, by simp⟩
  | emitDerivative p f ts =>
    refine C.void (x := Tree.emitDerivative E p f ts) ?_
    rw [emitDerivative_checks]
    exact C.bind (D _) fun _ => C.bind C.get fun _ => C.bind (C.lift _) fun _ => C.bind (DD _ _) fun _ => C.pure _
  | getDerivativeChain o => exact D o
  | derivAddBlock o b => exact C.bind (D o) fun _ => DD o _
  | derivFlush o => exact C.bind (D o) fun _ => DD o _
  | mainFlush => exact absurd trivial hop
  | flush => exact absurd trivial hop

/-! ### Databases changed at most once by a call -/

section once
variable (p : Tree → Db)

/-- Same contents, and nothing new that a crash may leave. -/
def Quiet (s t : Tree) : Prop := (p t).cur = (p s).cur ∧ ∀ m ∈ (p t).recov, m ∈ (p s).recov ∨ m = (p s).cur

/-- At every point of the call the database holds what it held before, or what it holds afterwards. -/
def OnceAt {α : Type} (x : Act Tree α) (s : Tree) : Prop :=
  ∀ t, t = (x s).final ∨ t ∈ (x s).trace → ((p t).cur = (p s).cur ∨ (p t).cur = (p (x s).final).cur) ∧
    ∀ m ∈ (p t).recov, m ∈ (p s).recov ∨ m = (p s).cur ∨ m = (p (x s).final).cur

variable {p}

theorem quiet_preord : Act.PreOrd (Quiet p) where
  refl _ := ⟨rfl, fun _ h => .inl h⟩
  trans := by
    rintro a b c ⟨h1, h2⟩ ⟨h3, h4⟩
    refine ⟨h3.trans h1, fun m hm => ?_⟩
    rcases h4 m hm with h | h
    · exact h2 m h
    · exact .inr (h.trans h1)

theorem Act.Rel.once {α : Type} {x : Act Tree α} (h : Act.Rel (Quiet p) x) (s : Tree) : OnceAt p x s := by
  intro t ht
  have : Quiet p s t := by
    rcases ht with rfl | ht
    · exact (h s).1
    · exact (h s).2 t ht
  refine ⟨.inl this.1, fun m hm => ?_⟩
  rcases this.2 m hm with h | h
  · exact .inl h
  · exact .inr (.inl h)

theorem once_bind_left {α β : Type} {x : Act Tree α} {f : α → Act Tree β} (hx : Act.Rel (Quiet p) x)
    (hf : ∀ a s, OnceAt p (f a) s) (s : Tree) : OnceAt p (x >>= f) s := by
  intro t ht
  rcases Act.bind_cases x f s with ⟨a, _, h2, h3, _⟩ | ⟨_, h2, h3, _⟩
  · rw [h2, h3] at ht
    rw [h2]
    obtain ⟨q1, q2⟩ := (hx s).1
    have key : (t = (f a (x s).final).final ∨ t ∈ (f a (x s).final).trace) ∨ t ∈ (x s).trace := by
      rcases ht with h | h
      · exact .inl (.inl h)
      · rcases List.mem_append.mp h with h | h
        · exact .inr h
        · exact .inl (.inr h)
    rcases key with h | h
    · obtain ⟨c1, c2⟩ := hf a (x s).final t h
      refine ⟨c1.imp (fun h => h.trans q1) id, fun m hm => ?_⟩
      rcases c2 m hm with h | h | h
      · rcases q2 m h with h | h
        · exact .inl h
        · exact .inr (.inl h)
      · exact .inr (.inl (h.trans q1))
      · exact .inr (.inr h)
    · obtain ⟨c1, c2⟩ := (hx s).2 t h
      refine ⟨.inl c1, fun m hm => ?_⟩
      rcases c2 m hm with h | h
      · exact .inl h
      · exact .inr (.inl h)
  · rw [h2, h3] at ht
    rw [h2]
    exact hx.once s t ht

theorem once_bind_right {α β : Type} {x : Act Tree α} {f : α → Act Tree β} {s : Tree} (hx : OnceAt p x s)
    (hf : ∀ a, Act.Rel (Quiet p) (f a)) : OnceAt p (x >>= f) s := by
  intro t ht
  rcases Act.bind_cases x f s with ⟨a, _, h2, h3, _⟩ | ⟨_, h2, h3, _⟩
  · rw [h2, h3] at ht
    rw [h2]
    obtain ⟨q1, q2⟩ := (hf a (x s).final).1
    rw [q1]
    have key : Quiet p (x s).final t ∨ t ∈ (x s).trace := by
      rcases ht with rfl | h
      · exact .inl (hf a (x s).final).1
      · rcases List.mem_append.mp h with h | h
        · exact .inr h
        · exact .inl ((hf a (x s).final).2 t h)
    rcases key with ⟨c1, c2⟩ | h
    · refine ⟨.inr c1, fun m hm => ?_⟩
      rcases c2 m hm with h | h
      · exact (hx _ (.inl rfl)).2 m h
      · exact .inr (.inr h)
    · exact hx t (.inr h)
  · rw [h2, h3] at ht
    rw [h2]
    exact hx t ht

theorem once_void {α : Type} {x : Act Tree α} {s : Tree} (h : OnceAt p x s) : OnceAt p x.void s := h

theorem once_lift {α : Type} (o : Outcome α) (s : Tree) : OnceAt p (Act.lift o) s :=
  ((Act.rel_closed quiet_preord).lift o).once s

theorem once_pure {α : Type} (a : α) (s : Tree) : OnceAt p (pure a) s :=
  ((Act.rel_closed quiet_preord).pure a).once s

/-- A transaction on the database. -/
theorem once_transact (c : KV → Outcome KV) (put : Db → Tree → Tree) (hput : ∀ d t, p (put d t) = d) (s : Tree) :
    OnceAt p ((Ledger.transact c).zoom p put) s := by
  intro t ht
  rw [Act.zoom_run] at *
  cases h : c (p s).cur with
  | ok m =>
    rw [Ledger.transact_ok h] at ht ⊢
    simp only [List.map_cons, List.map_nil, List.mem_singleton, or_self] at ht
    subst ht
    simp only [hput]
    refine ⟨.inr trivial, fun m' hm => ?_⟩
    rcases List.mem_cons.mp hm with h | h
    · exact .inr (.inr h)
    · exact .inl h
  | err e =>
    rw [Ledger.transact_err h] at ht ⊢
    simp only [List.map_nil, List.not_mem_nil, or_false] at ht
    subst ht
    simp only [hput]
    exact ⟨.inl trivial, fun m' hm => .inl hm⟩
  | panic e =>
    rw [Ledger.transact_panic h] at ht ⊢
    simp only [List.map_nil, List.not_mem_nil, or_false] at ht
    subst ht
    simp only [hput]
    exact ⟨.inl trivial, fun m' hm => .inl hm⟩
  | ub =>
    rw [Ledger.transact_ub h] at ht ⊢
    simp only [List.map_nil, List.not_mem_nil, or_false] at ht
    subst ht
    simp only [hput]
    exact ⟨.inl trivial, fun m' hm => .inl hm⟩

theorem quiet_of_eq {s t : Tree} (h : p t = p s) : Quiet p s t := ⟨by rw [h], fun m hm => .inl (by rw [← h]; exact hm)⟩

theorem quiet_of_flush {s t : Tree} (h : p t = (p s).flush) : Quiet p s t :=
  ⟨by rw [h]; rfl, fun m hm => .inr (by rw [h] at hm; exact Db.flush_recov hm)⟩

end once

section
variable {E : Env}

/-- Every call changes the coin database at most once, and the gas database at most once. -/
theorem Op.once_summary (op : Op) (s : Tree) : OnceAt Tree.summary (op.run E) s := by
  have C := Act.rel_closed (quiet_preord (p := Tree.summary))
  have M : ∀ {α : Type} (x : Act MainChain α), Act.Rel (Quiet Tree.summary) (Tree.onMain x) :=
    fun x => Act.rel_zoom (Act.rel_true _) fun _ _ _ => quiet_of_eq rfl
  have S : ∀ c s, OnceAt Tree.summary (Tree.onSummary (Ledger.transact c)) s :=
    fun c s => once_transact c _ (fun _ _ => rfl) s
  have G : ∀ x : Act Db Unit, Act.Rel (Quiet Tree.summary) (Tree.onGas x) :=
    fun x => Act.rel_zoom (Act.rel_true _) fun _ _ _ => quiet_of_eq rfl
  have D : ∀ o, Act.Rel (Quiet Tree.summary) (Tree.getDerivativeChain E o) := fun o =>
    Tree.getDeriv_rel quiet_preord.refl E o fun _ _ _ _ _ _ => quiet_of_eq rfl
  have DD : ∀ o (x : Act DerivativeChain Unit), Act.Rel (Quiet Tree.summary) (Tree.onDeriv o x) := fun o x =>
    Act.rel_zoom (Act.rel_true _) fun _ _ _ => quiet_of_eq rfl
  have SA : ∀ a b n s, OnceAt Tree.summary (Tree.sendAmount a b n) s := fun a b n s => by
    unfold Tree.sendAmount
    split
    · exact once_pure _ _
    · exact S _ _
  have F : Act.Rel (Quiet Tree.summary) Tree.flush := Tree.flush_rel quiet_preord (M _) (fun _ => quiet_of_flush rfl)
    (fun _ => quiet_of_eq rfl) (fun _ => quiet_of_eq rfl) (fun _ => quiet_of_eq rfl)
  have FR : Act.Rel (Quiet Tree.summary) Tree.rotateDbs := Tree.rotate_rel quiet_preord F (fun _ _ => quiet_of_eq rfl)
    (fun _ _ => quiet_of_eq rfl)
  cases op with
  | addBlock b => exact (M _).once s
  | addNewBlock b txs => exact (C.bind (M _) fun _ => M _).once s
  | addTransaction t => exact (M _).once s
  | addTransactions ts => exact (M _).once s
  | addAmount o a => exact S _ s
  | setAmount o a => exact S _ s
  | subAmount o a => exact S _ s
  | sendAmount a b n => exact SA a b n s
  | addGas o a => exact (G _).once s
  | subGas o a => exact (G _).once s
  | sendGas a b n => exact (G _).once s
  | sendTransaction tx =>
    change OnceAt Tree.summary (Tree.sendTransaction E tx) s
    unfold Tree.sendTransaction
    refine once_bind_left C.get (fun t s => once_bind_left (C.lift _) (fun g s => once_bind_left (C.lift _) (fun a s =>
      once_bind_left (C.lift _) (fun r s => ?_) s) s) s) s
    split
    · exact once_lift _ _
    · refine once_bind_left (C.lift _) (fun _ s => once_bind_left (C.lift _) (fun _ s => once_bind_left (C.lift _) (fun _ s =>
        once_bind_left (C.lift _) (fun _ s => ?_) s) s) s) s
      split
      · exact once_lift _ _
      · exact once_bind_left (M _) (fun _ s => once_bind_right (SA _ _ _ s) fun _ => G _) s
  | emitMain p f txs ts =>
    refine once_void (x := Tree.emitMain E p f txs ts) ?_
    unfold Tree.emitMain
    refine once_bind_left C.get (fun t s => once_bind_left (C.lift _) (fun _ s => once_bind_left (C.lift _) (fun _ s =>
      once_bind_left (C.lift _) (fun _ s => ?_) s) s) s) s
    split
    · exact once_lift _ _
    · refine once_bind_left (C.lift _) (fun _ s => once_bind_left (C.lift _) (fun _ s =>
        once_bind_left (C.lift _) (fun _ s => once_bind_right ?_ fun _ => C.bind (M _) fun _ => C.pure _) s) s) s
      split
      · split
        · exact once_lift _ _
        · exact once_bind_left (C.lift _) (fun _ s => once_bind_left FR (fun _ s =>
            once_bind_right (S _ s) fun _ => C.pure _) s) s
      · split
        · exact once_lift _ _
        · exact (C.bind (C.lift _) fun _ => C.pure _).once s
  | emitDerivative p f ts =>
    refine once_void (x := Tree.emitDerivative E p f ts) ?_
    rw [emitDerivative_checks]
    exact (C.bind (D _) fun _ => C.bind C.get fun _ => C.bind (C.lift _) fun _ => C.bind (DD _ _) fun _ => C.pure _).once s
  | getDerivativeChain o => exact (D o).once s
  | derivAddBlock o b => exact (C.bind (D o) fun _ => DD o _).once s
  | derivFlush o => exact (C.bind (D o) fun _ => DD o _).once s
  | mainFlush => exact (M _).once s
  | flush => exact F.once s

theorem Op.once_gas (op : Op) (s : Tree) : OnceAt Tree.gas (op.run E) s := by
  have C := Act.rel_closed (quiet_preord (p := Tree.gas))
  have M : ∀ {α : Type} (x : Act MainChain α), Act.Rel (Quiet Tree.gas) (Tree.onMain x) :=
    fun x => Act.rel_zoom (Act.rel_true _) fun _ _ _ => quiet_of_eq rfl
  have G : ∀ c s, OnceAt Tree.gas (Tree.onGas (Ledger.transact c)) s :=
    fun c s => once_transact c _ (fun _ _ => rfl) s
  have S : ∀ x : Act Db Unit, Act.Rel (Quiet Tree.gas) (Tree.onSummary x) :=
    fun x => Act.rel_zoom (Act.rel_true _) fun _ _ _ => quiet_of_eq rfl
  have D : ∀ o, Act.Rel (Quiet Tree.gas) (Tree.getDerivativeChain E o) := fun o =>
    Tree.getDeriv_rel quiet_preord.refl E o fun _ _ _ _ _ _ => quiet_of_eq rfl
  have DD : ∀ o (x : Act DerivativeChain Unit), Act.Rel (Quiet Tree.gas) (Tree.onDeriv o x) := fun o x =>
    Act.rel_zoom (Act.rel_true _) fun _ _ _ => quiet_of_eq rfl
  have SA : ∀ a b n, Act.Rel (Quiet Tree.gas) (Tree.sendAmount a b n) := fun a b n => by
    unfold Tree.sendAmount
    split
    · exact C.pure _
    · exact S _
  have F : Act.Rel (Quiet Tree.gas) Tree.flush := Tree.flush_rel quiet_preord (M _) (fun _ => quiet_of_eq rfl)
    (fun _ => quiet_of_eq rfl) (fun _ => quiet_of_flush rfl) (fun _ => quiet_of_eq rfl)
  have FR : Act.Rel (Quiet Tree.gas) Tree.rotateDbs := Tree.rotate_rel quiet_preord F (fun _ _ => quiet_of_eq rfl)
    (fun _ _ => quiet_of_eq rfl)
  cases op with
  | addBlock b => exact (M _).once s
  | addNewBlock b txs => exact (C.bind (M _) fun _ => M _).once s
  | addTransaction t => exact (M _).once s
  | addTransactions ts => exact (M _).once s
  | addAmount o a => exact (S _).once s
  | setAmount o a => exact (S _).once s
  | subAmount o a => exact (S _).once s
  | sendAmount a b n => exact (SA a b n).once s
  | addGas o a => exact G _ s
  | subGas o a => exact G _ s
  | sendGas a b n => exact G _ s
  | sendTransaction tx =>
    change OnceAt Tree.gas (Tree.sendTransaction E tx) s
    unfold Tree.sendTransaction
    refine once_bind_left C.get (fun t s => once_bind_left (C.lift _) (fun g s => once_bind_left (C.lift _) (fun a s =>
      once_bind_left (C.lift _) (fun r s => ?_) s) s) s) s
    split
    · exact once_lift _ _
    · refine once_bind_left (C.lift _) (fun _ s => once_bind_left (C.lift _) (fun _ s => once_bind_left (C.lift _) (fun _ s =>
        once_bind_left (C.lift _) (fun _ s => ?_) s) s) s) s
      split
      · exact once_lift _ _
      · exact once_bind_left (M _) (fun _ s => once_bind_left (SA _ _ _) (fun _ s => G _ s) s) s
  | emitMain p f txs ts =>
    refine once_void (x := Tree.emitMain E p f txs ts) (Act.Rel.once ?_ s)
    unfold Tree.emitMain
    refine C.bind C.get fun t => C.bind (C.lift _) fun _ => C.bind (C.lift _) fun _ => C.bind (C.lift _) fun _ => ?_
    split
    · exact C.lift _
    · refine C.bind (C.lift _) fun _ => C.bind (C.lift _) fun _ => C.bind (C.lift _) fun _ =>
        C.bind ?_ fun _ => C.bind (M _) fun _ => C.pure _
      split
      · split
        · exact C.lift _
        · exact C.bind (C.lift _) fun _ => C.bind FR fun _ => C.bind (S _) fun _ => C.pure _
      · split
        · exact C.lift _
        · exact C.bind (C.lift _) fun _ => C.pure _
  | emitDerivative p f ts =>
    refine once_void (x := Tree.emitDerivative E p f ts) ?_
    rw [emitDerivative_checks]
    exact (C.bind (D _) fun _ => C.bind C.get fun _ => C.bind (C.lift _) fun _ => C.bind (DD _ _) fun _ => C.pure _).once s
  | getDerivativeChain o => exact (D o).once s
  | derivAddBlock o b => exact (C.bind (D o) fun _ => DD o _).once s
  | derivFlush o => exact (C.bind (D o) fun _ => DD o _).once s
  | mainFlush => exact (M _).once s
  | flush => exact F.once s

end

/-! ### Stored entries -/

/-- What the databases on disk always satisfy. -/
structure DiskInv (E : Env) (d : Disk) : Prop where
  txs : TxKeyed E d.transactions
  summary : d.summary.Dec
  oldSummary : d.oldSummary.Dec
  gas : d.gas.Dec
  oldGas : d.oldGas.Dec

theorem life_storeInv {E : Env} {m : Moment} (h : Life E m) :
    match m with
    | .idle t => StoreInv E t
    | .busy t => StoreInv E t
    | .down d => DiskInv E d := by
  refine life_inv (P := StoreInv E) (Q := DiskInv E) ?_ ?_ ?_ (Op.storeInv E) ?_ h
  · exact ⟨fun k v h => by simp [Disk.empty] at h, KV.dec_empty, KV.dec_empty, KV.dec_empty, KV.dec_empty⟩
  · intro d h
    exact ⟨Db.all_open h.txs, Db.all_open h.summary, Db.all_open h.oldSummary, Db.all_open h.gas, Db.all_open h.oldGas⟩
  · refine Tree.new_rel (Act.inv_preord _) (fun _ h => ⟨h.txs, h.summary, h.oldSummary, h.gas, h.oldGas⟩)
      (fun _ _ _ h => ⟨h.txs, h.summary, h.oldSummary, h.gas, h.oldGas⟩) (storeInv_prims.addBlock _ trivial)
      (storeInv_prims.setAmount _ _)
  · intro t d h hc
    exact ⟨h.txs.2 _ hc.transactions, h.summary.2 _ hc.summary, h.oldSummary.2 _ hc.oldSummary, h.gas.2 _ hc.gas,
      h.oldGas.2 _ hc.oldGas⟩

/-! ### Flushing derivative chains -/

/-- The config file a derivative chain writes. -/
def DerivativeChain.saved (c : DerivativeChain) : Bytes := c.chain.height.toBE.val ++ c.chain.difficulty.val ++ c.genesisHash.val

/-- A derivative chain after `flush`. -/
def DerivativeChain.flushed (c : DerivativeChain) : DerivativeChain :=
  { c with
    chain :=
      { c.chain with
        config := some c.saved
        blocks := c.chain.blocks.flush
        heightReference := c.chain.heightReference.flush } }

theorem DerivativeChain.flush_run (c : DerivativeChain) :
    (DerivativeChain.flush c).out = .ok () ∧ (DerivativeChain.flush c).final = c.flushed := by
  unfold DerivativeChain.flush DerivativeChain.dumpConfig DerivativeChain.writeConfig
  simp [Act.step_bind, Act.bind_assoc', DerivativeChain.saved, DerivativeChain.flushed]

theorem DerivativeChain.readConfig_written (p : Hash) (h : U256) (d g : Hash) :
    readConfig p (some (h.toBE.val ++ d.val ++ g.val)) = .ok (h, d, g) := by
  have l1 : h.toBE.val.length = 32 := h.toBE.property
  have l2 : d.val.length = 32 := d.property
  have l3 : g.val.length = 32 := g.property
  unfold readConfig
  simp only
  have hl : (h.toBE.val ++ d.val ++ g.val).length = 96 := by simp [l1, l2, l3]
  rw [if_pos (by omega), if_pos (by omega), dif_pos (by omega)]
  have : (h.toBE.val ++ d.val ++ g.val).take 32 = h.toBE.val := by
    rw [List.append_assoc]; exact List.take_left' l1
  rw [this, fromBE_toBE, Outcome.ok_bind]
  congr 3
  · apply Subtype.ext
    simp only
    rw [List.append_assoc, show (h.toBE.val ++ (d.val ++ g.val)).drop 32 = d.val ++ g.val from List.drop_left' l1]
    exact List.take_left' l2
  · apply Subtype.ext
    simp only
    rw [show (h.toBE.val ++ d.val ++ g.val).drop 64 = g.val from List.drop_left' (by simp [l1, l2])]
    exact List.take_of_length_le (by omega)

end BCT
