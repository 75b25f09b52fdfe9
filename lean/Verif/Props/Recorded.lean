import Verif.Props.Frame
import Verif.Props.Real
/-!
# C105: the difficulty a chain records
-/

namespace BCT.Props
open BCT

/-- The difficulty of genesis, written independently of the model: 255 one bits after a zero bit. -/
def firstDifficulty : Hash := ⟨0x7F :: List.replicate 31 0xFF, by simp⟩

/-- The difficulty bytes of a config file, if there is a complete pair of height and difficulty, are those of genesis. -/
def OldConfig (c : Option Bytes) : Prop := ∀ f, c = some f → 64 ≤ f.length → (f.drop 32).take 32 = BEGINNING_DIFFICULTY.val

/-- Nothing records any difficulty but that of genesis. -/
structure Stale (t : Tree) : Prop where
  main : t.main.chain.difficulty = BEGINNING_DIFFICULTY
  config : OldConfig t.main.chain.config
  mem : ∀ o m, t.derivMem o = some m → m.difficulty = BEGINNING_DIFFICULTY
  files : ∀ n, OldConfig (t.derivFiles n).config

theorem oldConfig_written (h : U256) (rest : Bytes) : OldConfig (some (h.toBE.val ++ BEGINNING_DIFFICULTY.val ++ rest)) := by
  intro f hf _
  cases hf
  rw [List.append_assoc, List.drop_left' h.toBE.property]
  exact List.take_left' BEGINNING_DIFFICULTY.property

theorem oldConfig_short {f : Bytes} (h : f.length < 64) : OldConfig (some f) := by
  intro g hg hl
  cases hg
  omega

theorem readConfig_old {c : Option Bytes} (hc : OldConfig c) {h : U256} {d : Hash}
    (hr : MainChain.readConfig c = .ok (h, d)) : d = BEGINNING_DIFFICULTY := by
  cases c with
  | none => cases hr; rfl
  | some f =>
    simp only [MainChain.readConfig] at hr
    split at hr
    · split at hr
      · rename_i h64
        cases hu : U256.fromBE (f.take 32) with
        | ok u =>
          rw [hu] at hr
          cases hr
          exact Subtype.ext (hc f rfl h64)
        | err e => rw [hu] at hr; cases hr
        | panic e => rw [hu] at hr; cases hr
        | ub => rw [hu] at hr; cases hr
      · cases hr
    · cases hr

theorem derivConfig_old {c : Option Bytes} (hc : OldConfig c) {p : Hash} {r : U256 × Hash × Hash}
    (hr : DerivativeChain.readConfig p c = .ok r) : r.2.1 = BEGINNING_DIFFICULTY := by
  cases c with
  | none => cases hr; rfl
  | some f =>
    simp only [DerivativeChain.readConfig] at hr
    split at hr
    · split at hr
      · rename_i h64
        split at hr
        · cases hu : U256.fromBE (f.take 32) with
          | ok u =>
            rw [hu] at hr
            cases hr
            exact Subtype.ext (hc f rfl h64)
          | err e => rw [hu] at hr; cases hr
          | panic e => rw [hu] at hr; cases hr
          | ub => rw [hu] at hr; cases hr
        · cases hr
      · cases hr
    · cases hr

section
variable {E : Env}

theorem stale_onMain {α : Type} {x : Act MainChain α}
    (hx : Act.Rel (fun a b : MainChain => (a.chain.difficulty = BEGINNING_DIFFICULTY ∧ OldConfig a.chain.config) →
      (b.chain.difficulty = BEGINNING_DIFFICULTY ∧ OldConfig b.chain.config)) x) :
    Act.Rel (fun s t => Stale s → Stale t) (Tree.onMain x) :=
  Act.rel_zoom hx fun _ _ h1 h2 => by
    obtain ⟨a, b⟩ := h1 ⟨h2.main, h2.config⟩
    exact ⟨a, b, h2.mem, h2.files⟩

theorem stale_onSummary {α : Type} (x : Act Db α) : Act.Rel (fun s t => Stale s → Stale t) (Tree.onSummary x) :=
  Act.rel_zoom (R := fun _ _ => True) (fun _ => ⟨trivial, fun _ _ => trivial⟩) fun _ _ _ h => ⟨h.main, h.config, h.mem, h.files⟩

theorem stale_onGas {α : Type} (x : Act Db α) : Act.Rel (fun s t => Stale s → Stale t) (Tree.onGas x) :=
  Act.rel_zoom (R := fun _ _ => True) (fun _ => ⟨trivial, fun _ _ => trivial⟩) fun _ _ _ h => ⟨h.main, h.config, h.mem, h.files⟩

theorem stale_put {t : Tree} {o : Address} {c : DerivativeChain} (h : Stale t)
    (h1 : c.chain.difficulty = BEGINNING_DIFFICULTY) (h2 : OldConfig c.chain.config) : Stale (Tree.putHandle o c t) := by
  refine ⟨h.main, h.config, fun o' m hm => ?_, fun n => ?_⟩
  · simp only [Tree.putHandle] at hm
    split at hm
    · cases hm; exact h1
    · exact h.mem o' m hm
  · simp only [Tree.putHandle]
    split
    · exact h2
    · exact h.files n

theorem stale_handle {t : Tree} (h : Stale t) (o : Address) :
    (t.handle o).chain.difficulty = BEGINNING_DIFFICULTY ∧ OldConfig (t.handle o).chain.config := by
  refine ⟨?_, h.files _⟩
  simp only [Tree.handle]
  cases hm : t.derivMem o with
  | none => rfl
  | some m => exact h.mem o m hm

theorem stale_onDeriv {α : Type} {o : Address} {x : Act DerivativeChain α}
    (hx : Act.Rel (fun a b : DerivativeChain => (a.chain.difficulty = BEGINNING_DIFFICULTY ∧ OldConfig a.chain.config) →
      (b.chain.difficulty = BEGINNING_DIFFICULTY ∧ OldConfig b.chain.config)) x) :
    Act.Rel (fun s t => Stale s → Stale t) (Tree.onDeriv o x) :=
  Act.rel_zoom hx fun _ _ h1 h2 => by
    obtain ⟨a, b⟩ := h1 (stale_handle h2 o)
    exact stale_put h2 a b

theorem stale_chainAdd (h : U256) (dump : Bytes) :
    Act.Rel (fun a b : Chain => b.difficulty = a.difficulty ∧ b.config = a.config) (Chain.addBlock E h dump) :=
  Chain.addBlock_rel E (fun _ => ⟨rfl, rfl⟩) _ _ (fun _ _ => ⟨rfl, rfl⟩) (fun _ _ => ⟨rfl, rfl⟩) (fun _ _ _ => ⟨rfl, rfl⟩)

theorem stale_mainFlush : Act.Rel (fun s t => Stale s → Stale t) (Tree.onMain MainChain.flush) := by
  refine stale_onMain ?_
  have C := Act.rel_closed (Act.inv_preord
    (fun a : MainChain => a.chain.difficulty = BEGINNING_DIFFICULTY ∧ OldConfig a.chain.config))
  unfold MainChain.flush MainChain.dumpConfig MainChain.writeConfig
  refine C.bind (C.bind (Act.rel_step fun m h => ⟨h.1, oldConfig_short (by simp)⟩) fun _ =>
    C.bind (Act.rel_step fun m h => ⟨h.1, oldConfig_short ?_⟩) fun _ =>
    Act.rel_step fun m h => ⟨h.1, ?_⟩) fun _ =>
    C.bind (Act.rel_step fun _ h => h) fun _ => C.bind (Act.rel_step fun _ h => h) fun _ => Act.rel_step fun _ h => h
  · show m.chain.height.toBE.val.length < 64
    rw [m.chain.height.toBE.property]
    omega
  · have := oldConfig_written m.chain.height []
    rw [List.append_nil] at this
    simpa [h.1] using this

theorem stale_derivFlush (o : Address) : Act.Rel (fun s t => Stale s → Stale t) (Tree.onDeriv o DerivativeChain.flush) := by
  refine stale_onDeriv ?_
  have C := Act.rel_closed (Act.inv_preord
    (fun a : DerivativeChain => a.chain.difficulty = BEGINNING_DIFFICULTY ∧ OldConfig a.chain.config))
  unfold DerivativeChain.flush DerivativeChain.dumpConfig DerivativeChain.writeConfig
  refine C.bind (C.bind (Act.rel_step fun m h => ⟨h.1, oldConfig_short (by simp)⟩) fun _ =>
    C.bind (Act.rel_step fun m h => ⟨h.1, oldConfig_short ?_⟩) fun _ =>
    C.bind (Act.rel_step fun m h => ⟨h.1, ?_⟩) fun _ => Act.rel_step fun m h => ⟨h.1, ?_⟩) fun _ =>
    C.bind (Act.rel_step fun _ h => h) fun _ => Act.rel_step fun _ h => h
  · show m.chain.height.toBE.val.length < 64
    rw [m.chain.height.toBE.property]
    omega
  · have := oldConfig_written m.chain.height []
    rw [List.append_nil] at this
    simpa [h.1] using this
  · have := oldConfig_written m.chain.height m.genesisHash.val
    simpa [h.1] using this

theorem stale_flush : Act.Rel (fun s t => Stale s → Stale t) Tree.flush :=
  Tree.flush_rel (Act.inv_preord _) stale_mainFlush (fun _ h => ⟨h.main, h.config, h.mem, h.files⟩)
    (fun _ h => ⟨h.main, h.config, h.mem, h.files⟩) (fun _ h => ⟨h.main, h.config, h.mem, h.files⟩)
    (fun _ h => ⟨h.main, h.config, h.mem, h.files⟩)

theorem stale_prims : Prims E (fun _ => True) (fun {α} (x : Act Tree α) => Act.Rel (fun s t => Stale s → Stale t) x) where
  addBlock b _ := stale_onMain (MainChain.addBlock_rel (stale_chainAdd _ _) fun m c h1 h => by
    refine ⟨?_, ?_⟩
    · rw [← h.1]; exact h1.1
    · show OldConfig c.config
      rw [h1.2]; exact h.2)
  addTransaction _ := stale_onMain (Act.rel_step fun _ h => h)
  mainFlush := stale_mainFlush
  addAmount _ _ := stale_onSummary _
  setAmount _ _ := stale_onSummary _
  subAmount _ _ := stale_onSummary _
  sendAmount _ _ _ _ := stale_onSummary _
  addGas _ _ := stale_onGas _
  subGas _ _ := stale_onGas _
  sendGas _ _ _ := stale_onGas _
  flush := stale_flush
  rotate := Tree.rotate_rel (Act.inv_preord _) stale_flush (fun _ _ h => ⟨h.main, h.config, h.mem, h.files⟩)
    (fun _ _ h => ⟨h.main, h.config, h.mem, h.files⟩)
  getDeriv o := by
    intro s
    rcases Tree.getDeriv_cases E o s with ⟨_, e⟩ | ⟨_, ⟨out, _, e⟩ | ⟨b, c, _, hc, e⟩⟩
    · rw [e]; exact ⟨id, by simp⟩
    · rw [e]; exact ⟨id, by simp⟩
    · rw [e]
      have : Stale s → Stale (Tree.putHandle o c s) := by
        intro h
        unfold DerivativeChain.new at hc
        cases hr : DerivativeChain.readConfig (b.hash E) (s.derivFiles (hexEncode o.val)).config with
        | ok r =>
          rw [hr, Outcome.ok_bind] at hc
          have := Outcome.ok.inj hc
          subst this
          exact stale_put h (derivConfig_old (h.files _) hr) (h.files _)
        | err e => rw [hr] at hc; cases hc
        | panic e => rw [hr] at hc; cases hc
        | ub => rw [hr] at hc; cases hc
      exact ⟨this, fun t ht => by rw [List.mem_singleton.mp ht]; exact this⟩
  derivAdd o b := stale_onDeriv (DerivativeChain.addBlock_rel (stale_chainAdd _ _) fun m c h1 h => by
    refine ⟨?_, ?_⟩
    · rw [← h.1]; exact h1.1
    · show OldConfig c.config
      rw [h1.2]; exact h.2)
  derivFlush o := stale_derivFlush o

/-- What is on the disk records no other difficulty either. -/
def StaleDisk (d : Disk) : Prop := OldConfig d.config ∧ ∀ n, OldConfig (d.deriv n).config

theorem stale_boot {d : Disk} (h : StaleDisk d) : Stale d.boot := ⟨rfl, h.1, fun _ _ hm => (nomatch hm), h.2⟩

theorem stale_open {d : Disk} (h : StaleDisk d) :
    Stale (openTree E d).final ∧ ∀ t ∈ (openTree E d).trace, Stale t := by
  have hb := stale_boot h
  have key : ∀ (m : MainChain) (tr : List MainChain), MainChain.new E d.boot.main = ⟨.ok (), m, tr⟩ →
      (∀ x, x = m ∨ x ∈ tr → x.chain.difficulty = BEGINNING_DIFFICULTY ∧ x.chain.config = d.config) →
      Stale (openTree E d).final ∧ ∀ t ∈ (openTree E d).trace, Stale t := by
    intro m tr hn hx
    rw [openTree_of_new hn]
    have put : ∀ x, x = m ∨ x ∈ tr → ∀ q, Stale { d.boot with main := x, summary := q } := fun x hm q =>
      ⟨(hx x hm).1, by show OldConfig x.chain.config; rw [(hx x hm).2]; exact h.1, hb.mem, hb.files⟩
    refine ⟨put m (.inl rfl) _, fun t ht => ?_⟩
    rcases List.mem_cons.mp ht with rfl | ht
    · exact hb
    rcases List.mem_append.mp ht with ht | ht
    · obtain ⟨x, hx, rfl⟩ := List.mem_map.mp ht
      exact put x (.inr hx) _
    · split at ht
      · rw [List.mem_singleton.mp ht]; exact put m (.inl rfl) _
      · cases ht
  rcases openTree_cases d with hc | ⟨g, df, hc, hp⟩ | ⟨df, hc⟩
  · rw [openTree_torn hc]
    exact ⟨hb, fun t ht => by rw [List.mem_singleton.mp ht]; exact hb⟩
  · have hd := readConfig_old h.1 hc
    refine key _ _ (MainChain.new_pos E d.boot.main g df hc hp) ?_
    rintro x (rfl | hx)
    · exact ⟨hd, rfl⟩
    · rw [List.mem_singleton.mp hx]; exact ⟨hd, rfl⟩
  · have hd := readConfig_old h.1 hc
    refine key _ _ (MainChain.new_zero E d.boot.main df hc) ?_
    rintro x (rfl | hx)
    · exact ⟨hd, rfl⟩
    · simp only [List.mem_cons, List.not_mem_nil, or_false] at hx
      rcases hx with rfl | rfl | rfl | rfl <;> exact ⟨hd, rfl⟩

theorem life_stale {m : Moment} (h : Life E m) :
    match m with
    | .idle t => Stale t
    | .busy t => Stale t
    | .down d => StaleDisk d := by
  have hop : ∀ op : Op, Act.Rel (fun s t => Stale s → Stale t) (op.run E) := fun op =>
    Op.sat stale_prims (Act.rel_closed (Act.inv_preord _)) op op.adds_true
  have hcrash : ∀ t d, Stale t → Crash t d → StaleDisk d := fun t d ht hc =>
    ⟨by rw [hc.config]; exact ht.config, fun n => by rw [(hc.deriv n).2.2]; exact ht.files n⟩
  induction h with
  | start => exact ⟨fun f hf => (by cases hf), fun n f hf => (by cases hf)⟩
  | opening d t _ ht ih => exact (stale_open ih).2 t ht
  | opened d _ _ ih => exact (stale_open ih).1
  | running s t op _ ht ih => exact (hop op s).2 t ht ih
  | call s op _ ih => exact (hop op s).1 ih
  | crashIdle s d _ hd ih => exact hcrash s d ih hd
  | crashBusy s d _ hd ih => exact hcrash s d ih hd

end

/-- C105 in full: the difficulty a chain keeps (and saves) is that of its last block. -/
def C105_full : Prop := ∀ (E : Env) (s : Tree) (b : Block), Run E s → s.main.getLastBlock = .ok (some b) →
  s.main.chain.difficulty = b.info.difficulty

/-- C105, what holds instead: in the whole life of a node, with restarts and crashes, the difficulty recorded by the main
chain and by every open derivative chain is that of genesis, and so is the one in every complete config file. -/
theorem C105_constant_partial (E : Env) :
    (∀ s : Tree, Life E (.idle s) → s.main.chain.difficulty = firstDifficulty ∧
      ∀ o m, s.derivMem o = some m → m.difficulty = firstDifficulty) ∧
    (∀ d : Disk, Life E (.down d) → (∀ f, d.config = some f → 64 ≤ f.length → (f.drop 32).take 32 = firstDifficulty.val) ∧
      ∀ o : Address, ∀ f, (d.deriv (hexEncode o.val)).config = some f → 64 ≤ f.length →
        (f.drop 32).take 32 = firstDifficulty.val) :=
  ⟨fun _ h => ⟨(life_stale h).main, (life_stale h).mem⟩, fun _ h => ⟨(life_stale h).1, fun _ => (life_stale h).2 _⟩⟩

/-- C105 is false of the code. Whatever the digest: after the node has accepted a block whose difficulty is not that of
genesis, the chain's difficulty is not the block's. With SHA-256: a fresh node emits such a block when the clock has
not moved since genesis. -/
theorem C105_refuted :
    (∀ (E : Env) (s : Tree) (b : Block), Life E (.idle s) → s.main.getLastBlock = .ok (some b) →
      b.info.difficulty ≠ firstDifficulty → s.main.chain.difficulty ≠ b.info.difficulty) ∧
    (∀ c, ∃ b, (Tree.emitMain (shaEnv c) (realPow 6) ROOT_PUBLIC_ADDRESS [BytesN.fill 32 5] 1597924800
        (openTree (shaEnv c) Disk.empty).final).out = .ok b ∧ b.info.difficulty ≠ firstDifficulty) ∧
    ¬ C105_full := by
  have sha : ∀ c, ∃ b, (Tree.emitMain (shaEnv c) (realPow 6) ROOT_PUBLIC_ADDRESS [BytesN.fill 32 5] 1597924800
        (openTree (shaEnv c) Disk.empty).final).out = .ok b ∧ b.info.difficulty ≠ firstDifficulty ∧
      (Tree.emitMain (shaEnv c) (realPow 6) ROOT_PUBLIC_ADDRESS [BytesN.fill 32 5] 1597924800
        (openTree (shaEnv c) Disk.empty).final).final.main.getLastBlock = .ok (some b) := by
    intro c
    obtain ⟨b, h1, _, _, _, h2⟩ := real_emits c (realPow 6) ROOT_PUBLIC_ADDRESS [BytesN.fill 32 5] 1597924800 (by simp)
      (.inl (by decide)) (real_meets c).1
    refine ⟨b, h1, ?_, h2⟩
    obtain ⟨t, g, k1, k2, k3, k4, k5, k6, _⟩ := real_fresh c
    rw [← k1] at h1
    obtain ⟨l, j1, j2, _, j3, _⟩ := emitted_info (runWith_run k2) (by rw [k3]; decide) h1
    rw [k4] at j1
    cases j1
    have hd := j2.difficulty
    rw [j3, show (Block.summarize g).info.timestamp = 1597924800 from k5,
      show (Block.summarize g).info.difficulty = BEGINNING_DIFFICULTY from k6] at hd
    intro he
    rw [he] at hd
    revert hd
    cases c <;> decide +kernel
  have gen : ∀ (E : Env) (s : Tree) (b : Block), Life E (.idle s) → s.main.getLastBlock = .ok (some b) →
      b.info.difficulty ≠ firstDifficulty → s.main.chain.difficulty ≠ b.info.difficulty := by
    intro E s b h _ hb he
    exact hb (he ▸ ((C105_constant_partial E).1 s h).1)
  refine ⟨gen, fun c => (sha c).imp fun b h => ⟨h.1, h.2.1⟩, fun hfull => ?_⟩
  obtain ⟨b, h1, h2, h3⟩ := sha true
  obtain ⟨t, g, k1, k2, _⟩ := real_fresh true
  rw [← k1] at h1 h3
  have hr : Run (shaEnv true) (Tree.emitMain (shaEnv true) (realPow 6) ROOT_PUBLIC_ADDRESS [BytesN.fill 32 5] 1597924800 t).final :=
    .call t (.emitMain (realPow 6) ROOT_PUBLIC_ADDRESS [BytesN.fill 32 5] 1597924800) (runWith_run k2) trivial
  exact gen _ _ b (run_life hr) h3 h2 (hfull _ _ b hr h3)

end BCT.Props
