import Verif.Model.Power
import Verif.Props.Crash
import Verif.Lemmas.Faults
/-!
# C132: flushing and power failures (chain.rs:148-201)
-/

namespace BCT.Props
open BCT

/-- C132 at full strength: what was there when `flush` was called is there after a power failure at any time after
`flush` has returned. -/
def C132_full : Prop := ∀ (E : Env) (past : List Tree) (s : Tree) (d : Disk), Powered E past (.idle s) →
  PowerLoss (past ++ (Op.flush.run E s).trace) (Op.flush.run E s).final d →
  (openTree E d).out = .ok () ∧ s.main.getHeight.val ≤ (openTree E d).final.main.getHeight.val ∧
  ∀ q : U256, q.val < s.main.getHeight.val → (openTree E d).final.main.findRawByHeight q = s.main.findRawByHeight q

/-! ### Invariants -/

theorem powered_inv {E : Env} {P : Tree → Prop} (hb : ∀ d : Disk, P d.boot)
    (hn : Act.Rel (fun s t => P s → P t) (Tree.new E)) (ho : ∀ op : Op, Act.Rel (fun s t => P s → P t) (op.run E))
    {past : List Tree} {m : Moment} (h : Powered E past m) :
    match m with
    | .idle t => P t
    | .busy t => P t
    | .down _ => True := by
  induction h with
  | start => trivial
  | opening _ l r d t _ ht _ => exact (hn d.boot).2 t (by rw [show (Tree.new E d.boot).trace = l ++ t :: r from ht]; simp) (hb d)
  | opened _ d _ _ _ => exact (hn d.boot).1 (hb d)
  | running _ l r s t op _ ht ih => exact (ho op s).2 t (by rw [ht]; simp) ih
  | call _ s op _ ih => exact (ho op s).1 ih
  | failIdle => trivial
  | failBusy => trivial

theorem powered_sound {E : Env} {past : List Tree} {s : Tree} (h : Powered E past (.idle s)) : Sound s :=
  powered_inv boot_sound new_sound (fun op => Op.sat sound_prims (Act.rel_closed sound_preord) op op.adds_true) h

theorem powered_height_pos {E : Env} {past : List Tree} {s : Tree} (h : Powered E past (.idle s)) :
    1 ≤ s.main.chain.height.val := by
  generalize hm : Moment.idle s = m at h
  induction h generalizing s with
  | opened _ d _ ho => cases hm; exact life_opened_height ho
  | call _ s' op _ ih => cases hm; exact Nat.le_trans (ih rfl) (op_height_mono E op s')
  | _ => cases hm

/-! ### What is lost -/

/-- What the power failure may leave of a flushed node: everything but the config file, which is any it has had. -/
theorem loss_of {E : Env} {past : List Tree} {s p : Tree} (h : Powered E past (.idle s))
    (hp : p ∈ past ++ (Op.flush.run E s).trace) :
    PowerLoss (past ++ (Op.flush.run E s).trace) (Op.flush.run E s).final
      { (Op.flush.run E s).final.close with config := p.main.chain.config } := by
  have hs := powered_sound (Powered.call past s .flush h)
  exact ⟨hs.blocks, hs.heightReference, hs.transactions, ⟨p, List.mem_cons_of_mem _ hp, rfl⟩, hs.summary, hs.oldSummary,
    hs.gas, hs.oldGas, fun n => ⟨(hs.deriv n).1, (hs.deriv n).2, _, List.mem_cons_self, rfl⟩⟩

/-- However a node has come to be and whatever it holds: after a flush that has returned, a power failure can leave a
directory that cannot be opened. If the machine was started with no config file (so on the first run), it can also leave
one that opens as if the node had never run: at height 1, with none of the blocks from height 2 on, the root account full
again, and everyone else's balance as it was. -/
theorem C132_refuted :
    (∀ (E : Env) (past : List Tree) (s : Tree), Powered E past (.idle s) →
      (Op.flush.run E s).out = .ok () ∧
      (∃ d, PowerLoss (past ++ (Op.flush.run E s).trace) (Op.flush.run E s).final d ∧
        (openTree E d).out = .err .chainInit) ∧
      ((∃ p ∈ past, p.main.chain.config = none) →
        ∃ d, PowerLoss (past ++ (Op.flush.run E s).trace) (Op.flush.run E s).final d ∧ (openTree E d).out = .ok () ∧
          (openTree E d).final.main.getHeight.val = 1 ∧
          (∀ q : U256, 1 < q.val → (openTree E d).final.main.findRawByHeight q = none) ∧
          (openTree E d).final.getAmount ROOT_PUBLIC_ADDRESS = .ok COINS_PER_CYCLE ∧
          ∀ o, o ≠ ROOT_PUBLIC_ADDRESS → (openTree E d).final.getAmount o = s.getAmount o)) ∧
    ¬ C132_full := by
  have key : ∀ (E : Env) (past : List Tree) (s : Tree), Powered E past (.idle s) →
      ∃ d, PowerLoss (past ++ (Op.flush.run E s).trace) (Op.flush.run E s).final d ∧
        (openTree E d).out = .err .chainInit := by
    intro E past s h
    obtain ⟨tr, hf, h1, _⟩ := s.flush_run
    have ht : (Op.flush.run E s).trace = tr := by rw [show Op.flush.run E s = Tree.flush s from rfl, hf]
    refine ⟨_, loss_of h (List.mem_append_right _ (by rw [ht]; exact h1)), ?_⟩
    rw [openTree_torn rfl]
  refine ⟨fun E past s h => ⟨(flush_op E s).1, key E past s h, fun hp => ?_⟩, fun hf => ?_⟩
  · obtain ⟨p, hp, hc⟩ := hp
    refine ⟨_, loss_of h (List.mem_append_left _ hp), ?_⟩
    generalize hd : ({ (Op.flush.run E s).final.close with config := p.main.chain.config } : Disk) = d
    have hz : MainChain.readConfig d.config = .ok (U256.zero, BEGINNING_DIFFICULTY) := by
      rw [← hd]; simp only [hc]; rfl
    obtain ⟨ho, hfin⟩ := openTree_zero (E := E) hz
    have hsum : d.summary = s.summary.cur := by rw [← hd, (flush_op E s).2]; rfl
    refine ⟨ho, by rw [hfin]; rfl, fun q hq => ?_, ?_, fun o hne => ?_⟩
    · rw [hfin]
      unfold MainChain.findRawByHeight Chain.findRawByHeight
      rw [if_pos]
      exact hq
    · unfold Tree.getAmount
      rw [hfin]; exact seed_root rfl
    · unfold Tree.getAmount
      rw [hfin]
      show Ledger.balance ((seedSummary U256.one (Db.open' d.summary)).get o.val) = _
      rw [seed_other (h := U256.one) (.inr fun e => hne (Subtype.ext e)), hsum]
      rfl
  · have h0 : Powered zeroEnv _ (.idle (openTree zeroEnv Disk.empty).final) :=
      .opened [] Disk.empty .start (openTree_fresh zeroEnv).1
    obtain ⟨d, hd, he⟩ := key _ _ _ h0
    have := (hf _ _ _ d h0 hd).1
    rw [he] at this
    cases this

/-! ### What is kept -/

/-- The blocks below `H` and the keys of the transactions are on disk. -/
structure Safe (m0 x0 : KV) (H : Nat) (c : MainChain) : Prop where
  height : H ≤ c.chain.height.val
  blocks : ∀ m, m = c.chain.blocks.cur ∨ m ∈ c.chain.blocks.recov → ∀ q : U256, q.val < H →
    m.get q.toBE.val = m0.get q.toBE.val
  txs : ∀ m, m = c.transactions.cur ∨ m ∈ c.transactions.recov → ∀ k, (x0.get k).isSome → (m.get k).isSome

theorem Safe.put {m0 x0 : KV} {H : Nat} {c : MainChain} (h : Safe m0 x0 H c) (v : Bytes) :
    ∀ m, m = (c.chain.blocks.insert c.chain.height.toBE.val v).cur ∨
        m ∈ (c.chain.blocks.insert c.chain.height.toBE.val v).recov →
      ∀ q : U256, q.val < H → m.get q.toBE.val = m0.get q.toBE.val := by
  intro m hm q hq
  have hne : q.toBE.val ≠ c.chain.height.toBE.val := fun e => by
    have h1 : q.val = c.chain.height.val := by rw [toBE_inj e]
    have := h.height
    omega
  have key : (c.chain.blocks.cur.insert c.chain.height.toBE.val v).get q.toBE.val = m0.get q.toBE.val := by
    rw [KV.get_insert, if_neg (Ne.symm hne)]
    exact h.blocks _ (.inl rfl) q hq
  rcases hm with rfl | hm
  · exact key
  · rcases List.mem_cons.mp hm with rfl | hm
    · exact key
    · exact h.blocks m (.inr hm) q hq

theorem safe_op {m0 x0 : KV} {H : Nat} (E : Env) (op : Op) (s : Tree) (h : Safe m0 x0 H s.main) :
    Safe m0 x0 H (op.run E s).final.main := by
  refine Op.sat (main_prims (A := fun _ => True) (R := fun s t => Safe m0 x0 H s → Safe m0 x0 H t) (Act.inv_preord _)
    (fun b _ => ?_) (fun t => Act.relF_step fun c h => ⟨h.height, h.blocks, fun m hm k hk => ?_⟩) ?_)
    (Act.relF_closed ⟨fun _ h => h, fun h1 h2 h => h2 (h1 h)⟩) op op.adds_true s h
  · exact (MainChain.addBlock_rel (E := E) (b := b)
      (R := fun a b : Chain => ∀ T, Safe m0 x0 H ⟨a, T⟩ → Safe m0 x0 H ⟨b, T⟩)
      (Q := fun s t => Safe m0 x0 H s → Safe m0 x0 H t)
      (Chain.addBlock_rel E (fun _ _ h => h) _ _
        (fun _ _ _ h => ⟨h.height, h.put _, h.txs⟩)
        (fun _ _ _ h => ⟨h.height, h.put _, h.txs⟩)
        (fun _ _ _ _ h => ⟨Nat.le_succ_of_le h.height, h.put _, h.txs⟩)) fun m _ h => h m.transactions).relF
  · have key : ((c.transactions.cur.insert (E.sha256 t.dump).val t.dump).get k).isSome := by
      rw [KV.get_insert]
      split
      · rfl
      · exact h.txs _ (.inl rfl) k hk
    rcases hm with rfl | hm
    · exact key
    · rcases List.mem_cons.mp hm with rfl | hm
      · exact key
      · exact h.txs m (.inr hm) k hk
  · intro c h
    rw [MainChain.flush_run]
    refine ⟨h.height, fun x hx => h.blocks x (.inl ?_), fun x hx => h.txs x (.inl ?_)⟩
    · rcases hx with hx | hx
      · exact hx
      · exact Db.flush_recov hx
    · rcases hx with hx | hx
      · exact hx
      · exact Db.flush_recov hx

theorem safe_later {E : Env} {s u : Tree} (hu : Later E (Op.flush.run E s).final u) :
    Safe s.main.chain.blocks.cur s.main.transactions.cur s.main.chain.height.val u.main := by
  induction hu with
  | refl =>
    rw [(flush_op E s).2]
    refine ⟨Nat.le_refl _, fun m hm q _ => ?_, fun m hm k hk => ?_⟩
    · rcases hm with rfl | hm
      · rfl
      · rw [Db.flush_recov hm]
    · rcases hm with rfl | hm
      · exact hk
      · rw [Db.flush_recov hm]; exact hk
  | call s' op _ ih => exact safe_op E op s' ih

/-- The databases keep what was flushed. Whatever is called after a flush has returned, and whatever a power failure then
makes of the config file: the block database has every block below the flushed height, unchanged, and the transaction
database every transaction. If the config file is whole and has a height, the node opens at this height and returns the
flushed blocks up to it; and if the file is as last written, the node opens at the flushed height or above. (Missing: a
config file from before the flush; its height may be too low.) -/
theorem C132_databases_partial (E : Env) (past past' : List Tree) (s u : Tree) (d : Disk) (hs : Powered E past (.idle s))
    (hu : Later E (Op.flush.run E s).final u) (hd : PowerLoss past' u d) :
    (∀ q : U256, q.val < s.main.getHeight.val → d.blocks.get q.toBE.val = s.main.findRawByHeight q) ∧
    (∀ h : Hash, s.main.transactionExists h = true → (d.transactions.get h.val).isSome) ∧
    (∀ h df, MainChain.readConfig d.config = .ok (h, df) → 1 ≤ h.val →
      (openTree E d).out = .ok () ∧ (openTree E d).final.main.getHeight = h ∧
      ∀ q : U256, q.val < s.main.getHeight.val → q.val ≤ h.val →
        (openTree E d).final.main.findRawByHeight q = s.main.findRawByHeight q) ∧
    (d.config = u.main.chain.config →
      (openTree E d).out = .ok () ∧ s.main.getHeight.val ≤ (openTree E d).final.main.getHeight.val ∧
      ∀ q : U256, q.val < s.main.getHeight.val →
        (openTree E d).final.main.findRawByHeight q = s.main.findRawByHeight q) := by
  have hsafe := safe_later hu
  have hq : ∀ q : U256, q.val < s.main.getHeight.val → d.blocks.get q.toBE.val = s.main.findRawByHeight q := by
    intro q hq
    rw [hsafe.blocks _ (.inr hd.blocks) q hq]
    unfold MainChain.findRawByHeight Chain.findRawByHeight
    have : ¬ s.main.chain.height.val < q.val := by
      show ¬ s.main.getHeight.val < q.val
      omega
    rw [if_neg this]
    rfl
  have hc : ∀ h df, MainChain.readConfig d.config = .ok (h, df) → 1 ≤ h.val →
      (openTree E d).out = .ok () ∧ (openTree E d).final.main.getHeight = h ∧
      ∀ q : U256, q.val < s.main.getHeight.val → q.val ≤ h.val →
        (openTree E d).final.main.findRawByHeight q = s.main.findRawByHeight q := by
    intro h df hr hp
    obtain ⟨ho, hf⟩ := openTree_pos (E := E) hr (by omega)
    refine ⟨ho, by rw [hf]; rfl, fun q h1 h2 => ?_⟩
    rw [hf]
    refine Eq.trans ?_ (hq q h1)
    show Chain.findRawByHeight _ q = _
    unfold Chain.findRawByHeight
    rw [if_neg]
    · rfl
    · show ¬ h.val < q.val
      omega
  refine ⟨hq, fun h hh => ?_, hc, fun he => ?_⟩
  · exact hsafe.txs _ (.inr hd.transactions) h.val hh
  · have hpin : Pinned s.main.chain.blocks.cur s.main.chain.height.val u.main.chain := by
      clear hd hsafe hq hc he
      induction hu with
      | refl =>
        rw [(flush_op E s).2]
        refine ⟨⟨_, _, MainChain.readConfig_written _ _, Nat.le_refl _⟩, Nat.le_refl _, fun m hm q _ => ?_⟩
        rcases hm with rfl | hm
        · rfl
        · rw [Db.flush_recov hm]
      | call s' op _ ih => exact pinned_op E op s' ih
    obtain ⟨h', df, hr, hle⟩ := hpin.config
    rw [← he] at hr
    have hpos := powered_height_pos hs
    obtain ⟨h1, h2, h3⟩ := hc h' df hr (by omega)
    refine ⟨h1, by rw [h2]; exact hle, fun q hq => h3 q hq ?_⟩
    have : s.main.getHeight.val = s.main.chain.height.val := rfl
    omega

/-- If the config file is found as last written, a power failure after a flush and before the next call loses nothing
(the root account's balance at height 1 apart, as in C58). -/
theorem C132_last_config_partial (E : Env) (past : List Tree) (s : Tree) (d : Disk) (hs : Powered E past (.idle s))
    (hd : PowerLoss (past ++ (Op.flush.run E s).trace) (Op.flush.run E s).final d)
    (hc : d.config = (Op.flush.run E s).final.main.chain.config) :
    (openTree E d).out = .ok () ∧ SameAnswers E s (openTree E d).final ∧
    (∀ o, s.main.getHeight.val ≠ 1 ∨ o ≠ ROOT_PUBLIC_ADDRESS → (openTree E d).final.getAmount o = s.getAmount o) := by
  rw [(flush_op E s).2] at hd hc
  obtain ⟨ho, ha, hsum⟩ := reopen (E := E) (s := s) (d := d) (powered_height_pos hs) (Db.flush_recov hd.blocks)
    (Db.flush_recov hd.heightReference) (Db.flush_recov hd.transactions) hc (Db.flush_recov hd.gas)
  refine ⟨ho, ha, fun o hor => ?_⟩
  unfold Tree.getAmount
  rw [hsum, seed_other (h := s.main.chain.height) (hor.imp id fun h e => h (Subtype.ext e)),
    show d.summary = s.summary.cur from Db.flush_recov hd.summary]
  rfl

/-! ### The height is never too high -/

/-- The config file has the height it had, or one the chain has reached, or cannot be read. -/
def Behind (s t : MainChain) : Prop :=
  s.chain.height.val ≤ t.chain.height.val ∧
  ∀ h df, MainChain.readConfig t.chain.config = .ok (h, df) →
    MainChain.readConfig s.chain.config = .ok (h, df) ∨ h.val ≤ t.chain.height.val

theorem behind_preord : Act.PreOrd Behind where
  refl s := ⟨Nat.le_refl _, fun _ _ h => .inl h⟩
  trans := by
    rintro a b c ⟨h1, h2⟩ ⟨h3, h4⟩
    refine ⟨Nat.le_trans h1 h3, fun h df hr => ?_⟩
    rcases h4 h df hr with hr | hr
    · rcases h2 h df hr with hr | hr
      · exact .inl hr
      · exact .inr (Nat.le_trans hr h3)
    · exact .inr hr

/-- As `main_prims`, for the states in between as well. -/
theorem main_prims_rel {E : Env} {A : Block → Prop} {R : MainChain → MainChain → Prop} (hR : Act.PreOrd R)
    (h1 : ∀ b, A b → Act.Rel R (MainChain.addBlock E b)) (h2 : ∀ t, Act.Rel R (MainChain.addTransaction E t))
    (h3 : Act.Rel R MainChain.flush) :
    Prims E A (fun {α} (x : Act Tree α) => Act.Rel (fun s t => R s.main t.main) x) := by
  have hT : Act.PreOrd (fun s t : Tree => R s.main t.main) := ⟨fun _ => hR.refl _, fun a b => hR.trans a b⟩
  have C := Act.rel_closed hT
  have F : Act.Rel (fun s t : Tree => R s.main t.main) Tree.flush := by
    unfold Tree.flush
    exact C.bind (Act.rel_zoom h3 fun _ _ h => h) fun _ => C.bind (Act.rel_step fun _ => hR.refl _) fun _ =>
      C.bind (Act.rel_step fun _ => hR.refl _) fun _ => C.bind (Act.rel_step fun _ => hR.refl _) fun _ =>
        Act.rel_step fun _ => hR.refl _
  refine ⟨fun b hb => Act.rel_zoom (h1 b hb) fun _ _ h => h, fun t => Act.rel_zoom (h2 t) fun _ _ h => h,
    Act.rel_zoom h3 fun _ _ h => h, fun _ _ => ?_, fun _ _ => ?_, fun _ _ => ?_, fun _ _ _ _ => ?_, fun _ _ => ?_,
    fun _ _ => ?_, fun _ _ _ => ?_, F, ?_, fun o => ?_, fun _ _ => ?_, fun _ => ?_⟩
  case refine_8 =>
    unfold Tree.rotateDbs
    exact C.bind F fun _ => C.bind (Act.rel_step fun _ => hR.refl _) fun _ =>
      C.bind (Act.rel_step fun _ => hR.refl _) fun _ => C.bind (Act.rel_step fun _ => hR.refl _) fun _ =>
        Act.rel_step fun _ => hR.refl _
  case refine_9 =>
    exact Tree.getDeriv_rel (R := fun s t : Tree => R s.main t.main) (fun _ => hR.refl _) E o
      fun _ _ _ _ _ _ => hR.refl _
  all_goals exact Act.rel_zoom (Act.rel_true _) fun _ _ _ => hR.refl _

theorem readConfig_short {f : Bytes} (h : f.length < 64) : ∀ h' df, MainChain.readConfig (some f) ≠ .ok (h', df) := by
  intro h' df hr
  have := (readConfig_ok_iff (some f)).mp ⟨_, hr⟩ f rfl
  omega

theorem behind_op (E : Env) (op : Op) : Act.Rel (fun s t : Tree => Behind s.main t.main) (op.run E) := by
  have hT : Act.PreOrd (fun s t : Tree => Behind s.main t.main) :=
    ⟨fun _ => behind_preord.refl _, fun a b => behind_preord.trans a b⟩
  refine Op.sat (main_prims_rel (A := fun _ => True) behind_preord (fun b _ => ?_)
    (fun t => Act.rel_step fun c => ⟨Nat.le_refl _, fun _ _ h => .inl h⟩) ?_) (Act.rel_closed hT) op op.adds_true
  · exact MainChain.addBlock_rel
      (R := fun a b => a.height.val ≤ b.height.val ∧ b.config = a.config)
      (Chain.addBlock_rel E (fun _ => ⟨Nat.le_refl _, rfl⟩) _ _ (fun _ _ => ⟨Nat.le_refl _, rfl⟩)
        (fun _ _ => ⟨Nat.le_refl _, rfl⟩) (fun _ _ _ => ⟨Nat.le_succ _, rfl⟩))
      fun m c h => ⟨h.1, fun _ _ hr => .inl (by rw [← h.2]; exact hr)⟩
  · intro c
    have key : ∀ t : MainChain, t.chain.height = c.chain.height →
        (t.chain.config = some [] ∨ t.chain.config = some c.chain.height.toBE.val ∨ t.chain.config = some c.chain.saved) →
        Behind c t := by
      intro t hh ht
      refine ⟨Nat.le_of_eq (by rw [hh]), fun h df hr => ?_⟩
      rcases ht with ht | ht | ht
      · rw [ht] at hr; exact absurd hr (readConfig_short (by decide) h df)
      · rw [ht] at hr; exact absurd hr (readConfig_short (by rw [c.chain.height.toBE.property]; decide) h df)
      · rw [ht, show MainChain.readConfig (some c.chain.saved) = _ from MainChain.readConfig_written _ _] at hr
        cases hr
        exact .inr (Nat.le_of_eq (by rw [hh]))
    rw [MainChain.flush_run]
    refine ⟨key _ rfl (.inr (.inr rfl)), fun t ht => ?_⟩
    simp only [List.mem_cons, List.not_mem_nil, or_false] at ht
    rcases ht with rfl | rfl | rfl | rfl | rfl | rfl
    · exact key _ rfl (.inl rfl)
    · exact key _ rfl (.inr (.inl rfl))
    all_goals exact key _ rfl (.inr (.inr rfl))

/-- Opening does not write the config file. -/
theorem open_config (E : Env) : Act.Rel (fun s t : Tree => t.main.chain.config = s.main.chain.config) (Tree.new E) :=
  Tree.new_rel ⟨fun _ => rfl, fun h1 h2 => h2.trans h1⟩ (fun _ => rfl) (fun _ _ _ => rfl)
    (Act.rel_zoom (MainChain.addBlock_rel (R := fun a b => b.config = a.config)
      (Q := fun a b => b.chain.config = a.chain.config)
      (Chain.addBlock_rel (R := fun a b => b.config = a.config) E (fun _ => rfl) _ _ (fun _ _ => rfl) (fun _ _ => rfl)
        (fun _ _ _ => rfl)) fun _ _ h => h) fun _ _ h => h)
    (Act.rel_zoom (Act.rel_true _) fun _ _ _ => rfl)

/-- The height does not fall during a call. -/
theorem height_along {E : Env} {l : List Tree} {s t : Tree} (hc : List.IsChain (MainStep E) (s :: l)) {m : Tree}
    (hm : (s :: l).getLast? = some m) (ht : t ∈ s :: l) : t.main.chain.height.val ≤ m.main.chain.height.val := by
  have hstep : ∀ a b : Tree, MainStep E a b → a.main.chain.height.val ≤ b.main.chain.height.val := by
    intro a b h
    cases h with
    | same h => exact Nat.le_of_eq (by rw [h.2.2])
    | block _ _ _ _ e => exact Nat.le_of_eq (by rw [e])
    | ref _ _ _ _ _ e => exact Nat.le_of_eq (by rw [e])
    | height _ _ _ _ _ _ e => omega
  induction l generalizing s t with
  | nil =>
    simp at hm ht
    subst hm; subst ht
    exact Nat.le_refl _
  | cons u l ih =>
    have h := List.isChain_cons_cons.mp hc
    have hm' : (u :: l).getLast? = some m := by simpa [List.getLast?_cons] using hm
    rcases List.mem_cons.mp ht with rfl | ht
    · exact Nat.le_trans (hstep _ _ h.1) (ih h.2 hm' List.mem_cons_self)
    · exact ih h.2 hm' ht

theorem op_height_along (E : Env) (op : Op) (s t : Tree) (ht : t ∈ (op.run E s).trace) :
    t.main.chain.height.val ≤ (op.run E s).final.main.chain.height.val := by
  obtain ⟨hc, m, hm, hq⟩ := Op.steps E op s
  have := height_along hc hm (List.mem_cons_of_mem _ ht)
  rw [hq.2.2]
  exact this

/-- Every readable config file the node has had since the machine was started has at most the present height. -/
theorem powered_behind {E : Env} {past : List Tree} {s : Tree} (hs : Powered E past (.idle s)) :
    ∀ p ∈ s :: past, ∀ h df, MainChain.readConfig p.main.chain.config = .ok (h, df) → h.val ≤ s.main.chain.height.val := by
  generalize hm : Moment.idle s = m at hs
  induction hs generalizing s with
  | opened _ d _ ho =>
    cases hm
    have hcfg : ∀ p ∈ (openTree E d).final :: d.boot :: (openTree E d).trace, p.main.chain.config = d.config := by
      intro p hp
      rcases List.mem_cons.mp hp with rfl | hp
      · exact (open_config E d.boot).1
      · rcases List.mem_cons.mp hp with rfl | hp
        · rfl
        · exact (open_config E d.boot).2 p hp
    intro p hp h df hr
    rw [hcfg p hp] at hr
    by_cases h0 : h.val = 0
    · omega
    · rw [(openTree_pos (E := E) hr h0).2]
      exact Nat.le_refl _
  | call past s' op _ ih =>
    cases hm
    have ih := ih rfl
    have hmono := op_height_mono E op s'
    intro p hp h df hr
    rcases List.mem_cons.mp hp with rfl | hp
    · rcases (behind_op E op s').1.2 h df hr with hr | hr
      · exact Nat.le_trans (ih s' List.mem_cons_self h df hr) hmono
      · exact hr
    · rcases List.mem_append.mp hp with hp | hp
      · exact Nat.le_trans (ih p (List.mem_cons_of_mem _ hp) h df hr) hmono
      · have hlast := op_height_along E op s' p hp
        rcases ((behind_op E op s').2 p hp).2 h df hr with hr | hr
        · exact Nat.le_trans (ih s' List.mem_cons_self h df hr) hmono
        · exact Nat.le_trans hr hlast
  | _ => cases hm

/-- A power failure between two calls never makes the chain appear longer than it was: if the node opens, its height is at
most the height it had. -/
theorem C132_no_higher (E : Env) (past : List Tree) (s : Tree) (d : Disk) (hs : Powered E past (.idle s))
    (hd : PowerLoss past s d) (ho : (openTree E d).out = .ok ()) :
    (openTree E d).final.main.getHeight.val ≤ s.main.getHeight.val := by
  have hpos := powered_height_pos hs
  obtain ⟨p, hp, hc⟩ := hd.config
  rcases openTree_ok ho with ⟨h, df, hr, h0⟩ | ⟨df, hr⟩
  · rw [(openTree_pos (E := E) hr h0).2]
    exact powered_behind hs p hp h df (by rw [← hc]; exact hr)
  · rw [(openTree_zero (E := E) hr).2]
    exact hpos

/-- A node of height 3 on its first run: the flush returns, and after the power failure block 2 may be gone. -/
example (E : Env) : ∃ past s d, Powered E past (.idle s) ∧ s.main.getHeight.val = 3 ∧
    (∃ p ∈ past, p.main.chain.config = none) ∧
    PowerLoss (past ++ (Op.flush.run E s).trace) (Op.flush.run E s).final d ∧
    s.main.findRawByHeight thirdBlock.info.height = some thirdBlock.dump ∧
    (openTree E d).final.main.findRawByHeight thirdBlock.info.height = none := by
  have h0 : Powered E _ (.idle (openTree E Disk.empty).final) := .opened [] Disk.empty .start (openTree_fresh E).1
  have e0 : (openTree E Disk.empty).final.main.chain.height = U256.one := by rw [(openTree_fresh E).2]; rfl
  obtain ⟨_, f1⟩ := add_ok E (openTree E Disk.empty).final nextBlock (by rw [e0]; rfl) (by rw [e0]; decide)
  have h1 := Powered.call _ _ (.addBlock nextBlock) h0
  generalize hs : ((Op.addBlock nextBlock).run E (openTree E Disk.empty).final).final = s at f1 h1
  have e1 : s.main.chain.height.val = 2 := by rw [f1]; simp only [Chain.put3, e0]; rfl
  obtain ⟨_, f2⟩ := add_ok E s thirdBlock (U256.ext e1.symm) (by rw [e1]; decide)
  have h2 := Powered.call _ _ (.addBlock thirdBlock) h1
  have hn : ∃ p ∈ (Disk.empty.boot :: (openTree E Disk.empty).trace ++
      ((Op.addBlock nextBlock).run E (openTree E Disk.empty).final).trace) ++ ((Op.addBlock thirdBlock).run E s).trace,
      p.main.chain.config = none := ⟨Disk.empty.boot, by simp, rfl⟩
  obtain ⟨d, hd, _, _, hq, _⟩ := (C132_refuted.1 E _ _ h2).2.2 hn
  refine ⟨_, _, d, h2, ?_, hn, hd, ?_, hq _ (by decide)⟩
  · rw [f2]
    show s.main.chain.height.val + 1 = 3
    rw [e1]
  · rw [f2]
    unfold MainChain.findRawByHeight Chain.findRawByHeight
    rw [if_neg]
    · have : s.main.chain.height = thirdBlock.info.height := U256.ext e1
      simp only [Chain.put3]
      rw [Db.get_insert, if_pos (by rw [this])]
    · show ¬ s.main.chain.height.val + 1 < 2
      omega

end BCT.Props
