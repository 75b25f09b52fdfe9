import Verif.Model.Machine
import Verif.Props.Power
/-!
# C156: processes that die, and a power failure (chain.rs:148-201, blockchaintree.rs:33-83)
-/

namespace BCT.Props
open BCT

/-! ### Opening a node a process has left -/

theorem new_main_ok {E : Env} {b : Tree} {m : MainChain} {tr : List MainChain} (h : MainChain.new E b.main = ⟨.ok (), m, tr⟩) :
    (Tree.new E b).out = .ok () ∧ (Tree.new E b).final.main = m ∧
    ∀ t ∈ (Tree.new E b).trace, t.main = b.main ∨ t.main ∈ tr ∨ t.main = m := by
  unfold Tree.new
  rw [Act.step_bind]
  generalize hb' : ({ b with derivMem := fun _ => none } : Tree) = b'
  have hmain : b'.main = b.main := by rw [← hb']
  have hm : Tree.onMain (MainChain.new E) b' = ⟨.ok (), { b' with main := m }, tr.map (fun x => { b' with main := x })⟩ := by
    unfold Tree.onMain
    rw [Act.zoom_run, hmain, h]
  rw [Act.bind_ok hm]
  simp only [Act.get_bind]
  have htr : ∀ t ∈ b' :: tr.map (fun x => ({ b' with main := x } : Tree)), t.main = b.main ∨ t.main ∈ tr ∨ t.main = m := by
    intro t ht
    rcases List.mem_cons.mp ht with rfl | ht
    · exact .inl hmain
    · obtain ⟨x, hx, rfl⟩ := List.mem_map.mp ht
      exact .inr (.inl hx)
  by_cases ho : m.getHeight = U256.one
  · simp only [if_pos ho]
    unfold Tree.onSummary
    rw [Act.zoom_run, Ledger.set_run]
    refine ⟨rfl, rfl, fun t ht => ?_⟩
    rw [List.mem_cons, List.mem_append] at ht
    rcases ht with ht | ht | ht
    · exact htr t (ht ▸ List.mem_cons_self)
    · exact htr t (List.mem_cons_of_mem _ ht)
    · simp at ht
      subst ht
      exact .inr (.inr rfl)
  · simp only [if_neg ho]
    refine ⟨rfl, rfl, fun t ht => ?_⟩
    simp only [List.mem_cons, List.mem_append] at ht
    rcases ht with ht | ht | ht
    · exact htr t (ht ▸ List.mem_cons_self)
    · exact htr t (List.mem_cons_of_mem _ ht)
    · cases ht

theorem new_main_err {E : Env} {b : Tree} {e : Err} {m : MainChain} {tr : List MainChain}
    (h : MainChain.new E b.main = ⟨.err e, m, tr⟩) :
    (Tree.new E b).out = .err e ∧ ∀ t ∈ (Tree.new E b).trace, t.main = b.main ∨ t.main ∈ tr := by
  unfold Tree.new
  rw [Act.step_bind]
  generalize hb' : ({ b with derivMem := fun _ => none } : Tree) = b'
  have hmain : b'.main = b.main := by rw [← hb']
  have hm : Tree.onMain (MainChain.new E) b' = ⟨.err e, { b' with main := m }, tr.map (fun x => { b' with main := x })⟩ := by
    unfold Tree.onMain
    rw [Act.zoom_run, hmain, h]
  rw [Act.bind_err hm]
  refine ⟨rfl, fun t ht => ?_⟩
  rcases List.mem_cons.mp ht with rfl | ht
  · exact .inl hmain
  · obtain ⟨x, hx, rfl⟩ := List.mem_map.mp ht
    exact .inr hx

/-- How a node is opened on what a process has left. -/
theorem new_main (E : Env) (b : Tree) :
    ((∃ e, (Tree.new E b).out = .err e) ∧ (∀ h df, MainChain.readConfig b.main.chain.config ≠ .ok (h, df)) ∧
      ∀ t ∈ (Tree.new E b).trace, t.main = b.main) ∨
    (∃ h df, MainChain.readConfig b.main.chain.config = .ok (h, df) ∧ h.val ≠ 0 ∧ (Tree.new E b).out = .ok () ∧
      (Tree.new E b).final.main = { b.main with chain := b.main.chain.loaded h df } ∧
      ∀ t ∈ (Tree.new E b).trace, t.main = b.main ∨ t.main = { b.main with chain := b.main.chain.loaded h df }) ∨
    (∃ df, MainChain.readConfig b.main.chain.config = .ok (U256.zero, df) ∧ (Tree.new E b).out = .ok () ∧
      (Tree.new E b).final.main.chain.height.val = 1) := by
  rcases MainChain.readConfig_cases b.main.chain.config with ⟨h, df, hc⟩ | hc
  · by_cases h0 : h.val = 0
    · have : h = U256.zero := U256.ext h0
      subst this
      obtain ⟨h1, h2, -⟩ := new_main_ok (MainChain.new_zero E b.main df hc)
      exact .inr (.inr ⟨df, hc, h1, by rw [h2]; rfl⟩)
    · obtain ⟨h1, h2, h3⟩ := new_main_ok (MainChain.new_pos E b.main h df hc h0)
      refine .inr (.inl ⟨h, df, hc, h0, h1, h2, fun t ht => ?_⟩)
      rcases h3 t ht with e | e | e
      · exact .inl e
      · exact .inr (List.mem_singleton.mp e)
      · exact .inr e
  · obtain ⟨h1, h2⟩ := new_main_err (MainChain.new_err E b.main .chainInit hc)
    refine .inl ⟨⟨_, h1⟩, fun h df => (by rw [hc]; simp), fun t ht => ?_⟩
    rcases h2 t ht with e | e
    · exact e
    · simp at e

/-! ### What was flushed -/

/-- The blocks below `H` and the keys of the transactions are in the databases, whatever these are taken back to, and a
config file that can be read has at least this height. -/
structure Survives (m0 x0 : KV) (H : Nat) (c : MainChain) : Prop where
  blocks : ∀ m, m = c.chain.blocks.cur ∨ m ∈ c.chain.blocks.recov → ∀ q : U256, q.val < H →
    m.get q.toBE.val = m0.get q.toBE.val
  txs : ∀ m, m = c.transactions.cur ∨ m ∈ c.transactions.recov → ∀ k, (x0.get k).isSome → (m.get k).isSome
  config : ∀ h df, MainChain.readConfig c.chain.config = .ok (h, df) → H ≤ h.val

/-- `Survives` of a running node. -/
structure Rides (m0 x0 : KV) (H : Nat) (c : MainChain) : Prop extends Survives m0 x0 H c where
  height : H ≤ c.chain.height.val

variable {m0 x0 : KV} {H : Nat}

theorem Rides.put {c : MainChain} (h : Rides m0 x0 H c) (v : Bytes) :
    ∀ m, m = (c.chain.blocks.insert c.chain.height.toBE.val v).cur ∨
        m ∈ (c.chain.blocks.insert c.chain.height.toBE.val v).recov →
      ∀ q : U256, q.val < H → m.get q.toBE.val = m0.get q.toBE.val :=
  Safe.put (x0 := x0) ⟨h.height, h.blocks, h.txs⟩ v

theorem rides_op (E : Env) (op : Op) :
    Act.Rel (fun s t : Tree => Rides m0 x0 H s.main → Rides m0 x0 H t.main) (op.run E) := by
  refine Op.sat (main_prims_rel (A := fun _ => True) (R := fun s t => Rides m0 x0 H s → Rides m0 x0 H t) (Act.inv_preord _)
    (fun b _ => ?_) (fun t => Act.rel_step fun c h => ⟨⟨h.blocks, fun m hm k hk => ?_, h.config⟩, h.height⟩) ?_)
    (Act.rel_closed (Act.inv_preord _)) op op.adds_true
  · exact MainChain.addBlock_rel (E := E) (b := b)
      (R := fun a b : Chain => ∀ T, Rides m0 x0 H ⟨a, T⟩ → Rides m0 x0 H ⟨b, T⟩)
      (Q := fun s t => Rides m0 x0 H s → Rides m0 x0 H t)
      (Chain.addBlock_rel E (fun _ _ h => h) _ _
        (fun _ _ _ h => ⟨⟨h.put _, h.txs, h.config⟩, h.height⟩)
        (fun _ _ _ h => ⟨⟨h.put _, h.txs, h.config⟩, h.height⟩)
        (fun _ _ _ _ h => ⟨⟨h.put _, h.txs, h.config⟩, Nat.le_succ_of_le h.height⟩)) fun m _ h => h m.transactions
  · have key : ((c.transactions.cur.insert (E.sha256 t.dump).val t.dump).get k).isSome := by
      rw [KV.get_insert]
      split
      · rfl
      · exact h.txs _ (.inl rfl) k hk
    rcases hm with rfl | hm
    · exact key
    · rcases List.mem_cons.mp hm with rfl | hm
      · exact key
      · exact h.txs m (.inr hm) k hk
  · intro c
    have hcfg : ∀ {f : Bytes}, Rides m0 x0 H c → (f = [] ∨ f = c.chain.height.toBE.val ∨ f = c.chain.saved) →
        ∀ h df, MainChain.readConfig (some f) = .ok (h, df) → H ≤ h.val := by
      intro f hc hf h df hr
      rcases hf with rfl | rfl | rfl
      · exact absurd hr (readConfig_short (by decide) h df)
      · exact absurd hr (readConfig_short (by rw [c.chain.height.toBE.property]; decide) h df)
      · rw [show MainChain.readConfig (some c.chain.saved) = _ from MainChain.readConfig_written _ _] at hr
        cases hr
        exact hc.height
    have hfl : ∀ {d : Db} {P : KV → Prop}, (∀ m, m = d.cur ∨ m ∈ d.recov → P m) →
        ∀ m, m = d.flush.cur ∨ m ∈ d.flush.recov → P m := by
      intro d P h m hm
      rcases hm with hm | hm
      · exact h m (.inl hm)
      · exact h m (.inl (Db.flush_recov hm))
    rw [MainChain.flush_run]
    refine ⟨fun h => ⟨⟨hfl h.blocks, hfl h.txs, hcfg h (.inr (.inr rfl))⟩, h.height⟩, fun t ht h => ?_⟩
    simp only [List.mem_cons, List.not_mem_nil, or_false] at ht
    rcases ht with rfl | rfl | rfl | rfl | rfl | rfl
    · exact ⟨⟨h.blocks, h.txs, hcfg h (.inl rfl)⟩, h.height⟩
    · exact ⟨⟨h.blocks, h.txs, hcfg h (.inr (.inl rfl))⟩, h.height⟩
    · exact ⟨⟨h.blocks, h.txs, hcfg h (.inr (.inr rfl))⟩, h.height⟩
    · exact ⟨⟨hfl h.blocks, h.txs, hcfg h (.inr (.inr rfl))⟩, h.height⟩
    · exact ⟨⟨hfl h.blocks, h.txs, hcfg h (.inr (.inr rfl))⟩, h.height⟩
    · exact ⟨⟨hfl h.blocks, hfl h.txs, hcfg h (.inr (.inr rfl))⟩, h.height⟩

/-- What `C156_kept` asks of the disk is less than what a power failure leaves. -/
theorem PowerLoss.but_config {past : List Tree} {t : Tree} {d : Disk} (h : PowerLoss past t d) :
    PowerLoss past t { d with config := t.main.chain.config } :=
  ⟨h.blocks, h.heightReference, h.transactions, ⟨t, List.mem_cons_self, rfl⟩, h.summary, h.oldSummary, h.gas, h.oldGas, h.deriv⟩

theorem leftBy_mem {d e : Db} (h : d.LeftBy e) {m : KV} (hm : m = e.cur ∨ m ∈ e.recov) : m ∈ d.recov := by
  obtain ⟨n, o, h1, h2⟩ := h
  rw [h1]
  rcases hm with rfl | hm
  · simp
  · rw [h2] at hm
    exact List.mem_append_right _ hm

theorem Survives.killed {t b : Tree} (h : Survives m0 x0 H t.main) (hk : KilledAt t b) : Survives m0 x0 H b.main :=
  ⟨fun m hm => h.blocks m (.inr (leftBy_mem hk.blocks hm)), fun m hm => h.txs m (.inr (leftBy_mem hk.transactions hm)),
    by rw [hk.config]; exact h.config⟩

/-- What holds at each stage. -/
def StageSurvives (m0 x0 : KV) (H : Nat) : Stage → Prop
  | .idle t => Rides m0 x0 H t.main
  | .busy t => Survives m0 x0 H t.main
  | .down b => Survives m0 x0 H b.main

theorem StageSurvives.state {m : Stage} (h : StageSurvives m0 x0 H m) : Survives m0 x0 H m.state.main := by
  cases m with
  | idle t => exact Rides.toSurvives h
  | busy t => exact h
  | down t => exact h

theorem survives_on {E : Env} {past0 past : List Tree} {n m : Stage} (hH : 1 ≤ H) (h : PowerOn E past0 n past m)
    (h0 : StageSurvives m0 x0 H n) : StageSurvives m0 x0 H m := by
  have hload : ∀ {b : Tree} {q : U256} {df : Hash}, Survives m0 x0 H b.main →
      Survives m0 x0 H { b.main with chain := b.main.chain.loaded q df } := fun h => ⟨h.blocks, h.txs, h.config⟩
  induction h with
  | refl => exact h0
  | opening past l r b t _ ht ih =>
    have hb : Survives m0 x0 H b.main := ih
    have hmem : t ∈ (Tree.new E b).trace := by rw [ht]; simp
    show Survives m0 x0 H t.main
    rcases new_main E b with ⟨-, -, h⟩ | ⟨q, df, -, -, -, -, h⟩ | ⟨df, hc, -, -⟩
    · rw [h t hmem]; exact hb
    · rcases h t hmem with e | e
      · rw [e]; exact hb
      · rw [e]; exact hload hb
    · have : H ≤ 0 := hb.config _ _ hc
      omega
  | opened past b _ ho ih =>
    have hb : Survives m0 x0 H b.main := ih
    show Rides m0 x0 H (Tree.new E b).final.main
    rcases new_main E b with ⟨⟨e, he⟩, -⟩ | ⟨q, df, hc, -, -, h, -⟩ | ⟨df, hc, -, -⟩
    · rw [ho] at he; cases he
    · rw [h]
      exact ⟨hload hb, hb.config _ _ hc⟩
    · have : H ≤ 0 := hb.config _ _ hc
      omega
  | running past l r s t op _ ht ih => exact ((rides_op E op s).2 t (by rw [ht]; simp) ih).toSurvives
  | call past s op _ ih => exact (rides_op E op s).1 ih
  | killIdle past s b _ hk ih => exact (Rides.toSurvives ih).killed hk
  | killBusy past s b _ hk ih => exact Survives.killed ih hk

theorem height_on {E : Env} {past0 past : List Tree} {b s : Tree} (h : PowerOn E past0 (.down b) past (.idle s)) :
    1 ≤ s.main.chain.height.val := by
  generalize hm : Stage.idle s = m at h
  induction h generalizing s with
  | opened _ b _ ho =>
    cases hm
    rcases new_main E b with ⟨⟨e, he⟩, -⟩ | ⟨q, df, -, h0, -, h, -⟩ | ⟨df, -, -, h⟩
    · rw [ho] at he; cases he
    · rw [h]
      exact Nat.one_le_iff_ne_zero.mpr h0
    · omega
  | call _ s' op _ ih => cases hm; exact Nat.le_trans (ih rfl) (op_height_mono E op s')
  | _ => cases hm

theorem machine_height {E : Env} {past : List Tree} {s : Tree} (h : Machine E past (.idle s)) : 1 ≤ s.main.chain.height.val := by
  cases h with
  | first _ _ h => exact height_on h
  | again _ _ _ _ _ _ _ h => exact height_on h

/-! ## C156 -/

/-- C156. A machine may have had any number of power failures and dead processes. Once `flush` has returned, the node is
called and killed and opened again in any way; then the power fails. The config file may be found with any contents at all
(a write cut short, zeros). The databases have every flushed block, unchanged, and every flushed transaction. If the config
file can be read and has a height, the node opens at this height and returns the flushed blocks up to it. If the file is as last written and can be read, nothing of what was flushed is missing. And as long
as the power is on, nothing is missing whenever the node is open. -/
theorem C156_kept (E : Env) (past past' : List Tree) (s : Tree) (m : Stage) (d : Disk) (hs : Machine E past (.idle s))
    (hm : PowerOn E (past ++ s :: (Op.flush.run E s).trace) (.idle (Op.flush.run E s).final) past' m)
    (hd : PowerLoss past' m.state { d with config := m.state.main.chain.config }) :
    (∀ q : U256, q.val < s.main.getHeight.val → d.blocks.get q.toBE.val = s.main.findRawByHeight q) ∧
    (∀ h : Hash, s.main.transactionExists h = true → (d.transactions.get h.val).isSome) ∧
    (∀ h df, MainChain.readConfig d.config = .ok (h, df) → 1 ≤ h.val →
      (openTree E d).out = .ok () ∧ (openTree E d).final.main.getHeight = h ∧
      ∀ q : U256, q.val < s.main.getHeight.val → q.val ≤ h.val →
        (openTree E d).final.main.findRawByHeight q = s.main.findRawByHeight q) ∧
    (d.config = m.state.main.chain.config → (openTree E d).out = .ok () →
      s.main.getHeight.val ≤ (openTree E d).final.main.getHeight.val ∧
      ∀ q : U256, q.val < s.main.getHeight.val →
        (openTree E d).final.main.findRawByHeight q = s.main.findRawByHeight q) ∧
    (∀ u, m = .idle u → s.main.getHeight.val ≤ u.main.getHeight.val ∧
      ∀ q : U256, q.val < s.main.getHeight.val → u.main.findRawByHeight q = s.main.findRawByHeight q) := by
  have hpos : 1 ≤ s.main.chain.height.val := machine_height hs
  have hstart : StageSurvives s.main.chain.blocks.cur s.main.transactions.cur s.main.chain.height.val
      (.idle (Op.flush.run E s).final) := by
    show Rides _ _ _ _
    rw [(flush_op E s).2]
    refine ⟨⟨fun m hm q _ => ?_, fun m hm k hk => ?_, fun h df hr => ?_⟩, Nat.le_refl _⟩
    · rcases hm with rfl | hm
      · rfl
      · rw [Db.flush_recov hm]
    · rcases hm with rfl | hm
      · exact hk
      · rw [Db.flush_recov hm]; exact hk
    · have hw : MainChain.readConfig (some s.main.chain.saved) = _ := MainChain.readConfig_written _ _
      have hr' : MainChain.readConfig (some s.main.chain.saved) = .ok (h, df) := hr
      rw [hw] at hr'
      cases hr'
      exact Nat.le_refl _
  have hend := survives_on hpos hm hstart
  have hsur := hend.state
  have hraw : ∀ q : U256, q.val < s.main.getHeight.val →
      s.main.findRawByHeight q = s.main.chain.blocks.cur.get q.toBE.val := by
    intro q hq
    unfold MainChain.findRawByHeight Chain.findRawByHeight
    have : ¬ s.main.chain.height.val < q.val := by
      show ¬ s.main.getHeight.val < q.val
      omega
    rw [if_neg this]
    rfl
  have hq : ∀ q : U256, q.val < s.main.getHeight.val → d.blocks.get q.toBE.val = s.main.findRawByHeight q := fun q hq => by
    rw [hsur.blocks _ (.inr hd.blocks) q hq, hraw q hq]
  have hc : ∀ h df, MainChain.readConfig d.config = .ok (h, df) → 1 ≤ h.val →
      (openTree E d).out = .ok () ∧ (openTree E d).final.main.getHeight = h ∧
      ∀ q : U256, q.val < s.main.getHeight.val → q.val ≤ h.val →
        (openTree E d).final.main.findRawByHeight q = s.main.findRawByHeight q := by
    intro h df hr hp
    obtain ⟨ho, hf⟩ := openTree_pos (E := E) hr (by omega)
    refine ⟨ho, by rw [hf]; rfl, fun q h1 h2 => ?_⟩
    rw [hf]
    refine Eq.trans ?_ (hq q h1)
    show Chain.findRawByHeight _ q = _
    unfold Chain.findRawByHeight
    rw [if_neg]
    · rfl
    · show ¬ h.val < q.val
      omega
  refine ⟨hq, fun h hh => hsur.txs _ (.inr hd.transactions) h.val hh, hc, fun he ho => ?_, fun u hu => ?_⟩
  · obtain ⟨h, df, hr⟩ : ∃ h df, MainChain.readConfig d.config = .ok (h, df) := by
      rcases openTree_ok ho with ⟨h, df, hr, _⟩ | ⟨df, hr⟩
      · exact ⟨h, df, hr⟩
      · exact ⟨_, df, hr⟩
    have hle : s.main.getHeight.val ≤ h.val := hsur.config h df (by rw [← he]; exact hr)
    have hp : 1 ≤ s.main.getHeight.val := hpos
    obtain ⟨_, h2, h3⟩ := hc h df hr (by omega)
    exact ⟨by rw [h2]; exact hle, fun q hq => h3 q hq (by omega)⟩
  · subst hu
    have hr : Rides _ _ _ u.main := hend
    refine ⟨hr.height, fun q hq => ?_⟩
    rw [hraw q hq]
    refine Eq.trans ?_ (hr.blocks _ (.inl rfl) q hq)
    unfold MainChain.findRawByHeight Chain.findRawByHeight
    have : ¬ u.main.chain.height.val < q.val := by
      have h1 := hr.height
      have h2 : q.val < s.main.chain.height.val := hq
      omega
    rw [if_neg this]
    rfl

/-! ### The height is never too high -/

/-- What one effect of a call does to the height and the config file. -/
def CfgStep (a b : Tree) : Prop :=
  a.main.chain.height.val ≤ b.main.chain.height.val ∧
  (b.main.chain.config = a.main.chain.config ∨ (∀ h df, MainChain.readConfig b.main.chain.config ≠ .ok (h, df)) ∨
    ∀ h df, MainChain.readConfig b.main.chain.config = .ok (h, df) → h = b.main.chain.height)

/-- Same height and config file. -/
def CfgSame (a b : Tree) : Prop :=
  b.main.chain.height = a.main.chain.height ∧ b.main.chain.config = a.main.chain.config

theorem cfgSame_preord : Act.PreOrd CfgSame where
  refl _ := ⟨rfl, rfl⟩
  trans h1 h2 := ⟨h2.1.trans h1.1, h2.2.trans h1.2⟩

theorem cfg_steps (E : Env) (op : Op) : Act.Steps CfgSame CfgStep (op.run E) := by
  have hsymm : ∀ {a b : Tree}, CfgSame a b → CfgSame b a := fun h => ⟨h.1.symm, h.2.symm⟩
  have hstep : ∀ {a b : Tree}, CfgSame a b → CfgStep a b := fun h => ⟨Nat.le_of_eq (by rw [h.1]), .inl h.2⟩
  have key : ∀ {α : Type} {x : Act Tree α}, Act.Rel CfgSame x → Act.Steps CfgSame CfgStep x :=
    fun h => Act.steps_of_rel hsymm cfgSame_preord hstep h
  have hcl : ∀ {a b c : Tree}, CfgSame a b → CfgStep b c → CfgStep a c := fun h1 h2 =>
    ⟨by rw [← h1.1]; exact h2.1, h2.2.imp (fun e => e.trans h1.2) id⟩
  have C := Act.steps_closed (Q := CfgSame) (R := CfgStep) cfgSame_preord hcl
  have other : ∀ {f : Tree → Tree}, (∀ t, (f t).main = t.main) → Act.Steps CfgSame CfgStep (Act.step f) := fun h =>
    Act.steps_step cfgSame_preord fun t => hstep ⟨by rw [h], by rw [h]⟩
  have hflush : Act.Steps CfgSame CfgStep (Tree.onMain MainChain.flush) := by
    refine Act.steps_zoom (Q := Eq) (R := fun a b : MainChain => a.chain.height.val ≤ b.chain.height.val ∧
      (b.chain.config = a.chain.config ∨ (∀ h df, MainChain.readConfig b.chain.config ≠ .ok (h, df)) ∨
        ∀ h df, MainChain.readConfig b.chain.config = .ok (h, df) → h = b.chain.height)) onMain_lens ?_
      (fun _ _ _ h => h ▸ cfgSame_preord.refl _) (fun _ _ _ h => h)
    intro c
    rw [MainChain.flush_run]
    have hw : ∀ h df, MainChain.readConfig (some c.chain.saved) = .ok (h, df) → h = c.chain.height := by
      intro h df hr
      rw [show MainChain.readConfig (some c.chain.saved) = _ from MainChain.readConfig_written _ _] at hr
      cases hr
      rfl
    refine ⟨?_, _, rfl, rfl⟩
    refine .cons_cons ⟨Nat.le_refl _, .inr (.inl (readConfig_short (by decide)))⟩ ?_
    refine .cons_cons ⟨Nat.le_refl _, .inr (.inl (readConfig_short (by rw [c.chain.height.toBE.property]; decide)))⟩ ?_
    refine .cons_cons ⟨Nat.le_refl _, .inr (.inr hw)⟩ ?_
    refine .cons_cons ⟨Nat.le_refl _, .inl rfl⟩ ?_
    refine .cons_cons ⟨Nat.le_refl _, .inl rfl⟩ ?_
    exact .cons_cons ⟨Nat.le_refl _, .inl rfl⟩ (.singleton _)
  have F : Act.Steps CfgSame CfgStep Tree.flush := by
    unfold Tree.flush
    exact C.bind hflush fun _ => C.bind (other fun _ => rfl) fun _ => C.bind (other fun _ => rfl) fun _ =>
      C.bind (other fun _ => rfl) fun _ => other fun _ => rfl
  refine Op.sat (A := fun _ => True) ⟨fun b _ => ?_, fun t => ?_, hflush, fun _ _ => ?_, fun _ _ => ?_, fun _ _ => ?_,
    fun _ _ _ _ => ?_, fun _ _ => ?_, fun _ _ => ?_, fun _ _ _ => ?_, F, ?_, fun o => ?_, fun _ _ => ?_, fun _ => ?_⟩
    C op op.adds_true
  · refine Act.steps_zoom (Q := Eq) (R := fun a b : MainChain => a.chain.height.val ≤ b.chain.height.val ∧
      b.chain.config = a.chain.config) onMain_lens ?_ (fun _ _ _ h => h ▸ cfgSame_preord.refl _)
      (fun _ _ _ h => ⟨h.1, .inl h.2⟩)
    refine Act.steps_zoom (Q := Eq) (R := fun a b : Chain => a.height.val ≤ b.height.val ∧ b.config = a.config)
      onChain_lens ?_ (fun _ _ _ h => h ▸ rfl) (fun _ _ _ h => h)
    intro c
    by_cases hb : b.info.height = c.height
    · rw [hb]
      by_cases hm : c.height.val + 1 < U256.size
      · rw [Chain.addBlock_right hm]
        exact ⟨.cons_cons ⟨Nat.le_refl _, rfl⟩ (.cons_cons ⟨Nat.le_refl _, rfl⟩ (.cons_cons ⟨Nat.le_succ _, rfl⟩
          (.singleton _))), _, rfl, rfl⟩
      · rw [Chain.addBlock_max hm]
        exact ⟨.cons_cons ⟨Nat.le_refl _, rfl⟩ (.cons_cons ⟨Nat.le_refl _, rfl⟩ (.singleton _)), _, rfl, rfl⟩
    · rw [Chain.addBlock_wrong hb]
      exact ⟨.singleton _, _, rfl, rfl⟩
  · exact key (Act.rel_zoom (Act.rel_step (R := fun a b : MainChain => b.chain = a.chain) fun _ => rfl)
      fun _ _ h => ⟨by rw [h], by rw [h]⟩)
  case refine_10 =>
    unfold Tree.rotateDbs
    exact C.bind F fun _ => C.bind (other fun _ => rfl) fun _ => C.bind (other fun _ => rfl) fun _ =>
      C.bind (other fun _ => rfl) fun _ => other fun _ => rfl
  case refine_11 =>
    exact key (Tree.getDeriv_rel (fun _ => cfgSame_preord.refl _) E o fun _ _ _ _ _ _ => ⟨rfl, rfl⟩)
  all_goals exact key (Act.rel_zoom (Act.rel_true _) fun _ _ _ => ⟨rfl, rfl⟩)

/-- Every readable config file of the past has at most the height of the present one. -/
def CfgAbove (past : List Tree) (t : Tree) : Prop :=
  ∀ c df, MainChain.readConfig t.main.chain.config = .ok (c, df) →
    ∀ p ∈ past, ∀ h df', MainChain.readConfig p.main.chain.config = .ok (h, df') → h.val ≤ c.val

/-- Every readable config file so far has at most the height of the chain. -/
def CfgBelow (past : List Tree) (t : Tree) : Prop :=
  ∀ p ∈ t :: past, ∀ h df, MainChain.readConfig p.main.chain.config = .ok (h, df) → h.val ≤ t.main.chain.height.val

theorem cfg_step {past : List Tree} {a b : Tree} (h1 : CfgAbove past a) (h2 : CfgBelow past a) (hs : CfgStep a b) :
    CfgAbove (past ++ [a]) b ∧ CfgBelow (past ++ [a]) b := by
  obtain ⟨hh, hc⟩ := hs
  have hpast : ∀ p ∈ past ++ [a], ∀ h df, MainChain.readConfig p.main.chain.config = .ok (h, df) →
      h.val ≤ a.main.chain.height.val := by
    intro p hp h df hr
    rcases List.mem_append.mp hp with hp | hp
    · exact h2 p (List.mem_cons_of_mem _ hp) h df hr
    · rw [List.mem_singleton.mp hp] at hr
      exact h2 a List.mem_cons_self h df hr
  refine ⟨fun c df hr p hp h df' hr' => ?_, fun p hp h df hr => ?_⟩
  · rcases hc with hc | hc | hc
    · rw [hc] at hr
      rcases List.mem_append.mp hp with hp | hp
      · exact h1 c df hr p hp h df' hr'
      · rw [List.mem_singleton.mp hp, hr] at hr'
        cases hr'
        exact Nat.le_refl _
    · exact absurd hr (hc c df)
    · rw [hc c df hr]
      exact Nat.le_trans (hpast p hp h df' hr') hh
  · rcases List.mem_cons.mp hp with rfl | hp
    · rcases hc with hc | hc | hc
      · rw [hc] at hr
        exact Nat.le_trans (h2 a List.mem_cons_self h df hr) hh
      · exact absurd hr (hc h df)
      · rw [hc h df hr]
    · exact Nat.le_trans (hpast p hp h df hr) hh

theorem cfg_along {l : List Tree} : ∀ {past : List Tree} {s t : Tree} {r : List Tree}, CfgAbove past s → CfgBelow past s →
    List.IsChain CfgStep (s :: (l ++ t :: r)) → CfgAbove (past ++ s :: l) t ∧ CfgBelow (past ++ s :: l) t := by
  induction l with
  | nil =>
    intro past s t r h1 h2 hc
    exact cfg_step h1 h2 (List.isChain_cons_cons.mp hc).1
  | cons u l ih =>
    intro past s t r h1 h2 hc
    obtain ⟨hs, hc⟩ := List.isChain_cons_cons.mp hc
    obtain ⟨g1, g2⟩ := cfg_step h1 h2 hs
    have := ih g1 g2 hc
    simpa using this

theorem cfg_call {past : List Tree} {s : Tree} {E : Env} {op : Op} (h1 : CfgAbove past s) (h2 : CfgBelow past s) :
    CfgAbove (past ++ s :: (op.run E s).trace) (op.run E s).final ∧
    CfgBelow (past ++ s :: (op.run E s).trace) (op.run E s).final := by
  obtain ⟨hc, m, hl, hq⟩ := cfg_steps E op s
  generalize (op.run E s).trace = tr at *
  generalize (op.run E s).final = f at *
  have hlast : ∀ {pre : List Tree} {z : Tree}, CfgAbove pre z → CfgBelow pre z → CfgSame z f →
      CfgAbove (pre ++ [z]) f ∧ CfgBelow (pre ++ [z]) f := fun h1 h2 h => cfg_step h1 h2
        ⟨Nat.le_of_eq (by rw [h.1]), .inl h.2⟩
  rcases List.eq_nil_or_concat tr with rfl | ⟨l, z, rfl⟩
  · simp at hl
    subst hl
    exact hlast h1 h2 hq
  · rw [List.concat_eq_append] at *
    have hz : m = z := by
      rw [show s :: (l ++ [z]) = (s :: l) ++ [z] from rfl, List.getLast?_concat] at hl
      exact (Option.some.inj hl).symm
    subst hz
    obtain ⟨g1, g2⟩ := cfg_along h1 h2 hc
    have := hlast g1 g2 hq
    simpa using this

/-- What holds at each stage. -/
def StageCfg (past : List Tree) : Stage → Prop
  | .idle t => CfgAbove past t ∧ CfgBelow past t
  | .busy t => CfgAbove past t
  | .down b => CfgAbove past b

theorem cfgAbove_killed {past : List Tree} {s b : Tree} (h : CfgAbove past s) (hk : KilledAt s b) :
    CfgAbove (past ++ [s]) b := by
  intro c df hr p hp q df' hr'
  rw [hk.config] at hr
  rcases List.mem_append.mp hp with hp | hp
  · exact h c df hr p hp q df' hr'
  · rw [List.mem_singleton.mp hp, hr] at hr'
    cases hr'
    exact Nat.le_refl _

theorem cfgAbove_opening {past l : List Tree} {b t : Tree} (h : CfgAbove past b)
    (hl : ∀ p ∈ b :: l, p.main.chain.config = b.main.chain.config) (ht : t.main.chain.config = b.main.chain.config) :
    CfgAbove (past ++ b :: l) t := by
  intro c df hr p hp q df' hr'
  rw [ht] at hr
  rcases List.mem_append.mp hp with hp | hp
  · exact h c df hr p hp q df' hr'
  · rw [hl p hp, hr] at hr'
    cases hr'
    exact Nat.le_refl _

theorem cfg_on {E : Env} {past0 past : List Tree} {n m : Stage} (h : PowerOn E past0 n past m) (h0 : StageCfg past0 n) :
    StageCfg past m := by
  induction h with
  | refl => exact h0
  | opening past l r b t _ ht ih =>
    have hcfg := (open_config E b).2
    rw [ht] at hcfg
    refine cfgAbove_opening (show CfgAbove past b from ih) (fun p hp => ?_) (hcfg t (by simp))
    rcases List.mem_cons.mp hp with rfl | hp
    · rfl
    · exact hcfg p (List.mem_append_left _ hp)
  | opened past b _ ho ih =>
    have hcfg : ∀ p ∈ b :: (Tree.new E b).trace, p.main.chain.config = b.main.chain.config := by
      intro p hp
      rcases List.mem_cons.mp hp with rfl | hp
      · rfl
      · exact (open_config E b).2 p hp
    have hb : CfgAbove past b := ih
    have hab := cfgAbove_opening hb hcfg (open_config E b).1
    refine ⟨hab, ?_⟩
    obtain ⟨c, df, hr, hle⟩ : ∃ c df, MainChain.readConfig b.main.chain.config = .ok (c, df) ∧
        c.val ≤ (Tree.new E b).final.main.chain.height.val := by
      rcases new_main E b with ⟨⟨e, he⟩, -⟩ | ⟨q, df, hc, -, -, h, -⟩ | ⟨df, hc, -, -⟩
      · rw [ho] at he; cases he
      · exact ⟨q, df, hc, by rw [h]; exact Nat.le_refl _⟩
      · exact ⟨_, df, hc, Nat.zero_le _⟩
    intro p hp h df' hr'
    refine Nat.le_trans ?_ hle
    rcases List.mem_cons.mp hp with rfl | hp
    · rw [(open_config E b).1, hr] at hr'
      cases hr'
      exact Nat.le_refl _
    · exact hab c df (by rw [(open_config E b).1]; exact hr) p hp h df' hr'
  | running past l r s t op _ ht ih =>
    obtain ⟨hc, -⟩ := cfg_steps E op s
    rw [ht] at hc
    exact (cfg_along ih.1 ih.2 hc).1
  | call past s op _ ih => exact cfg_call ih.1 ih.2
  | killIdle past s b _ hk ih => exact cfgAbove_killed ih.1 hk
  | killBusy past s b _ hk ih => exact cfgAbove_killed ih hk

theorem cfg_machine {E : Env} {past : List Tree} {m : Stage} (h : Machine E past m) : StageCfg past m := by
  have h0 : ∀ b, StageCfg [] (.down b) := fun b c df _ p hp => by cases hp
  cases h with
  | first _ _ h => exact cfg_on h (h0 _)
  | again _ _ _ _ _ _ _ h => exact cfg_on h (h0 _)

/-- Of a config file cut short, what can be read can be read of the whole file. -/
theorem readConfig_cut {c : Option Bytes} {k : Nat} {r : U256 × Hash}
    (h : MainChain.readConfig (c.map (List.take k)) = .ok r) : MainChain.readConfig c = .ok r := by
  cases c with
  | none => exact h
  | some f =>
    have hl : 64 ≤ (f.take k).length := (readConfig_ok_iff _).mp ⟨r, h⟩ _ rfl
    rw [List.length_take] at hl
    have h1 : (f.take k).take 32 = f.take 32 := by rw [List.take_take]; congr 1; omega
    have h2 : ((f.take k).drop 32).take 32 = (f.drop 32).take 32 := by
      rw [List.drop_take, List.take_take]; congr 1; omega
    simp only [Option.map_some, MainChain.readConfig] at h ⊢
    rw [if_pos (by rw [List.length_take]; omega), dif_pos (by rw [List.length_take]; omega)] at h
    rw [if_pos (by omega), dif_pos (by omega)]
    simp only [h1, h2] at h
    exact h

/-- C156. A power failure while no call is running never makes the chain appear longer than it was, whatever processes have
died before on the running machine, even if it cuts the config file short. -/
theorem C156_no_higher (E : Env) (past : List Tree) (s : Tree) (d : Disk) (file : Option Bytes) (k : Nat)
    (hs : Machine E past (.idle s)) (hd : PowerLoss past s { d with config := file })
    (hk : d.config = file.map (List.take k)) (ho : (openTree E d).out = .ok ()) :
    (openTree E d).final.main.getHeight.val ≤ s.main.getHeight.val := by
  have hpos := machine_height hs
  obtain ⟨p, hp, hc⟩ := hd.config
  have hc : file = p.main.chain.config := hc
  rcases openTree_ok ho with ⟨h, df, hr, h0⟩ | ⟨df, hr⟩
  · rw [(openTree_pos (E := E) hr h0).2]
    rw [hk] at hr
    exact (cfg_machine hs).2 p hp h df (by rw [← hc]; exact readConfig_cut hr)
  · rw [(openTree_zero (E := E) hr).2]
    exact hpos

/-! ### Such machines -/

/-- The stage of a moment. -/
def Moment.stage : Moment → Stage
  | .idle t => .idle t
  | .busy t => .busy t
  | .down d => .down d.boot

/-- The machines of C132, on which no process dies, are among these. -/
theorem powered_machine {E : Env} {past : List Tree} {m : Moment} (h : Powered E past m) :
    ∃ past', (∀ p ∈ past, p ∈ past') ∧ Machine E past' (Moment.stage m) := by
  have hmono : ∀ {l l' : List Tree} {t : Tree} {d : Disk}, (∀ p ∈ l, p ∈ l') → PowerLoss l t d → PowerLoss l' t d := by
    intro l l' t d hl h
    have hl' : ∀ p ∈ t :: l, p ∈ t :: l' := fun p hp => by
      rcases List.mem_cons.mp hp with rfl | hp
      · exact List.mem_cons_self
      · exact List.mem_cons_of_mem _ (hl p hp)
    obtain ⟨p, hp, hc⟩ := h.config
    refine ⟨h.blocks, h.heightReference, h.transactions, ⟨p, hl' p hp, hc⟩, h.summary, h.oldSummary, h.gas, h.oldGas,
      fun n => ?_⟩
    obtain ⟨h1, h2, q, hq, h3⟩ := h.deriv n
    exact ⟨h1, h2, q, hl' q hq, h3⟩
  have hext : ∀ {past past' : List Tree} {m m' : Stage}, Machine E past m →
      (∀ past0 m0, PowerOn E past0 m0 past m → PowerOn E past0 m0 past' m') → Machine E past' m' := by
    intro past past' m m' h he
    cases h with
    | first _ _ h => exact .first _ _ (he _ _ h)
    | again _ _ _ _ _ h1 h2 h => exact .again _ _ _ _ _ h1 h2 (he _ _ h)
  have happ : ∀ {l l' r : List Tree} {s : Tree}, (∀ p ∈ l, p ∈ l') → ∀ p ∈ l ++ r, p ∈ l' ++ s :: r := by
    intro l l' r s hl p hp
    rcases List.mem_append.mp hp with hp | hp
    · exact List.mem_append_left _ (hl p hp)
    · exact List.mem_append_right _ (List.mem_cons_of_mem _ hp)
  induction h with
  | start => exact ⟨[], fun _ h => h, .first _ _ .refl⟩
  | opening past l r d t _ ht ih =>
    obtain ⟨past', -, hm⟩ := ih
    exact ⟨past' ++ d.boot :: l, fun p hp => List.mem_append_right _ hp, hext hm fun _ _ h => .opening _ _ r _ _ h ht⟩
  | opened past d _ ho ih =>
    obtain ⟨past', -, hm⟩ := ih
    exact ⟨past' ++ d.boot :: (openTree E d).trace, fun p hp => List.mem_append_right _ hp,
      hext hm fun _ _ h => .opened _ _ h ho⟩
  | running past l r s t op _ ht ih =>
    obtain ⟨past', hp, hm⟩ := ih
    exact ⟨past' ++ s :: l, happ hp, hext hm fun _ _ h => .running _ _ r _ _ op h ht⟩
  | call past s op _ ih =>
    obtain ⟨past', hp, hm⟩ := ih
    exact ⟨past' ++ s :: (op.run E s).trace, happ hp, hext hm fun _ _ h => .call _ _ op h⟩
  | failIdle past s d _ hd ih =>
    obtain ⟨past', hp, hm⟩ := ih
    exact ⟨[], fun _ h => h, .again _ _ _ _ d hm (hmono hp hd) .refl⟩
  | failBusy past s d _ hd ih =>
    obtain ⟨past', hp, hm⟩ := ih
    exact ⟨[], fun _ h => h, .again _ _ _ _ d hm (hmono hp hd) .refl⟩

/-- A process dies, leaving everything it has written; then the power fails and leaves all of it. -/
theorem killed_exists {s : Tree} (hs : Sound s) (past : List Tree) :
    ∃ b, KilledAt s b ∧ b.main.chain.config = s.main.chain.config ∧ PowerLoss past b s.close := by
  have key : ∀ d : Db, d.Sound → ∃ e : Db, d.LeftBy e ∧ d.cur ∈ e.recov := by
    intro d hd
    obtain ⟨n, o, h⟩ := List.append_of_mem (show d.cur ∈ d.recov from hd)
    exact ⟨⟨d.cur, d.cur :: o⟩, ⟨n, o, h, rfl⟩, List.mem_cons_self⟩
  obtain ⟨e1, a1, b1⟩ := key _ hs.blocks
  obtain ⟨e2, a2, b2⟩ := key _ hs.heightReference
  obtain ⟨e3, a3, b3⟩ := key _ hs.transactions
  obtain ⟨e4, a4, b4⟩ := key _ hs.summary
  obtain ⟨e5, a5, b5⟩ := key _ hs.oldSummary
  obtain ⟨e6, a6, b6⟩ := key _ hs.gas
  obtain ⟨e7, a7, b7⟩ := key _ hs.oldGas
  have h1 := fun n => key _ (hs.deriv n).1
  have h2 := fun n => key _ (hs.deriv n).2
  refine ⟨{ s with
      main := { s.main with
        chain := { s.main.chain with blocks := e1, heightReference := e2 }
        transactions := e3 }
      summary := e4, oldSummary := e5, gas := e6, oldGas := e7
      derivFiles := fun n => { s.derivFiles n with
        blocks := Classical.choose (h1 n), heightReference := Classical.choose (h2 n) } },
    ⟨a1, a2, a3, rfl, a4, a5, a6, a7, fun n => ⟨(Classical.choose_spec (h1 n)).1, (Classical.choose_spec (h2 n)).1, rfl⟩⟩, rfl,
    ⟨b1, b2, b3, ⟨_, List.mem_cons_self, rfl⟩, b4, b5, b6, b7,
      fun n => ⟨(Classical.choose_spec (h1 n)).2, (Classical.choose_spec (h2 n)).2, _, List.mem_cons_self, rfl⟩⟩⟩

/-- A node flushed at height 2 gets a third block and is killed; then the power fails. It opens at height 2. -/
example (E : Env) : ∃ past past' s b d, Machine E past (.idle s) ∧ s.main.getHeight.val = 2 ∧
    PowerOn E (past ++ s :: (Op.flush.run E s).trace) (.idle (Op.flush.run E s).final) past' (.down b) ∧
    (∃ p ∈ past', p.main.getHeight.val = 3) ∧ PowerLoss past' (Stage.down b).state d ∧
    d.config = (Stage.down b).state.main.chain.config ∧
    (openTree E d).out = .ok () ∧ (openTree E d).final.main.getHeight.val = 2 := by
  have h0 : Powered E _ (.idle (openTree E Disk.empty).final) := .opened [] Disk.empty .start (openTree_fresh E).1
  have e0 : (openTree E Disk.empty).final.main.chain.height = U256.one := by rw [(openTree_fresh E).2]; rfl
  obtain ⟨_, f1⟩ := add_ok E (openTree E Disk.empty).final nextBlock (by rw [e0]; rfl) (by rw [e0]; decide)
  have h1 := Powered.call _ _ (.addBlock nextBlock) h0
  generalize hs : ((Op.addBlock nextBlock).run E (openTree E Disk.empty).final).final = s at f1 h1
  have e1 : s.main.chain.height.val = 2 := by rw [f1]; simp only [Chain.put3, e0]; rfl
  obtain ⟨past, -, hm⟩ := powered_machine h1
  have h2 := Powered.call _ _ .flush h1
  have g2 := (flush_op E s).2
  have e2 : (Op.flush.run E s).final.main.chain.height.val = 2 := by rw [g2]; exact e1
  have c2 : MainChain.readConfig (Op.flush.run E s).final.main.chain.config = .ok (s.main.chain.height, s.main.chain.difficulty) := by
    rw [g2]
    exact MainChain.readConfig_written _ _
  generalize hf : (Op.flush.run E s).final = f at h2 e2 c2
  obtain ⟨_, f3⟩ := add_ok E f thirdBlock (U256.ext e2.symm) (by rw [e2]; decide)
  have h3 := Powered.call _ _ (.addBlock thirdBlock) h2
  have e3 : ((Op.addBlock thirdBlock).run E f).final.main.chain.height.val = 3 := by
    rw [f3]
    show f.main.chain.height.val + 1 = 3
    rw [e2]
  have c3 : ((Op.addBlock thirdBlock).run E f).final.main.chain.config = f.main.chain.config := by rw [f3]; rfl
  have hsound := powered_sound h3
  generalize hu : ((Op.addBlock thirdBlock).run E f).final = u at h3 e3 c3 hsound
  obtain ⟨b, hk, hbc, hl⟩ := killed_exists hsound
    ((past ++ s :: (Op.flush.run E s).trace) ++ f :: ((Op.addBlock thirdBlock).run E f).trace ++ [u])
  obtain ⟨ho, hp⟩ := openTree_pos (E := E) (d := u.close) (h := s.main.chain.height) (df := s.main.chain.difficulty)
    (by show MainChain.readConfig u.main.chain.config = _; rw [c3, c2]) (by rw [e1]; decide)
  refine ⟨past, _, s, b, u.close, hm, e1, ?_, ⟨u, by simp, e3⟩, hl, hbc.symm, ho, ?_⟩
  · rw [hf]
    refine .killIdle _ u b ?_ hk
    have := PowerOn.call (E := E) (past0 := past ++ s :: (Op.flush.run E s).trace) (m0 := .idle f) _ f (.addBlock thirdBlock) .refl
    rw [hu] at this
    exact this
  · rw [hp]
    exact e1

end BCT.Props
