import Verif.Props.Machine
import Verif.Props.DerivPower
/-!
# C158: derivative chains, processes that die, and a power failure (chain.rs:440-575, blockchaintree.rs:85-101, 369-413)
-/

namespace BCT.Props
open BCT

/-! ### What was flushed -/

/-- The blocks below `Q` are in the database, whatever it is taken back to; a config file that can be read has a height of
at least `H` and an anchor with `A`. -/
structure Coffer (m0 : KV) (Q H : Nat) (A : Hash → Prop) (f : DerivFiles) : Prop where
  blocks : ∀ m, m = f.blocks.cur ∨ m ∈ f.blocks.recov → ∀ q : U256, q.val < Q → m.get q.toBE.val = m0.get q.toBE.val
  config : ∀ p h df g, DerivativeChain.readConfig p f.config = .ok (h, df, g) → H ≤ h.val ∧ A g

/-- The same of an open chain. -/
structure Chest (m0 : KV) (Q H : Nat) (A : Hash → Prop) (c : DerivativeChain) : Prop where
  files : Coffer m0 Q H A ⟨c.chain.blocks, c.chain.heightReference, c.chain.config⟩
  height : H ≤ c.chain.height.val
  anchor : A c.genesisHash

/-- The same of a node. -/
def Retains (m0 : KV) (Q H : Nat) (A : Hash → Prop) (o : Address) (t : Tree) : Prop :=
  Coffer m0 Q H A (t.derivFiles (hexEncode o.val)) ∧ (IsOpen o t → H ≤ (t.handle o).chain.height.val ∧ A (t.handle o).genesisHash)

variable {m0 : KV} {Q H : Nat} {A : Hash → Prop} {o : Address}

theorem Retains.chest {t : Tree} (h : Retains m0 Q H A o t) (ho : IsOpen o t) : Chest m0 Q H A (t.handle o) :=
  ⟨h.1, (h.2 ho).1, (h.2 ho).2⟩

theorem put_files (o : Address) (c : DerivativeChain) (s : Tree) :
    (Tree.putHandle o c s).derivFiles (hexEncode o.val) = ⟨c.chain.blocks, c.chain.heightReference, c.chain.config⟩ := by
  unfold Tree.putHandle
  simp

theorem Chest.put {c : DerivativeChain} (h : Chest m0 Q H A c) (t : Tree) : Retains m0 Q H A o (Tree.putHandle o c t) :=
  ⟨by rw [put_files]; exact h.files, fun _ => by rw [Tree.handle_put_self]; exact ⟨h.height, h.anchor⟩⟩

theorem chest_insert (hQ : Q ≤ H) {c : DerivativeChain} (h : Chest m0 Q H A c) (v : Bytes) :
    ∀ m, m = (c.chain.blocks.insert c.chain.height.toBE.val v).cur ∨
        m ∈ (c.chain.blocks.insert c.chain.height.toBE.val v).recov →
      ∀ q : U256, q.val < Q → m.get q.toBE.val = m0.get q.toBE.val := by
  intro m hm q hq
  have hne : q.toBE.val ≠ c.chain.height.toBE.val := fun e => by
    have h1 : q.val = c.chain.height.val := by rw [toBE_inj e]
    have := h.height
    omega
  have key : (c.chain.blocks.cur.insert c.chain.height.toBE.val v).get q.toBE.val = m0.get q.toBE.val := by
    rw [KV.get_insert, if_neg (Ne.symm hne)]
    exact h.files.blocks _ (.inl rfl) q hq
  rcases hm with rfl | hm
  · exact key
  · rcases List.mem_cons.mp hm with rfl | hm
    · exact key
    · exact h.files.blocks m (.inr hm) q hq

theorem chest_addBlock (hQ : Q ≤ H) (E : Env) (b : DerivativeBlock) :
    Act.Rel (fun s t : DerivativeChain => Chest m0 Q H A s → Chest m0 Q H A t) (DerivativeChain.addBlock E b) :=
  DerivativeChain.addBlock_rel (R := fun a b => ∀ x, Chest m0 Q H A ⟨a, x⟩ → Chest m0 Q H A ⟨b, x⟩)
    (Chain.addBlock_rel E (fun _ _ h => h) _ _
      (fun _ _ _ h => ⟨⟨chest_insert hQ h _, h.files.config⟩, h.height, h.anchor⟩)
      (fun _ _ _ h => ⟨⟨chest_insert hQ h _, h.files.config⟩, h.height, h.anchor⟩)
      (fun _ _ _ _ h => ⟨⟨chest_insert hQ h _, h.files.config⟩, Nat.le_succ_of_le h.height, h.anchor⟩))
    fun m _ h => h m.genesisHash

theorem readConfig_short' {f : Bytes} (hf : f.length < 96) {p : Hash} {h : U256} {df g : Hash} :
    DerivativeChain.readConfig p (some f) ≠ .ok (h, df, g) := fun e => readsAs_short hf h ⟨p, df, g, e⟩

theorem chest_mid {c : DerivativeChain} (h : Chest m0 Q H A c) {f : Option Bytes} (hf : MidFlush c f) :
    ∀ p h df g, DerivativeChain.readConfig p f = .ok (h, df, g) → H ≤ h.val ∧ A g := by
  intro p x df g hr
  have l1 : c.chain.height.toBE.val.length = 32 := c.chain.height.toBE.property
  have l2 : c.chain.difficulty.val.length = 32 := c.chain.difficulty.property
  rcases hf with rfl | rfl | rfl | rfl
  · exact absurd hr (readConfig_short' (by decide))
  · exact absurd hr (readConfig_short' (by omega))
  · exact absurd hr (readConfig_short' (by rw [List.length_append]; omega))
  · have : DerivativeChain.readConfig p (some c.saved) = .ok (c.chain.height, c.chain.difficulty, c.genesisHash) :=
      DerivativeChain.readConfig_written p _ _ _
    rw [this] at hr
    cases hr
    exact ⟨h.height, h.anchor⟩

/-- What the chain is while it is flushed. -/
theorem flush_states (c : DerivativeChain) : ∀ x ∈ (DerivativeChain.flush c).trace,
    MidFlush c x.chain.config ∧ x.chain.height = c.chain.height ∧ x.genesisHash = c.genesisHash ∧
    (x.chain.blocks = c.chain.blocks ∨ x.chain.blocks = c.chain.blocks.flush) := by
  intro x hx
  refine ⟨(flush_configs c).1 x hx, ?_⟩
  unfold DerivativeChain.flush DerivativeChain.dumpConfig DerivativeChain.writeConfig at hx
  simp only [Act.step_bind, Act.bind_assoc', Act.step_run, List.mem_cons, List.not_mem_nil, or_false] at hx
  rcases hx with rfl | rfl | rfl | rfl | rfl | rfl
  · exact ⟨rfl, rfl, .inl rfl⟩
  · exact ⟨rfl, rfl, .inl rfl⟩
  · exact ⟨rfl, rfl, .inl rfl⟩
  · exact ⟨rfl, rfl, .inl rfl⟩
  · exact ⟨rfl, rfl, .inr rfl⟩
  · exact ⟨rfl, rfl, .inr rfl⟩

theorem chest_state {c x : DerivativeChain} (h : Chest m0 Q H A c) (hc : MidFlush c x.chain.config)
    (hh : x.chain.height = c.chain.height) (hg : x.genesisHash = c.genesisHash)
    (hb : x.chain.blocks = c.chain.blocks ∨ x.chain.blocks = c.chain.blocks.flush) : Chest m0 Q H A x := by
  refine ⟨⟨fun m hm => ?_, chest_mid h hc⟩, by rw [hh]; exact h.height, by rw [hg]; exact h.anchor⟩
  rcases hb with hb | hb
  · exact h.files.blocks m (by rw [← hb]; exact hm)
  · refine h.files.blocks m (.inl ?_)
    simp only [hb] at hm
    rcases hm with rfl | hm
    · rfl
    · exact Db.flush_recov hm

theorem holds_get {E : Env} {s : Tree} (h : Retains m0 Q H A o s) : Throughout (Retains m0 Q H A o) (Tree.getDerivativeChain E o s) := by
  rcases Tree.getDeriv_cases E o s with ⟨_, e⟩ | ⟨hm, ⟨out, _, e⟩ | ⟨b, c, _, hc, e⟩⟩
  · rw [e]; exact ⟨h, by simp⟩
  · rw [e]; exact ⟨h, by simp⟩
  · have : Retains m0 Q H A o (Tree.putHandle o c s) := by
      unfold DerivativeChain.new at hc
      cases hr : DerivativeChain.readConfig (b.hash E) (s.derivFiles (hexEncode o.val)).config with
      | ok r =>
        obtain ⟨x, df, g⟩ := r
        rw [hr] at hc
        cases hc
        exact Chest.put ⟨h.1, (h.1.config _ _ _ _ hr).1, (h.1.config _ _ _ _ hr).2⟩ s
      | err e => rw [hr] at hc; cases hc
      | panic => rw [hr] at hc; cases hc
      | ub => rw [hr] at hc; cases hc
    rw [e]
    exact ⟨this, by simpa using this⟩

theorem derivFlush_states (E : Env) (o : Address) (s : Tree) :
    (((Tree.getDerivativeChain E o s).out = .ok () ∧ IsOpen o (Tree.getDerivativeChain E o s).final ∧
      ∀ t, t ∈ ((Op.derivFlush o).run E s).trace ∨ t = ((Op.derivFlush o).run E s).final →
        t ∈ (Tree.getDerivativeChain E o s).trace ∨
        ∃ x, t = Tree.putHandle o x (Tree.getDerivativeChain E o s).final ∧
          MidFlush ((Tree.getDerivativeChain E o s).final.handle o) x.chain.config ∧
          x.chain.height = ((Tree.getDerivativeChain E o s).final.handle o).chain.height ∧
          x.genesisHash = ((Tree.getDerivativeChain E o s).final.handle o).genesisHash ∧
          (x.chain.blocks = ((Tree.getDerivativeChain E o s).final.handle o).chain.blocks ∨
            x.chain.blocks = ((Tree.getDerivativeChain E o s).final.handle o).chain.blocks.flush))) ∨
    (∀ t, t ∈ ((Op.derivFlush o).run E s).trace ∨ t = ((Op.derivFlush o).run E s).final →
        t ∈ (Tree.getDerivativeChain E o s).trace ∨ t = (Tree.getDerivativeChain E o s).final) := by
  rcases Act.bind_cases (Tree.getDerivativeChain E o) (fun _ => Tree.onDeriv o DerivativeChain.flush) s with
    ⟨a, h1, h2, h3, -⟩ | ⟨-, h2, h3, -⟩
  · refine .inl ⟨h1, getDeriv_open h1, fun t ht => ?_⟩
    have fin : ((Op.derivFlush o).run E s).final = Tree.putHandle o
        ((Tree.getDerivativeChain E o s).final.handle o).flushed (Tree.getDerivativeChain E o s).final := by
      refine h2.trans ?_
      show Tree.putHandle o (DerivativeChain.flush _).final _ = _
      rw [(DerivativeChain.flush_run _).2]
    rcases ht with ht | rfl
    · rw [show ((Op.derivFlush o).run E s).trace = _ from h3] at ht
      rcases List.mem_append.mp ht with ht | ht
      · exact .inl ht
      · unfold Tree.onDeriv at ht
        rw [Act.zoom_run] at ht
        obtain ⟨x, hx, rfl⟩ := List.mem_map.mp ht
        exact .inr ⟨x, rfl, flush_states _ x hx⟩
    · exact .inr ⟨_, fin, .inr (.inr (.inr rfl)), rfl, rfl, .inr rfl⟩
  · refine .inr fun t ht => ?_
    rw [show ((Op.derivFlush o).run E s).trace = _ from h3, show ((Op.derivFlush o).run E s).final = _ from h2] at ht
    exact ht

theorem holds_op (hQ : Q ≤ H) (E : Env) (op : Op) (s : Tree) (h : Retains m0 Q H A o s) :
    Throughout (Retains m0 Q H A o) (op.run E s) := by
  by_cases hf : op = .derivFlush o
  · subst hf
    have hg := holds_get (E := E) h
    have key : ∀ t, t ∈ ((Op.derivFlush o).run E s).trace ∨ t = ((Op.derivFlush o).run E s).final → Retains m0 Q H A o t := by
      intro t ht
      rcases derivFlush_states E o s with ⟨-, ho, hs⟩ | hs
      · rcases hs t ht with ht | ⟨x, rfl, h1, h2, h3, h4⟩
        · exact hg.2 t ht
        · exact (chest_state (hg.1.chest ho) h1 h2 h3 h4).put _
      · rcases hs t ht with ht | rfl
        · exact hg.2 t ht
        · exact hg.1
    exact ⟨key _ (.inr rfl), fun t ht => key t (.inl ht)⟩
  · refine owner_op (P := Retains m0 Q H A o) (fun a b hab ha => ?_) (fun a ha => holds_get ha) (fun a b ha ho => ?_) s op hf h
    · have he : b.handle o = a.handle o := by unfold Tree.handle; rw [hab.1, hab.2]
      exact ⟨by rw [hab.1]; exact ha.1, fun ho => by rw [he]; exact ha.2 (by unfold IsOpen at ho ⊢; rw [← hab.2]; exact ho)⟩
    · have := Act.rel_zoom (part := fun t : Tree => t.handle o) (put := Tree.putHandle o)
        (Q := fun x y => x = a → Retains m0 Q H A o y) (chest_addBlock (m0 := m0) (A := A) hQ E b) (fun t m hm e => by
          subst e
          exact (hm (ha.chest ho)).put _) a
      exact ⟨this.1 rfl, fun t ht => this.2 t ht rfl⟩

/-- Opening a node leaves the files of the derivative chains as they are and has no chain open. -/
theorem new_deriv {E : Env} {b t : Tree} (h : t ∈ (Tree.new E b).trace ∨ t = (Tree.new E b).final) :
    t.derivFiles = b.derivFiles ∧ t.derivMem = fun _ => none := by
  have C := Act.rel_closed (Act.inv_preord (fun t : Tree => t.derivFiles = b.derivFiles ∧ t.derivMem = fun _ => none))
  unfold Tree.new at h
  rw [Act.step_bind] at h
  revert h
  generalize hx : (Tree.onMain (MainChain.new E) >>= fun _ => _ : Act Tree Unit) = x
  have key : Act.Rel (fun s t : Tree => (s.derivFiles = b.derivFiles ∧ s.derivMem = fun _ => none) →
      t.derivFiles = b.derivFiles ∧ t.derivMem = fun _ => none) x := by
    rw [← hx]
    refine C.bind ?_ fun _ => C.bind C.get fun t => ?_
    · exact Act.rel_zoom (R := fun _ _ => True) (fun _ => ⟨trivial, fun _ _ => trivial⟩) fun _ _ _ => id
    · split
      · exact Act.rel_zoom (R := fun _ _ => True) (fun _ => ⟨trivial, fun _ _ => trivial⟩) fun _ _ _ => id
      · exact C.pure _
  have k := key { b with derivMem := fun _ => none }
  rintro (h | rfl)
  · rcases List.mem_cons.mp h with rfl | h
    · exact ⟨rfl, rfl⟩
    · exact k.2 t h ⟨rfl, rfl⟩
  · exact k.1 ⟨rfl, rfl⟩

theorem holds_new {E : Env} {b t : Tree} (h : Coffer m0 Q H A (b.derivFiles (hexEncode o.val)))
    (ht : t ∈ (Tree.new E b).trace ∨ t = (Tree.new E b).final) : Retains m0 Q H A o t := by
  obtain ⟨h1, h2⟩ := new_deriv ht
  exact ⟨by rw [h1]; exact h, fun ho => by unfold IsOpen at ho; rw [h2] at ho; cases ho⟩

theorem coffer_killed {t b : Tree} (h : Coffer m0 Q H A (t.derivFiles (hexEncode o.val))) (hk : KilledAt t b) :
    Coffer m0 Q H A (b.derivFiles (hexEncode o.val)) :=
  ⟨fun m hm => h.blocks m (.inr (leftBy_mem (hk.deriv _).1 hm)), by rw [(hk.deriv _).2.2]; exact h.config⟩

/-- What holds at each stage. -/
def StageRetains (m0 : KV) (Q H : Nat) (A : Hash → Prop) (o : Address) : BCT.Stage → Prop
  | .idle t => Retains m0 Q H A o t
  | .busy t => Retains m0 Q H A o t
  | .down b => Coffer m0 Q H A (b.derivFiles (hexEncode o.val))

theorem stage_holds (hQ : Q ≤ H) {E : Env} {past0 past : List Tree} {n m : BCT.Stage} (h : PowerOn E past0 n past m)
    (h0 : StageRetains m0 Q H A o n) : StageRetains m0 Q H A o m := by
  induction h with
  | refl => exact h0
  | opening past l r b t _ ht ih => exact holds_new ih (.inl (by rw [ht]; simp))
  | opened past b _ _ ih => exact holds_new ih (.inr rfl)
  | running past l r s t op _ ht ih => exact (holds_op hQ E op s ih).2 t (by rw [ht]; simp)
  | call past s op _ ih => exact (holds_op hQ E op s ih).1
  | killIdle past s b _ hk ih => exact coffer_killed (show Retains m0 Q H A o s from ih).1 hk
  | killBusy past s b _ hk ih => exact coffer_killed (show Retains m0 Q H A o s from ih).1 hk

theorem StageRetains.coffer {m : BCT.Stage} (h : StageRetains m0 Q H A o m) :
    Coffer m0 Q H A (m.state.derivFiles (hexEncode o.val)) := by
  cases m with
  | idle t => exact h.1
  | busy t => exact h.1
  | down b => exact h

/-- After the flush of a chain has returned. -/
theorem holds_flush {E : Env} {s : Tree} {o : Address} (hok : ((Op.derivFlush o).run E s).out = .ok ()) :
    Retains (((Op.derivFlush o).run E s).final.handle o).chain.blocks.cur
      (((Op.derivFlush o).run E s).final.handle o).chain.height.val
      (((Op.derivFlush o).run E s).final.handle o).chain.height.val
      (· = (((Op.derivFlush o).run E s).final.handle o).genesisHash) o ((Op.derivFlush o).run E s).final := by
  obtain ⟨v, -, -, ho, hf, -⟩ := derivFlush_ok hok
  rw [hf, Tree.handle_put_self]
  have hb := banked_flushed (m0 := (v.handle o).flushed.chain.blocks.cur) (c := v.handle o) (Nat.le_refl _) fun _ _ => rfl
  refine Chest.put (A := (· = (v.handle o).flushed.genesisHash)) ⟨⟨hb.blocks, fun p h df g hr => ?_⟩, hb.height, rfl⟩ v
  have : DerivativeChain.readConfig p (v.handle o).flushed.chain.config = .ok ((v.handle o).chain.height,
      (v.handle o).chain.difficulty, (v.handle o).genesisHash) := DerivativeChain.readConfig_written p _ _ _
  rw [this] at hr
  cases hr
  exact ⟨Nat.le_refl _, rfl⟩

/-- C158. After the flush of a derivative chain has returned, let the node be called, killed and opened again in any way,
and then let the power fail; the config files may then be anything. The block database of the chain has every block below
the flushed height, unchanged. If the config file of the chain can be read, the chain opens at its height and returns the
flushed blocks up to there. If it is also as last written, the chain opens at the flushed height or above, with the anchor
it had and all the flushed blocks. -/
theorem C158_kept (E : Env) (past0 past : List Tree) (s : Tree) (m : BCT.Stage) (o : Address) (d : Disk)
    (hok : ((Op.derivFlush o).run E s).out = .ok ())
    (hm : PowerOn E past0 (.idle ((Op.derivFlush o).run E s).final) past m)
    (hd : PowerLoss past m.state { d with
      config := m.state.main.chain.config
      deriv := fun n => { d.deriv n with config := (m.state.derivFiles n).config } }) :
    (∀ q : U256, q.val < (((Op.derivFlush o).run E s).final.handle o).chain.height.val →
      (d.deriv (hexEncode o.val)).blocks.get q.toBE.val =
        (((Op.derivFlush o).run E s).final.handle o).chain.findRawByHeight q) ∧
    ∀ b h df g, (openTree E d).final.main.getLastBlock = .ok (some b) →
      DerivativeChain.readConfig (b.hash E) (d.deriv (hexEncode o.val)).config = .ok (h, df, g) →
      ((Op.getDerivativeChain o).run E (openTree E d).final).out = .ok () ∧
      (((Op.getDerivativeChain o).run E (openTree E d).final).final.handle o).chain.height = h ∧
      (((Op.getDerivativeChain o).run E (openTree E d).final).final.handle o).genesisHash = g ∧
      (∀ q : U256, q.val < (((Op.derivFlush o).run E s).final.handle o).chain.height.val → q.val ≤ h.val →
        (((Op.getDerivativeChain o).run E (openTree E d).final).final.handle o).chain.findRawByHeight q =
          (((Op.derivFlush o).run E s).final.handle o).chain.findRawByHeight q) ∧
      ((d.deriv (hexEncode o.val)).config = (m.state.derivFiles (hexEncode o.val)).config →
        (((Op.derivFlush o).run E s).final.handle o).chain.height.val ≤ h.val ∧
        g = (((Op.derivFlush o).run E s).final.handle o).genesisHash ∧
        ∀ q : U256, q.val < (((Op.derivFlush o).run E s).final.handle o).chain.height.val →
          (((Op.getDerivativeChain o).run E (openTree E d).final).final.handle o).chain.findRawByHeight q =
            (((Op.derivFlush o).run E s).final.handle o).chain.findRawByHeight q) := by
  have hb := (stage_holds (Nat.le_refl _) hm (holds_flush hok)).coffer
  generalize hF : ((Op.derivFlush o).run E s).final.handle o = c at hb ⊢
  have hq : ∀ q : U256, q.val < c.chain.height.val →
      (d.deriv (hexEncode o.val)).blocks.get q.toBE.val = c.chain.findRawByHeight q := by
    intro q hq
    rw [hb.blocks _ (.inr (hd.deriv (hexEncode o.val)).1) q hq]
    unfold Chain.findRawByHeight
    rw [if_neg (by omega)]
    rfl
  refine ⟨hq, fun b h df g hl hr => ?_⟩
  obtain ⟨g1, g2⟩ := opens_at (o := o) hl hr
  rw [g2]
  have hfind : ∀ q : U256, q.val < c.chain.height.val → q.val ≤ h.val →
      Chain.findRawByHeight ⟨Db.open' (d.deriv (hexEncode o.val)).blocks, Db.open' (d.deriv (hexEncode o.val)).heightReference,
        h, df, (d.deriv (hexEncode o.val)).config⟩ q = c.chain.findRawByHeight q := by
    intro q h1 h2
    rw [← hq q h1]
    unfold Chain.findRawByHeight
    simp only
    rw [if_neg (by omega)]
    rfl
  refine ⟨g1, rfl, rfl, hfind, fun he => ?_⟩
  obtain ⟨h1, h2⟩ := hb.config _ _ _ _ (he ▸ hr)
  exact ⟨h1, h2, fun q hq => hfind q hq (by omega)⟩

/-- C158. Until the power fails, whenever the chain is open, in the middle of calls included, it is no shorter than it was
when flushed, and has the anchor it had and the flushed blocks. -/
theorem C158_open (E : Env) (past0 past : List Tree) (s u : Tree) (o : Address)
    (hok : ((Op.derivFlush o).run E s).out = .ok ())
    (hm : PowerOn E past0 (.idle ((Op.derivFlush o).run E s).final) past (.idle u) ∨
      PowerOn E past0 (.idle ((Op.derivFlush o).run E s).final) past (.busy u)) (ho : IsOpen o u) :
    (((Op.derivFlush o).run E s).final.handle o).chain.height.val ≤ (u.handle o).chain.height.val ∧
    (u.handle o).genesisHash = (((Op.derivFlush o).run E s).final.handle o).genesisHash ∧
    ∀ q : U256, q.val < (((Op.derivFlush o).run E s).final.handle o).chain.height.val →
      (u.handle o).chain.findRawByHeight q = (((Op.derivFlush o).run E s).final.handle o).chain.findRawByHeight q := by
  have hu : Retains (((Op.derivFlush o).run E s).final.handle o).chain.blocks.cur
      (((Op.derivFlush o).run E s).final.handle o).chain.height.val
      (((Op.derivFlush o).run E s).final.handle o).chain.height.val
      (· = (((Op.derivFlush o).run E s).final.handle o).genesisHash) o u := by
    rcases hm with hm | hm
    · exact stage_holds (Nat.le_refl _) hm (holds_flush hok)
    · exact stage_holds (Nat.le_refl _) hm (holds_flush hok)
  have hc := hu.chest ho
  refine ⟨hc.height, hc.anchor, fun q hq => ?_⟩
  have := hc.height
  unfold Chain.findRawByHeight
  rw [if_neg (by omega), if_neg (by omega)]
  exact hc.files.blocks _ (.inl rfl) q hq

/-! ### The chain is never too long -/

/-- No config file that can be read, and no open chain, is below `n`. -/
abbrev Tops (n : Nat) (o : Address) (t : Tree) : Prop := Retains KV.empty 0 n (fun _ => True) o t

/-- The config file of the chain in the directory of `t`. -/
abbrev cfgOf (o : Address) (t : Tree) : Option Bytes := (t.derivFiles (hexEncode o.val)).config

theorem coffer_tops {f : DerivFiles} {n : Nat} (h : ∀ x, ReadsAs f.config x → n ≤ x.val) :
    Coffer KV.empty 0 n (fun _ => True) f :=
  ⟨fun _ _ _ hq => absurd hq (Nat.not_lt_zero _), fun p x df g hr => ⟨h x ⟨p, df, g, hr⟩, trivial⟩⟩

theorem coffer_self {f : DerivFiles} {x : U256} (h : ReadsAs f.config x) : Coffer KV.empty 0 x.val (fun _ => True) f :=
  coffer_tops fun _ hy => by rw [readsAs_unique hy h]

/-- In a call, the config file of the chain changes only while the chain is flushed. -/
theorem cfg_op {E : Env} {op : Op} {s : Tree} (hf : op ≠ .derivFlush o) :
    Throughout (fun t => cfgOf o t = cfgOf o s) (op.run E s) := by
  refine owner_op (P := fun t => cfgOf o t = cfgOf o s)
    (E := E) (o := o) (fun a b hab ha => by unfold cfgOf; rw [hab.1]; exact ha)
    (fun a ha => ⟨((getDeriv_config E o a).1).trans ha, fun t ht => ((getDeriv_config E o a).2 t ht).trans ha⟩)
    (fun a b ha ho => ?_) s op hf rfl
  have hx : Act.Rel (fun c c' : DerivativeChain => c'.chain.config = c.chain.config) (DerivativeChain.addBlock E b) :=
    DerivativeChain.addBlock_rel (R := fun a b => b.config = a.config)
      (Chain.addBlock_rel (R := fun a b => b.config = a.config) E (fun _ => rfl) _ _ (fun _ _ => rfl) (fun _ _ => rfl)
        (fun _ _ _ => rfl)) fun _ _ h => h
  have := Act.rel_zoom (part := fun t : Tree => t.handle o) (put := Tree.putHandle o)
    (Q := fun x y => x = a → cfgOf o y = cfgOf o s) hx (fun t m hm e => by
      subst e
      unfold cfgOf
      rw [put_config, hm]; exact ha) a
  exact ⟨this.1 rfl, fun t ht => this.2 t ht rfl⟩

/-- A chain just opened is as high as its config file says. -/
theorem tops_get {E : Env} {s u : Tree} (hu : u ∈ (Tree.getDerivativeChain E o s).trace) :
    Tops ((Tree.getDerivativeChain E o s).final.handle o).chain.height.val o u := by
  rcases Tree.getDeriv_cases E o s with ⟨_, e⟩ | ⟨hm, ⟨out, _, e⟩ | ⟨b, c, _, hc, e⟩⟩
  · rw [e] at hu; simp at hu
  · rw [e] at hu; simp at hu
  · rw [e] at hu ⊢
    obtain rfl := List.mem_singleton.mp hu
    refine ⟨coffer_tops fun x hx => ?_, fun _ => ⟨Nat.le_refl _, trivial⟩⟩
    rw [Tree.handle_put_self]
    rw [put_config] at hx
    unfold DerivativeChain.new at hc
    cases hr : DerivativeChain.readConfig (b.hash E) (s.derivFiles (hexEncode o.val)).config with
    | ok r =>
      obtain ⟨y, df, g⟩ := r
      rw [hr] at hc
      cases hc
      rw [readsAs_unique hx ⟨_, _, _, hr⟩]
    | err e => rw [hr] at hc; cases hc
    | panic => rw [hr] at hc; cases hc
    | ub => rw [hr] at hc; cases hc

/-- Of the states of one call, none has a config file above the chain of another. -/
theorem tops_op {E : Env} (op : Op) {s : Tree} (hs : ∀ x, ReadsAs (cfgOf o s) x → Tops x.val o s) {t u : Tree} {x : U256}
    (ht : t ∈ (op.run E s).trace ∨ t = (op.run E s).final) (hu : u ∈ (op.run E s).trace ∨ u = (op.run E s).final)
    (hx : ReadsAs (cfgOf o t) x) : Tops x.val o u := by
  have hall : ∀ n, Tops n o s → Tops n o u := by
    intro n hn
    have := holds_op (Nat.zero_le _) E op s hn
    rcases hu with hu | rfl
    · exact this.2 u hu
    · exact this.1
  by_cases hf : op = .derivFlush o
  · subst hf
    have same : ∀ p, (p ∈ (Tree.getDerivativeChain E o s).trace ∨ p = (Tree.getDerivativeChain E o s).final) →
        cfgOf o p = cfgOf o s := by
      rintro p (hp | rfl)
      · exact (getDeriv_config E o s).2 p hp
      · exact (getDeriv_config E o s).1
    rcases derivFlush_states E o s with ⟨-, ho, hst⟩ | hst
    · rcases hst t ht with ht | ⟨y, rfl, y1, y2, y3, y4⟩
      · rw [same t (.inl ht)] at hx
        exact hall _ (hs x hx)
      · unfold cfgOf at hx
        rw [put_config] at hx
        rw [midFlush_reads y1 hx]
        rcases hst u hu with hu | ⟨z, rfl, z1, z2, z3, z4⟩
        · exact tops_get hu
        · refine Chest.put ⟨coffer_tops fun w hw => ?_, ?_, trivial⟩ _
          · rw [midFlush_reads z1 hw]
          · rw [z2]
    · rw [same t (hst t ht)] at hx
      exact hall _ (hs x hx)
  · have hc := cfg_op (E := E) (s := s) hf
    have he : cfgOf o t = cfgOf o s := by
      rcases ht with ht | rfl
      · exact hc.2 t ht
      · exact hc.1
    rw [he] at hx
    exact hall _ (hs x hx)

/-- What holds at each stage, with the states passed through: no config file has been higher. -/
def Highest (o : Address) (past : List Tree) : BCT.Stage → Prop
  | .idle t => ∀ p ∈ t :: past, ∀ x, ReadsAs (cfgOf o p) x → Tops x.val o t
  | .busy t => ∀ p ∈ t :: past, ∀ x, ReadsAs (cfgOf o p) x → Tops x.val o t
  | .down b => ∀ p ∈ b :: past, ∀ x, ReadsAs (cfgOf o p) x →
      Coffer KV.empty 0 x.val (fun _ => True) (b.derivFiles (hexEncode o.val))

theorem highest_op {E : Env} {past l : List Tree} {s t : Tree} (op : Op) (h : Highest o past (.idle s))
    (hl : ∀ p ∈ l, p ∈ (op.run E s).trace) (ht : t ∈ (op.run E s).trace ∨ t = (op.run E s).final) :
    ∀ p ∈ t :: (past ++ s :: l), ∀ x, ReadsAs (cfgOf o p) x → Tops x.val o t := by
  have hself : ∀ x, ReadsAs (cfgOf o s) x → Tops x.val o s := h s List.mem_cons_self
  have hold : ∀ n, Tops n o s → Tops n o t := by
    intro n hn
    have := holds_op (Nat.zero_le _) E op s hn
    rcases ht with ht | rfl
    · exact this.2 t ht
    · exact this.1
  intro p hp x hx
  simp only [List.mem_cons, List.mem_append] at hp
  rcases hp with rfl | hp | rfl | hp
  · exact tops_op op hself ht ht hx
  · exact hold _ (h p (List.mem_cons_of_mem _ hp) x hx)
  · exact hold _ (hself x hx)
  · exact tops_op op hself (.inl (hl p hp)) ht hx

theorem highest_new {E : Env} {past l : List Tree} {b t : Tree} (h : Highest o past (.down b))
    (hl : ∀ p ∈ l, p ∈ (Tree.new E b).trace) (ht : t ∈ (Tree.new E b).trace ∨ t = (Tree.new E b).final) :
    ∀ p ∈ t :: (past ++ b :: l), ∀ x, ReadsAs (cfgOf o p) x → Tops x.val o t := by
  have hself := h b List.mem_cons_self
  have same : ∀ p, p ∈ (Tree.new E b).trace ∨ p = (Tree.new E b).final → cfgOf o p = cfgOf o b := by
    intro p hp
    unfold cfgOf
    rw [(new_deriv hp).1]
  intro p hp x hx
  refine holds_new ?_ ht
  simp only [List.mem_cons, List.mem_append] at hp
  rcases hp with rfl | hp | rfl | hp
  · rw [same _ ht] at hx; exact hself x hx
  · exact h p (List.mem_cons_of_mem _ hp) x hx
  · exact hself x hx
  · rw [same p (.inl (hl p hp))] at hx; exact hself x hx

theorem highest_killed {past : List Tree} {t b : Tree}
    (h : ∀ p ∈ t :: past, ∀ x, ReadsAs (cfgOf o p) x → Tops x.val o t) (hk : KilledAt t b) :
    Highest o (past ++ [t]) (.down b) := by
  intro p hp x hx
  refine coffer_killed ?_ hk
  simp only [List.mem_cons, List.mem_append, List.not_mem_nil, or_false] at hp
  rcases hp with rfl | hp | rfl
  · unfold cfgOf at hx
    rw [(hk.deriv _).2.2] at hx
    exact (h t List.mem_cons_self x hx).1
  · exact (h p (List.mem_cons_of_mem _ hp) x hx).1
  · exact (h p List.mem_cons_self x hx).1

theorem highest_on {E : Env} {past0 past : List Tree} {n m : BCT.Stage} (h : PowerOn E past0 n past m)
    (h0 : Highest o past0 n) : Highest o past m := by
  induction h with
  | refl => exact h0
  | opening past l r b t _ ht ih => exact highest_new ih (by rw [ht]; simp +contextual) (.inl (by rw [ht]; simp))
  | opened past b _ _ ih => exact highest_new ih (fun _ h => h) (.inr rfl)
  | running past l r s t op _ ht ih => exact highest_op op ih (by rw [ht]; simp +contextual) (.inl (by rw [ht]; simp))
  | call past s op _ ih => exact highest_op op ih (fun _ h => h) (.inr rfl)
  | killIdle past s b _ hk ih => exact highest_killed ih hk
  | killBusy past s b _ hk ih => exact highest_killed ih hk

theorem highest_boot (b : Tree) : Highest o [] (.down b) := by
  intro p hp x hx
  obtain rfl := List.mem_singleton.mp hp
  exact coffer_self hx

theorem highest_machine {E : Env} {past : List Tree} {m : BCT.Stage} (h : Machine E past m) : Highest o past m := by
  cases h with
  | first _ _ h => exact highest_on h (highest_boot _)
  | again _ _ _ _ _ _ _ h => exact highest_on h (highest_boot _)

/-- C158. A power failure never makes a derivative chain appear longer than it was, whatever processes have died since the
machine was started: if the chain opens again, its height is at most the height of the last config file, if that could be
read, and at most the height the chain had, if it was open. -/
theorem C158_no_higher (E : Env) (past : List Tree) (m : BCT.Stage) (o : Address) (d : Disk) (b : Block)
    (hm : Machine E past m) (hd : PowerLoss past m.state d)
    (hb : (openTree E d).final.main.getLastBlock = .ok (some b))
    (hok : ((Op.getDerivativeChain o).run E (openTree E d).final).out = .ok ()) :
    (∀ p h df g, DerivativeChain.readConfig p (m.state.derivFiles (hexEncode o.val)).config = .ok (h, df, g) →
      (((Op.getDerivativeChain o).run E (openTree E d).final).final.handle o).chain.height.val ≤ h.val) ∧
    (∀ t, (m = .idle t ∨ m = .busy t) → IsOpen o t →
      (((Op.getDerivativeChain o).run E (openTree E d).final).final.handle o).chain.height.val ≤
        (t.handle o).chain.height.val) := by
  cases hr : DerivativeChain.readConfig (b.hash E) (d.deriv (hexEncode o.val)).config with
  | ok r =>
    obtain ⟨h, df, g⟩ := r
    obtain ⟨-, g2⟩ := opens_at (o := o) hb hr
    rw [g2]
    obtain ⟨p, hp, hc⟩ := (hd.deriv (hexEncode o.val)).2.2
    rw [hc] at hr
    have hh : ReadsAs (cfgOf o p) h := ⟨_, _, _, hr⟩
    have hi := highest_machine (o := o) hm
    constructor
    · intro p' h' df' g' hr'
      cases m with
      | idle t => exact ((hi p hp h hh).1.config _ _ _ _ hr').1
      | busy t => exact ((hi p hp h hh).1.config _ _ _ _ hr').1
      | down t => exact ((hi p hp h hh).config _ _ _ _ hr').1
    · rintro t (rfl | rfl) ho
      · exact ((hi p hp h hh).2 ho).1
      · exact ((hi p hp h hh).2 ho).1
  | _ =>
    exfalso
    rcases Tree.getDeriv_cases E o (openTree E d).final with ⟨ho, _⟩ | ⟨-, ⟨out, hout, e⟩ | ⟨b', c, hb', hc, e⟩⟩
    · rw [(reopened (.inr rfl)).1] at ho; cases ho
    · rw [show (Op.getDerivativeChain o).run E (openTree E d).final = _ from e] at hok
      exact hout () hok
    · rw [hb] at hb'
      cases hb'
      unfold DerivativeChain.new at hc
      rw [(reopened (.inr rfl)).2, show DerivativeChain.readConfig (b.hash E) (fileOf o d) = _ from hr] at hc
      cases hc

theorem boot_last (E : Env) (b h T : Db) (df : Hash) (cfg : Option Bytes) :
    MainChain.getLastBlock ⟨bootChain E b h df cfg, T⟩ = .ok (some (genesis E)) := by
  unfold MainChain.getLastBlock MainChain.getLastRawBlock MainChain.findRawByHeight
  rw [lastIndex (Nat.le_refl 1)]
  simp only [Outcome.ok_bind]
  have : (bootChain E b h df cfg).findRawByHeight U256.zero = some (genesis E).dump := by
    unfold Chain.findRawByHeight
    rw [if_neg (show ¬ (bootChain E b h df cfg).height.val < U256.zero.val from Nat.not_lt_zero _)]
    show (b.cur.insert U256.zero.toBE.val (genesis E).dump).get U256.zero.toBE.val = _
    rw [KV.get_insert]
    exact if_pos rfl
  show MainChain.decode ((bootChain E b h df cfg).findRawByHeight U256.zero) = _
  rw [this]
  exact decode_main (genesis E) trivial (.inr ⟨_, rfl⟩)

theorem PowerOn.trans {E : Env} {p0 p1 p2 : List Tree} {n0 n1 n2 : BCT.Stage} (h : PowerOn E p0 n0 p1 n1)
    (h' : PowerOn E p1 n1 p2 n2) : PowerOn E p0 n0 p2 n2 := by
  induction h' with
  | refl => exact h
  | opening past l r b t _ ht ih => exact .opening past l r b t ih ht
  | opened past b _ ho ih => exact .opened past b ih ho
  | running past l r s t op _ ht ih => exact .running past l r s t op ih ht
  | call past s op _ ih => exact .call past s op ih
  | killIdle past s b _ hk ih => exact .killIdle past s b ih hk
  | killBusy past s b _ hk ih => exact .killBusy past s b ih hk

theorem machine_on {E : Env} {past past' : List Tree} {m m' : BCT.Stage} (h : Machine E past m) (h' : PowerOn E past m past' m') :
    Machine E past' m' := by
  cases h with
  | first _ _ h => exact .first _ _ (PowerOn.trans h h')
  | again p _ n _ d h hd h1 => exact .again p _ n _ d h hd (PowerOn.trans h1 h')

/-- A case as in the theorems above: a derivative chain with one block is flushed on a fresh node, the process dies, and
the power fails before another is started. -/
example (E : Env) (o : Address) : ∃ past past' s b d, Machine E past (.idle s) ∧
    ((Op.derivFlush o).run E s).out = .ok () ∧ (((Op.derivFlush o).run E s).final.handle o).chain.height.val = 1 ∧
    IsOpen o ((Op.derivFlush o).run E s).final ∧
    PowerOn E (past ++ s :: ((Op.derivFlush o).run E s).trace) (.idle ((Op.derivFlush o).run E s).final) past' (.down b) ∧
    Machine E past' (.down b) ∧ PowerLoss past' (BCT.Stage.down b).state d ∧
    (openTree E d).final.main.getLastBlock = .ok (some (genesis E)) ∧
    ((Op.getDerivativeChain o).run E (openTree E d).final).out = .ok () ∧
    (((Op.getDerivativeChain o).run E (openTree E d).final).final.handle o).chain.height.val = 1 := by
  obtain ⟨f1, f2, f3, -⟩ := freshWith_flush E o (oneDeriv E)
  have hs := Powered.call _ _ (.derivAddBlock o exDerivBlock) (.opened _ _ (.start (E := E)) (openTree_fresh E).1)
  rw [fresh_add] at hs
  obtain ⟨past, -, hm⟩ := powered_machine hs
  have hs2 := Powered.call _ _ (.derivFlush o) hs
  rw [f2] at hs2
  have hsound := powered_sound hs2
  obtain ⟨b, hk, hbc, hl⟩ := killed_exists hsound
    ((past ++ freshWith E o (oneDeriv E) :: ((Op.derivFlush o).run E (freshWith E o (oneDeriv E))).trace) ++
      [freshWith E o (oneDeriv E).flushed])
  have hcfg : (freshWith E o (oneDeriv E).flushed).main.chain.config = none := by
    show (openTree E Disk.empty).final.main.chain.config = none
    rw [(openTree_fresh E).2]; rfl
  obtain ⟨-, z2⟩ := openTree_zero (E := E) (d := (freshWith E o (oneDeriv E).flushed).close) (df := BEGINNING_DIFFICULTY)
    (by show MainChain.readConfig (freshWith E o (oneDeriv E).flushed).main.chain.config = _; rw [hcfg]; rfl)
  have hlast : (openTree E (freshWith E o (oneDeriv E).flushed).close).final.main.getLastBlock = .ok (some (genesis E)) := by
    rw [z2]
    exact boot_last E _ _ (freshWith E o (oneDeriv E).flushed).close.boot.main.transactions _ _
  have hfile : ((freshWith E o (oneDeriv E).flushed).close.deriv (hexEncode o.val)).config = some (oneDeriv E).saved := by
    show ((freshWith E o (oneDeriv E).flushed).derivFiles (hexEncode o.val)).config = _
    unfold freshWith
    rw [put_config]; rfl
  obtain ⟨g1, g2⟩ := opens_at (E := E) (o := o) (d := (freshWith E o (oneDeriv E).flushed).close) (b := genesis E)
    (h := (oneDeriv E).chain.height) (df := (oneDeriv E).chain.difficulty) (g := (oneDeriv E).genesisHash) hlast (by
      rw [hfile]; exact DerivativeChain.readConfig_written _ _ _ _)
  have hp := PowerOn.killIdle (E := E) (past0 := past ++ freshWith E o (oneDeriv E) ::
      ((Op.derivFlush o).run E (freshWith E o (oneDeriv E))).trace) (m0 := .idle (freshWith E o (oneDeriv E).flushed)) _ _ b .refl hk
  refine ⟨past, _, freshWith E o (oneDeriv E), b, _, hm, f1, ?_, ?_, ?_, ?_, hl, hlast, g1, ?_⟩
  · rw [f2]; unfold freshWith; rw [Tree.handle_put_self]; rfl
  · rw [f2]; exact freshWith_open _ _ _
  · rw [f2]; exact hp
  · have := machine_on (machine_on hm (.call _ _ (.derivFlush o) .refl)) (.killIdle _ _ b .refl (f2.symm ▸ hk))
    rw [f2] at this
    exact this
  · rw [g2]; rfl

end BCT.Props
