import Verif.Props.MinerKill
import Verif.Props.DerivCrash
import Verif.Props.Frame
/-!
# C153: the example that mines on the wallet's chain, killed at any moment
-/

namespace BCT.Props
open BCT

section
variable {E : Env} {S : SigScheme} {w : Address} {secret : BytesN 32} {T : UInt64} {K M N : Nat} {n : Spec.Node} {t : Tree}

/-! ## The calls of a round -/

/-- What a round calls once a nonce is found. -/
def deriveOps (w : Address) (pow : BytesN 32) (c : UInt64) : List Op :=
  [.emitDerivative pow w c, .addGas w.val MAIN_CHAIN_PAYMENT, .derivFlush w, .flush]

theorem derivFlush_open (h : IsOpen w t) : (Op.derivFlush w).run E t = Tree.onDeriv w DerivativeChain.flush t := by
  show (Tree.getDerivativeChain E w >>= fun _ => Tree.onDeriv w DerivativeChain.flush) t = _
  rw [Act.bind_ok (get_open h)]
  rfl

theorem chain_written (p : Hash) {f : Bytes} (hf : f.length < 96) (x : U256 × Hash × Hash) :
    DerivativeChain.readConfig p (some f) ≠ .ok x := by
  unfold DerivativeChain.readConfig
  simp only
  split
  · split
    · rw [dif_neg (by omega)]; exact fun h => by cases h
    · exact fun h => by cases h
  · exact fun h => by cases h

/-- The blocks below `M` are in every state the files of the chain may be found in, and the config file, if it can be read,
has a height between `M` and that of the chain. -/
structure ChainFile (m0 : KV) (M : Nat) (c : Chain) : Prop where
  blocks : ∀ m, m = c.blocks.cur ∨ m ∈ c.blocks.recov → ∀ q : U256, q.val < M → m.get q.toBE.val = m0.get q.toBE.val
  config : ∀ p h df g, DerivativeChain.readConfig p c.config = .ok (h, df, g) → M ≤ h.val ∧ h.val ≤ c.height.val
  height : M ≤ c.height.val

theorem ChainFile.put {m0 : KV} {c : Chain} (h : ChainFile m0 M c) (v : Bytes) :
    ∀ m, m = (c.blocks.insert c.height.toBE.val v).cur ∨ m ∈ (c.blocks.insert c.height.toBE.val v).recov →
      ∀ q : U256, q.val < M → m.get q.toBE.val = m0.get q.toBE.val := by
  intro m hm q hq
  have hne : q.toBE.val ≠ c.height.toBE.val := fun e => by
    have h1 : q.val = c.height.val := by rw [toBE_inj e]
    have := h.height
    omega
  have key : (c.blocks.cur.insert c.height.toBE.val v).get q.toBE.val = m0.get q.toBE.val := by
    rw [KV.get_insert, if_neg (Ne.symm hne)]
    exact h.blocks _ (.inl rfl) q hq
  rcases hm with rfl | hm
  · exact key
  · rcases List.mem_cons.mp hm with rfl | hm
    · exact key
    · exact h.blocks m (.inr hm) q hq

theorem chainFile_add {m0 : KV} (E : Env) (b : DerivativeBlock) :
    Act.Rel (fun s t : DerivativeChain => ChainFile m0 M s.chain → ChainFile m0 M t.chain ∧
      t.chain.height.val ≤ s.chain.height.val + 1) (DerivativeChain.addBlock E b) :=
  DerivativeChain.addBlock_rel (R := fun s t => ChainFile m0 M s → ChainFile m0 M t ∧ t.height.val ≤ s.height.val + 1)
    (Chain.addBlock_rel E (fun _ h => ⟨h, Nat.le_succ _⟩) _ _
      (fun _ _ h => ⟨⟨h.put _, h.config, h.height⟩, Nat.le_succ _⟩)
      (fun _ _ h => ⟨⟨h.put _, h.config, h.height⟩, Nat.le_succ _⟩)
      (fun _ _ _ h => ⟨⟨h.put _, fun p h' df g hr => ⟨(h.config p h' df g hr).1, Nat.le_succ_of_le (h.config p h' df g hr).2⟩,
        Nat.le_succ_of_le h.height⟩, Nat.le_refl _⟩)) fun _ _ h => h

theorem chainFile_flush {m0 : KV} :
    Act.Rel (fun s t : DerivativeChain => ChainFile m0 M s.chain → ChainFile m0 M t.chain ∧
      t.chain.height.val = s.chain.height.val) DerivativeChain.flush := by
  have C := Act.rel_closed (R := fun s t : DerivativeChain => ChainFile m0 M s.chain → ChainFile m0 M t.chain ∧
      t.chain.height.val = s.chain.height.val) ⟨fun _ h => ⟨h, rfl⟩, fun h1 h2 h => ⟨(h2 (h1 h).1).1, (h2 (h1 h).1).2.trans (h1 h).2⟩⟩
  unfold DerivativeChain.flush DerivativeChain.dumpConfig DerivativeChain.writeConfig
  refine C.bind (C.bind (Act.rel_step fun m h => ⟨⟨h.blocks, fun p _ _ _ hr => absurd hr (chain_written p (by simp) _), h.height⟩, rfl⟩) fun _ =>
    C.bind (Act.rel_step fun m h => ⟨⟨h.blocks, fun p _ _ _ hr => absurd hr (chain_written p (by
      rw [m.chain.height.toBE.property]; decide) _), h.height⟩, rfl⟩) fun _ =>
    C.bind (Act.rel_step fun m h => ⟨⟨h.blocks, fun p _ _ _ hr => absurd hr (chain_written p (by
      rw [List.length_append, m.chain.height.toBE.property, m.chain.difficulty.property]; decide) _), h.height⟩, rfl⟩) fun _ =>
    Act.rel_step fun m h => ⟨⟨h.blocks, fun p h' df g hr => ?_, h.height⟩, rfl⟩) fun _ =>
    C.bind (Act.rel_step fun m h => ⟨⟨fun x hx => h.blocks x ?_, h.config, h.height⟩, rfl⟩) fun _ =>
    Act.rel_step fun m h => ⟨⟨h.blocks, h.config, h.height⟩, rfl⟩
  · have hr' : DerivativeChain.readConfig p (some (m.chain.height.toBE.val ++ m.chain.difficulty.val ++ m.genesisHash.val)) = .ok (h', df, g) := hr
    rw [DerivativeChain.readConfig_written] at hr'
    cases hr'
    exact ⟨h.height, Nat.le_refl _⟩
  · rcases hx with hx | hx
    · exact .inl hx
    · exact .inl (Db.flush_recov hx)

/-- The chain of `w` is open, and its files are as above; its height is at most `H`. -/
structure OpenFile (m0 : KV) (w : Address) (M H : Nat) (t : Tree) : Prop where
  isOpen : IsOpen w t
  file : ChainFile m0 M (t.handle w).chain
  le : (t.handle w).chain.height.val ≤ H

theorem OpenFile.same {m0 : KV} {H : Nat} {s t : Tree} (h : OpenFile m0 w M H s) (hs : OwnSame w s t) : OpenFile m0 w M H t := by
  have he : t.handle w = s.handle w := by unfold Tree.handle; rw [hs.1, hs.2]
  exact ⟨by unfold IsOpen; rw [hs.2]; exact h.isOpen, by rw [he]; exact h.file, by rw [he]; exact h.le⟩

theorem openFile_put {m0 : KV} {H : Nat} {c : DerivativeChain} (h1 : ChainFile m0 M c.chain) (h2 : c.chain.height.val ≤ H) (t : Tree) :
    OpenFile m0 w M H (Tree.putHandle w c t) :=
  ⟨by unfold IsOpen; rw [Tree.putHandle_mem_self]; rfl, by rw [Tree.handle_put_self]; exact h1, by rw [Tree.handle_put_self]; exact h2⟩

theorem openFile_emit {m0 : KV} {H : Nat} {pow : BytesN 32} {c : UInt64} (h : OpenFile m0 w M H t) :
    Throughout (OpenFile m0 w M (H + 1)) ((Op.emitDerivative pow w c).run E t) := by
  have up : OpenFile m0 w M (H + 1) t := ⟨h.isOpen, h.file, Nat.le_succ_of_le h.le⟩
  suffices Throughout (OpenFile m0 w M (H + 1)) (Tree.emitDerivative E pow w c t) by
    show Throughout _ (Act.void (Tree.emitDerivative E pow w c) t)
    rw [Act.void_run]; exact this
  rw [emitDerivative_checks, Act.bind_ok (get_open h.isOpen)]
  have := throughout_emit (E := E) (P := OpenFile m0 w M (H + 1)) (t := t) (pow := pow) (o := w) (ts := c) (fun b => by
    have := Act.rel_zoom (part := fun t : Tree => t.handle w) (put := Tree.putHandle w)
      (Q := fun a b => a = t → OpenFile m0 w M (H + 1) b) (chainFile_add (m0 := m0) (M := M) E b) (fun s m hm e => by
        subst e
        obtain ⟨h1, h2⟩ := hm h.file
        exact openFile_put h1 (Nat.le_trans h2 (Nat.succ_le_succ h.le)) s) t
    exact ⟨this.1 rfl, fun u hu => this.2 u hu rfl⟩) up
  exact ⟨this.1, fun u hu => this.2 u (by simpa using hu)⟩

theorem openFile_flush {m0 : KV} {H : Nat} (h : OpenFile m0 w M H t) :
    Throughout (OpenFile m0 w M H) ((Op.derivFlush w).run E t) := by
  rw [derivFlush_open h.isOpen]
  have := Act.rel_zoom (part := fun t : Tree => t.handle w) (put := Tree.putHandle w)
    (Q := fun a b => a = t → OpenFile m0 w M H b) (chainFile_flush (m0 := m0) (M := M)) (fun s m hm e => by
      subst e
      obtain ⟨h1, h2⟩ := hm h.file
      exact openFile_put h1 (by rw [h2]; exact h.le) s) t
  exact ⟨this.1 rfl, fun u hu => this.2 u hu rfl⟩

theorem openFile_other {m0 : KV} {H : Nat} {op : Op} (ho : owner op ≠ some w) (h : OpenFile m0 w M H t) :
    Throughout (OpenFile m0 w M H) (op.run E t) :=
  ⟨h.same (op_ownSame E w op ho t).1, fun u hu => h.same ((op_ownSame E w op ho t).2 u hu)⟩

theorem stops_later {m0 : KV} {H : Nat} {ops : List Op} {u : Tree} (h : Stops E t ops u) :
    (∀ op ∈ ops, op = .derivFlush w ∨ owner op ≠ some w) → OpenFile m0 w M H t → OpenFile m0 w M H u := by
  have one : ∀ {op : Op} {t : Tree}, (op = .derivFlush w ∨ owner op ≠ some w) → OpenFile m0 w M H t →
      Throughout (OpenFile m0 w M H) (op.run E t) := by
    rintro op t (rfl | ho) h
    · exact openFile_flush h
    · exact openFile_other ho h
  induction h with
  | idle s => exact fun _ h => h
  | within s op t ht => exact fun ho h => (one (ho op List.mem_cons_self) h).2 t ht
  | after s op ops t _ ih =>
    exact fun ho h => ih (fun o hm => ho o (List.mem_cons_of_mem _ hm)) (one (ho op List.mem_cons_self) h).1

theorem stops_openFile {m0 : KV} {H : Nat} {pow : BytesN 32} {c : UInt64} {ops : List Op} {u : Tree} (h : Stops E t ops u)
    (ho : ops <+: deriveOps w pow c) (h0 : OpenFile m0 w M H t) : OpenFile m0 w M (H + 1) u := by
  cases h with
  | idle _ => exact ⟨h0.isOpen, h0.file, Nat.le_succ_of_le h0.le⟩
  | within _ op _ ht =>
    obtain ⟨l, hl⟩ := ho
    injection hl with hl _
    subst hl
    exact (openFile_emit h0).2 _ ht
  | after _ op ops _ hs =>
    obtain ⟨l, hl⟩ := ho
    injection hl with hl hl'
    subst hl
    refine stops_later hs (fun o hm => ?_) (openFile_emit h0).1
    have : o ∈ ops ++ l := List.mem_append_left _ hm
    rw [show ops ++ l = _ from hl'] at this
    simp only [List.mem_cons, List.not_mem_nil, or_false] at this
    rcases this with rfl | rfl | rfl
    · exact .inr (by simp [owner])
    · exact .inl rfl
    · exact .inr (by simp [owner])

theorem finishChain_trace {m0 : KV} {H : Nat} {c : UInt64} {pow : BytesN 32} {u : Tree} (h0 : OpenFile m0 w M H t)
    (h : u ∈ (Example.finishChain E w c (some pow) t).trace) : ∃ ops, ops <+: deriveOps w pow c ∧ Stops E t ops u := by
  unfold Example.finishChain at h
  simp only at h
  rcases call_trace h with h | h
  · exact ⟨[_], List.prefix_append [_] _, .within _ _ _ h⟩
  rcases call_trace h with h | h
  · exact ⟨[_, _], List.prefix_append [_, _] _, .after _ _ _ _ (.within _ _ _ h)⟩
  have h1 := (openFile_other (E := E) (op := .addGas w.val MAIN_CHAIN_PAYMENT) (by simp [owner]) (openFile_emit (E := E) (pow := pow) (c := c) h0).1).1
  generalize hS : ((Op.addGas w.val MAIN_CHAIN_PAYMENT).run E ((Op.emitDerivative pow w c).run E t).final).final = t2 at h h1
  have c3 : Example.flushChain w t2 =
      ⟨.ok (), ((Op.derivFlush w).run E t2).final, ((Op.derivFlush w).run E t2).trace⟩ := by
    rw [derivFlush_open h1.isOpen]; rfl
  rw [Act.bind_ok c3] at h
  rcases List.mem_append.mp h with h | h
  · exact ⟨[_, _, _], List.prefix_append [_, _, _] _, .after _ _ _ _ (.after _ _ _ _ (.within _ _ _ (by rw [hS]; exact h)))⟩
  rcases call_trace h with h | h
  · exact ⟨[_, _, _, _], List.prefix_append [_, _, _, _] _,
      .after _ _ _ _ (.after _ _ _ _ (.after _ _ _ _ (.within _ _ _ (by rw [hS]; exact h))))⟩
  · cases h

/-! ## The ledgers at every moment -/

theorem derive_prefix {pow : BytesN 32} {c : UInt64} {ops : List Op} (ho : ops <+: deriveOps w pow c) {P : List Op → Prop}
    (h0 : P []) (h1 : P [.emitDerivative pow w c]) (h2 : P [.emitDerivative pow w c, .addGas w.val MAIN_CHAIN_PAYMENT])
    (h3 : P [.emitDerivative pow w c, .addGas w.val MAIN_CHAIN_PAYMENT, .derivFlush w])
    (h4 : P [.emitDerivative pow w c, .addGas w.val MAIN_CHAIN_PAYMENT, .derivFlush w, .flush]) : P ops := by
  unfold deriveOps at ho
  simp only [List.prefix_cons_iff, List.prefix_nil] at ho
  rcases ho with rfl | ⟨_, rfl, rfl | ⟨_, rfl, rfl | ⟨_, rfl, rfl | ⟨_, rfl, rfl⟩⟩⟩⟩
  · exact h0
  · exact h1
  · exact h2
  · exact h3
  · exact h4

/-- What a round does not change. -/
theorem derive_frame {pow : BytesN 32} {c : UInt64} {ops : List Op} (ho : ops <+: deriveOps w pow c) {p : Part}
    (hp : p = .coins ∨ p = .height) : p.Same t (runAll E t ops) := by
  have P := same_preord p
  have a1 : ∀ t, p.Same t ((Op.emitDerivative pow w c).run E t).final := fun t =>
    (C104_frame E _ p (by rcases hp with rfl | rfl <;> simp [mayChange]) t).1
  have a2 : ∀ t, p.Same t ((Op.addGas w.val MAIN_CHAIN_PAYMENT).run E t).final := fun t =>
    (C104_frame E _ p (by rcases hp with rfl | rfl <;> simp [mayChange]) t).1
  have a3 : ∀ t, p.Same t ((Op.derivFlush w).run E t).final := fun t =>
    (C104_frame E _ p (by rcases hp with rfl | rfl <;> simp [mayChange]) t).1
  have a4 : ∀ t, p.Same t (Op.flush.run E t).final := fun t =>
    (C104_frame E _ p (by rcases hp with rfl | rfl <;> simp [mayChange]) t).1
  exact derive_prefix ho (P := fun ops => p.Same t (runAll E t ops)) (P.refl t) (a1 t) (P.trans (a1 t) (a2 _))
    (P.trans (P.trans (a1 t) (a2 _)) (a3 _)) (P.trans (P.trans (P.trans (a1 t) (a2 _)) (a3 _)) (a4 _))

/-- What the wallet has in a state of the gas database, with the payment for one more block or without it. -/
def GasNear (m : KV) (w : Address) (x : Nat) : Prop :=
  (∃ y pay, holds m w = .ok y ∧ y.val = x + pay ∧ (pay = 0 ∨ pay = 25000000000000000)) ∧
  ∀ a, a ≠ w → holds m a = .ok U256.zero

theorem gas_states (h : Matches E t n) (r : Ready E w T K M N n) (hb : K + M < 10 ^ 50) {c : Hash × List DerivativeBlock}
    (hcc : n.chains w = some c) {clock : UInt64} (hc : E.overflowChecks = true → T ≤ clock) {p : Hash × Hash × UInt64}
    (hp : baseOf E n c = some p) {pow : BytesN 32} (hwork : Spec.enoughWork E p.1 p.2.1 [] pow = true) {ops : List Op}
    (ho : ops <+: deriveOps w pow clock) : GasNear (runAll E t ops).gas.cur w (n.gas.get w.val) := by
  have hsz := size_big
  obtain ⟨n1, n2, s1, s2, r2, c', hc'⟩ := r.derived hb hc hcc hp hwork
  obtain ⟨_, m1, k1⟩ := Example.call_done h r.short (by omega) s1
  obtain ⟨_, m2, k2⟩ := Example.call_done m1 k1 (by omega) s2
  have others : ∀ {t' : Tree} {n' : Spec.Node} {M' : Nat} {T' : UInt64}, Matches E t' n' → Ready E w T' K M' N n' →
      ∀ a, a ≠ w → holds t'.gas.cur a = .ok U256.zero := fun m r => (fuelled_of m r).others
  have e0 : GasNear t.gas.cur w (n.gas.get w.val) := by
    obtain ⟨x, x1, x2⟩ := Example.gas_ok h w
    exact ⟨⟨x, 0, x1, x2, .inl rfl⟩, others h r⟩
  have e2 : GasNear (runAll E t [.emitDerivative pow w clock, .addGas w.val MAIN_CHAIN_PAYMENT]).gas.cur w (n.gas.get w.val) := by
    obtain ⟨x, x1, x2⟩ := Example.gas_ok m2 w
    refine ⟨⟨x, 25000000000000000, x1, ?_, .inr rfl⟩, others m2 r2⟩
    have g1 := r.gas
    have g2 := r2.gas
    omega
  have a1 : ((Op.emitDerivative pow w clock).run E t).final.gas.cur = t.gas.cur := (C104_frame E _ .gas (by simp [mayChange]) t).1
  have a3 : ∀ t, ((Op.derivFlush w).run E t).final.gas.cur = t.gas.cur := fun t => (C104_frame E _ .gas (by simp [mayChange]) t).1
  have a4 : ∀ t, (Op.flush.run E t).final.gas.cur = t.gas.cur := fun t => (C104_frame E _ .gas (by simp [mayChange]) t).1
  have e3 : GasNear (runAll E t [.emitDerivative pow w clock, .addGas w.val MAIN_CHAIN_PAYMENT, .derivFlush w]).gas.cur w
      (n.gas.get w.val) := by
    show GasNear ((Op.derivFlush w).run E _).final.gas.cur w _
    rw [a3]; exact e2
  refine derive_prefix ho (P := fun ops => GasNear (runAll E t ops).gas.cur w (n.gas.get w.val)) e0 ?_ e2 e3 ?_
  · show GasNear ((Op.emitDerivative pow w clock).run E t).final.gas.cur w _
    rw [a1]; exact e0
  · show GasNear (Op.flush.run E _).final.gas.cur w _
    rw [a4]; exact e3

/-- The node at the beginning of a round. -/
structure DeriveStart (E : Env) (w : Address) (T : UInt64) (K M N : Nat) (t : Tree) (n : Spec.Node) : Prop where
  same : Matches E t n
  ready : Ready E w T K M N n
  chain : ∃ c, n.chains w = some c
  coins : ∀ m ∈ t.summary.recov, ∀ a : Address, a ≠ ROOT_PUBLIC_ADDRESS ∨ 0 < K → holds m a = holds t.summary.cur a
  gas : ∀ m ∈ t.gas.recov, ∀ a : Address, holds m a = holds t.gas.cur a
  files : OnFile t.main.chain.blocks.cur (if K = 0 then 0 else K + 1) (K + 1) t.main
  own : OpenFile (t.handle w).chain.blocks.cur w M M t

/-- The node, `u`, at a moment of a round that began in `t`. -/
structure DeriveDuring (w : Address) (K M x : Nat) (t u : Tree) : Prop where
  coins : ∀ m ∈ u.summary.recov, ∀ a : Address, a ≠ ROOT_PUBLIC_ADDRESS ∨ 0 < K → holds m a = holds t.summary.cur a
  gas : ∀ m ∈ u.gas.recov, GasNear m w x
  files : OnFile t.main.chain.blocks.cur (if K = 0 then 0 else K + 1) (K + 1) u.main
  height : u.main.chain.height.val ≤ K + 1
  own : OpenFile (t.handle w).chain.blocks.cur w M (M + 1) u

theorem DeriveStart.during (hs : DeriveStart E w T K M N t n) : DeriveDuring w K M (n.gas.get w.val) t t := by
  have hh : t.main.chain.height.val = K + 1 := by rw [← hs.ready.length]; exact hs.same.height
  refine ⟨hs.coins, fun m hm => ?_, hs.files, Nat.le_of_eq hh, hs.own.isOpen, hs.own.file, Nat.le_succ_of_le hs.own.le⟩
  obtain ⟨x, x1, x2⟩ := Example.gas_ok hs.same w
  exact ⟨⟨x, 0, (hs.gas m hm w).trans x1, x2, .inl rfl⟩, fun a ha => (hs.gas m hm a).trans ((fuelled_of hs.same hs.ready).others a ha)⟩

theorem derive_killed (hs : DeriveStart E w T K M N t n) (hb : K + M < 10 ^ 50) {c : UInt64}
    (hc : E.overflowChecks = true → T ≤ c) {u : Tree} (hu : u ∈ (Example.deriveRound E w c t).trace) :
    DeriveDuring w K M (n.gas.get w.val) t u := by
  have h := hs.same
  have r := hs.ready
  obtain ⟨ch, hcc⟩ := hs.chain
  obtain ⟨_, hgas, _⟩ := Example.gas_ok h w
  obtain ⟨p, hp, hpair⟩ := Example.follows_run h r hcc
  have hrun : Example.deriveRound E w c t = Example.finishChain E w c (Example.search E p.1 p.2.1 []) t := by
    unfold Example.deriveRound
    rw [Example.ask_bind hgas, Example.quiet_bind hpair]
  rw [hrun] at hu
  cases hse : Example.search E p.1 p.2.1 [] with
  | none =>
    rw [hse] at hu
    cases hu
  | some pow =>
    rw [hse] at hu
    obtain ⟨ops, ho, hst⟩ := finishChain_trace hs.own hu
    obtain ⟨f1, f2⟩ := stops_onFile hst hs.files
    have hh : t.main.chain.height.val = K + 1 := by rw [← r.length]; exact h.height
    refine ⟨fun m hm a ha => ?_, fun m hm => ?_, f1, ?_, stops_openFile hst ho hs.own⟩
    · rcases stops_recov (p := Tree.summary) (fun op s => op.once_summary s) hst hm with hm | ⟨k, hk, rfl⟩
      · exact hs.coins m hm a ha
      · rw [show (runAll E t (ops.take k)).summary.cur = t.summary.cur from
          derive_frame ((List.take_prefix k ops).trans ho) (p := .coins) (.inl rfl)]
    · rcases stops_recov (p := Tree.gas) (fun op s => op.once_gas s) hst hm with hm | ⟨k, hk, rfl⟩
      · exact hs.during.gas m hm
      · exact gas_states h r hb hcc hc hp (Example.search_some hse) ((List.take_prefix k ops).trans ho)
    · rw [show (runAll E t ops).main.chain.height = t.main.chain.height from derive_frame ho (p := .height) (.inr rfl), hh] at f2
      exact f2

/-! ## Opening the wallet's chain -/

theorem chain_height_read {p p' : Hash} {f : Option Bytes} {h h' : U256} {df df' g g' : Hash}
    (h1 : DerivativeChain.readConfig p f = .ok (h, df, g)) (h2 : DerivativeChain.readConfig p' f = .ok (h', df', g')) : h = h' := by
  cases f with
  | none => cases h1; cases h2; rfl
  | some f =>
    have : DerivativeChain.readConfig p (some f) = DerivativeChain.readConfig p' (some f) := rfl
    rw [this, h2] at h1
    cases h1
    rfl

theorem opened_chain {d : Disk} (hg : ((Op.getDerivativeChain w).run E (openTree E d).final).out = .ok ()) :
    ∃ c b, (Op.getDerivativeChain w).run E (openTree E d).final =
        ⟨.ok (), Tree.putHandle w c (openTree E d).final, [Tree.putHandle w c (openTree E d).final]⟩ ∧
      c.chain.blocks = Db.open' (d.deriv (hexEncode w.val)).blocks ∧
      c.chain.heightReference = Db.open' (d.deriv (hexEncode w.val)).heightReference ∧
      c.chain.config = (d.deriv (hexEncode w.val)).config ∧ (openTree E d).final.main.getLastBlock = .ok (some b) ∧
      DerivativeChain.readConfig (b.hash E) (d.deriv (hexEncode w.val)).config = .ok (c.chain.height, c.chain.difficulty, c.genesisHash) := by
  have hg' : (Tree.getDerivativeChain E w (openTree E d).final).out = .ok () := hg
  obtain ⟨e1, e2⟩ := opening_deriv (E := E) (d := d) (.inr rfl)
  rcases Tree.getDeriv_cases E w (openTree E d).final with ⟨hm, _⟩ | ⟨_, ⟨out, hout, e⟩ | ⟨b, c, hb, hc, e⟩⟩
  · rw [e2] at hm; cases hm
  · rw [e] at hg'; exact absurd hg' (hout ())
  · rw [e1] at hc
    have hc' : DerivativeChain.new (b.hash E) (Db.open' (d.deriv (hexEncode w.val)).blocks)
        (Db.open' (d.deriv (hexEncode w.val)).heightReference) (d.deriv (hexEncode w.val)).config = .ok c := hc
    unfold DerivativeChain.new at hc'
    cases hr : DerivativeChain.readConfig (b.hash E) (d.deriv (hexEncode w.val)).config with
    | ok x =>
      rw [hr] at hc'
      cases hc'
      exact ⟨_, b, e, rfl, rfl, rfl, hb, by obtain ⟨x1, x2, x3⟩ := x; exact hr⟩
    | err x => rw [hr] at hc'; cases hc'
    | panic x => rw [hr] at hc'; cases hc'
    | ub => rw [hr] at hc'; cases hc'

/-- Opening the chain changes no file. -/
theorem opened_files {d : Disk} (hg : ((Op.getDerivativeChain w).run E (openTree E d).final).out = .ok ()) {d' : Disk}
    (h : Crash (openTree E d).final d') : Crash ((Op.getDerivativeChain w).run E (openTree E d).final).final d' := by
  obtain ⟨c, b, e, h1, h2, h3, _, _⟩ := opened_chain hg
  rw [e]
  refine ⟨h.blocks, h.heightReference, h.transactions, h.config, h.summary, h.oldSummary, h.gas, h.oldGas, fun n => ?_⟩
  have hn := h.deriv n
  show _ ∈ (if n = hexEncode w.val then (⟨c.chain.blocks, c.chain.heightReference, c.chain.config⟩ : DerivFiles)
    else (openTree E d).final.derivFiles n).blocks.recov ∧ _
  simp only [Tree.putHandle]
  split
  · rename_i hnw
    rw [(opening_deriv (E := E) (d := d) (.inr rfl)).1] at hn
    rw [h1, h2, h3, ← hnw]
    exact hn
  · exact hn

theorem DeriveStart.opened (hw : w ≠ ROOT_PUBLIC_ADDRESS) {d : Disk} (ho : (openTree E d).out = .ok ())
    (hs : Begun E w T K M N (openTree E d).final n) (hb : K + M < 10 ^ 50) :
    ((Op.getDerivativeChain w).run E (openTree E d).final).out = .ok () ∧
    ∃ n', DeriveStart E w T K M N ((Op.getDerivativeChain w).run E (openTree E d).final).final n' := by
  have hsz := size_big
  obtain ⟨n1, s1, r1, o1⟩ := hs.ready.opens
  have hok := call_ok hs.same hs.ready.short (by omega) s1
  obtain ⟨c1, m1, _⟩ := Example.call_done hs.same hs.ready.short (by omega) s1
  have hstart := RoundStart.opened hw ho hs
  have hh : (openTree E d).final.main.chain.height.val = K + 1 := by rw [← hs.ready.length]; exact hs.same.height
  refine ⟨hok, n1, ?_⟩
  obtain ⟨ch, hch⟩ := Option.isSome_iff_exists.mp o1
  have hown := ownChain_of m1 r1 (by omega) hch
  obtain ⟨c, b, e, h1, h2, h3, _, h5⟩ := opened_chain hok
  rw [e] at m1 hown ⊢
  have hht : c.chain.height.val = M := by
    have := hown.height
    rw [Tree.handle_put_self] at this
    exact this
  refine ⟨m1, r1, ⟨ch, hch⟩, fun m hm a ha => ?_, fun m hm a => ?_, hstart.files, ?_⟩
  · have hm' : m ∈ (openTree E d).final.summary.recov := hm
    show holds m a = holds (openTree E d).final.summary.cur a
    rw [(opened_ledgers ho).1] at hm' ⊢
    unfold seedSummary at hm' ⊢
    split at hm'
    · rename_i h1'
      have hK : K = 0 := by
        have : (openTree E d).final.main.chain.height = U256.one := h1'
        rw [this] at hh
        have : U256.one.val = 1 := rfl
        omega
      have ha' : a ≠ ROOT_PUBLIC_ADDRESS := by
        rcases ha with ha | ha
        · exact ha
        · omega
      rw [if_pos h1']
      have hne : ¬ ROOT_PUBLIC_ADDRESS.val = a.val := fun e => ha' (Subtype.ext e.symm)
      have key : holds (d.summary.insert ROOT_PUBLIC_ADDRESS.val (Ledger.encode COINS_PER_CYCLE)) a = holds d.summary a := by
        unfold holds
        rw [KV.get_insert, if_neg hne]
      rcases List.mem_cons.mp hm' with rfl | hm'
      · rfl
      · rw [List.mem_singleton.mp hm']
        exact key.symm
    · rename_i h1'
      rw [if_neg h1', List.mem_singleton.mp hm']
      rfl
  · have hm' : m ∈ (openTree E d).final.gas.recov := hm
    show holds m a = holds (openTree E d).final.gas.cur a
    rw [(opened_ledgers ho).2] at hm' ⊢
    rw [List.mem_singleton.mp hm']
    rfl
  · refine openFile_put ⟨fun m hm q _ => ?_, fun p h' df g hr => ?_, Nat.le_of_eq hht.symm⟩ (Nat.le_of_eq hht) _
    · rw [Tree.handle_put_self]
      rcases hm with rfl | hm
      · rfl
      · rw [h1] at hm ⊢
        rw [List.mem_singleton.mp hm]
        rfl
    · rw [h3] at hr
      rw [chain_height_read hr h5]
      exact ⟨Nat.le_of_eq hht.symm, Nat.le_refl _⟩

theorem DeriveStart.lasting (h : Lasting E n t) (hm : Matches E t n) (r : Ready E w T K M N n) {c : Hash × List DerivativeBlock}
    (hcc : n.chains w = some c) (hb : K + M < 10 ^ 50) : DeriveStart E w T K M N t n := by
  have hf := (RoundStart.lasting h hm r).files
  have hown := ownChain_of hm r (by omega) hcc
  have hopen : IsOpen w t := (hm.opened w c hcc).1
  obtain ⟨t', rfl, _, h2⟩ := h
  have hset := h2 w (by rw [hcc]; rfl)
  rw [(flush_op E t').2] at hm hf hown hopen ⊢
  have he : t'.flushed.handle w = t'.handle w := rfl
  refine ⟨hm, r, ⟨c, hcc⟩, fun m hm a _ => ?_, fun m hm a => ?_, hf, hopen, ⟨fun m hm q _ => ?_, fun p h' df g hr => ?_, ?_⟩, ?_⟩
  · rw [Db.flush_recov hm]; rfl
  · rw [Db.flush_recov hm]; rfl
  · rw [he] at hm ⊢
    rcases hm with rfl | hm
    · rfl
    · rw [hset.blocks m hm]; rfl
  · rw [he] at hr ⊢
    have e : (t'.handle w).chain.config = some (t'.handle w).saved := hset.config
    rw [e, show DerivativeChain.readConfig p (some (t'.handle w).saved) = _ from DerivativeChain.readConfig_written _ _ _ _] at hr
    cases hr
    have := hown.height
    rw [he] at this
    exact ⟨Nat.le_of_eq this.symm, Nat.le_refl _⟩
  · exact Nat.le_of_eq hown.height.symm
  · exact Nat.le_of_eq hown.height

/-! ## What the next program finds -/

/-- The wallet's chain as it is found after the example was killed: `M` blocks that were flushed, or one more; the wallet has
gas for `M` blocks, or for one more; nobody else has gas. -/
structure ChainNearly (t : Tree) (w : Address) (M N : Nat) : Prop where
  height : (t.handle w).chain.height.val = M ∨ (t.handle w).chain.height.val = M + 1
  founder : ∀ i, i < M → ∃ b, (t.handle w).findByHeight (U256.ofNat i) = .ok (some b) ∧ b.defaultInfo.founder = w
  gas : ∃ x pay, t.getGas w = .ok x ∧ x.val + 88125000000000 * N = 25000000000000000 * M + pay ∧ (pay = 0 ∨ pay = 25000000000000000)
  others : ∀ a, a ≠ w → t.getGas a = .ok U256.zero

theorem derive_main (hw : w ≠ ROOT_PUBLIC_ADDRESS) (hs : DeriveStart E w T K M N t n) (hb : K + M < 10 ^ 50) {u : Tree} {x : Nat} (hu : DeriveDuring w K M x t u)
    {d : Disk} (hc : Crash u d) (ho : (openTree E d).out = .ok ()) : Paid (openTree E d).final w K N := by
  have hsz := size_big
  have hp := paid_of hs.same hs.ready (by omega)
  have hh : (openTree E d).final.main.getHeight.val = K + 1 := by
    rcases openTree_cases d with h | ⟨h, df, hr, hp⟩ | ⟨df, hr⟩
    · rw [openTree_torn h] at ho
      cases ho
    · rw [(openTree_pos (E := E) hr hp).2]
      show h.val = _
      rw [hc.config] at hr
      obtain ⟨a, b⟩ := hu.files.config h df hr
      have := hu.height
      omega
    · rw [(openTree_zero (E := E) hr).2]
      show 1 = _
      rw [hc.config] at hr
      obtain ⟨a, b⟩ := hu.files.config _ df hr
      have : U256.zero.val = 0 := rfl
      omega
  have hblocks : ∀ i, i ≤ K → 0 < K → (openTree E d).final.main.findByHeight (U256.ofNat i) = t.main.findByHeight (U256.ofNat i) := by
    intro i hi hK
    have hv : (U256.ofNat i).val = i := ofNat_val (by omega)
    have hm := hu.files.blocks d.blocks (.inr hc.blocks) (U256.ofNat i) (by rw [hv, if_neg (by omega)]; omega)
    have : (openTree E d).final.main.findRawByHeight (U256.ofNat i) = d.blocks.get (U256.ofNat i).toBE.val := by
      rcases openTree_cases d with h | ⟨h, df, hr, hp⟩ | ⟨df, hr⟩
      · rw [openTree_torn h] at ho
        cases ho
      · rw [(openTree_pos (E := E) hr hp).2] at hh ⊢
        have hge : h.val = K + 1 := hh
        unfold MainChain.findRawByHeight Chain.findRawByHeight
        rw [if_neg (by show ¬ h.val < _; omega)]
        rfl
      · rw [(openTree_zero (E := E) hr).2] at hh
        have hh' : 1 = K + 1 := hh
        omega
    unfold MainChain.findByHeight
    have hraw : t.main.findRawByHeight (U256.ofNat i) = t.main.chain.blocks.cur.get (U256.ofNat i).toBE.val := by
      have hl : t.main.chain.height.val = n.blocks.length := hs.same.height
      unfold MainChain.findRawByHeight Chain.findRawByHeight
      rw [if_neg (by rw [hl, hs.ready.length]; omega)]
      rfl
    rw [this, hm, hraw]
  have hcoins : ∀ a, a ≠ ROOT_PUBLIC_ADDRESS ∨ 0 < K → (openTree E d).final.getAmount a = t.getAmount a := by
    intro a ha
    have h1 := hu.coins d.summary hc.summary a ha
    have h2 : (openTree E d).final.getAmount a = holds d.summary a := by
      unfold Tree.getAmount
      rw [(opened_ledgers ho).1, seed_other]
      · rfl
      · rcases ha with ha | ha
        · exact .inr (fun e => ha (Subtype.ext e))
        · exact .inl (by rw [hh]; omega)
    rw [h2, h1]
    rfl
  refine ⟨hh, fun i h0 hi => ?_, ?_, ?_, fun a h1 h2 => ?_⟩
  · rw [hblocks i hi (by omega)]
    exact hp.founder i h0 hi
  · obtain ⟨x, x1, x2⟩ := hp.wallet
    refine ⟨x, by rw [hcoins w (.inl hw)]; exact x1, ?_⟩
    have : (List.range K).map (feeAt (openTree E d).final) = (List.range K).map (feeAt t) := by
      apply List.map_congr_left
      intro i hi
      rw [List.mem_range] at hi
      unfold feeAt
      rw [hblocks i (by omega) (by omega)]
    rw [this]
    exact x2
  · by_cases hK : 0 < K
    · obtain ⟨x, s, x1, x2, x3⟩ := hp.root
      exact ⟨x, s, by rw [hcoins _ (.inr hK)]; exact x1, x2, x3⟩
    · obtain rfl : K = 0 := by omega
      refine ⟨COINS_PER_CYCLE, 0, ?_, Nat.zero_le _, by decide⟩
      have h1 : (openTree E d).final.main.getHeight = U256.one := U256.ext hh
      unfold Tree.getAmount
      rw [(opened_ledgers ho).1, h1]
      unfold seedSummary
      rw [if_pos rfl, Db.get_insert, if_pos rfl]
      exact Ledger.balance_encode _
  · rw [hcoins a (.inl h2)]
    exact hp.others a h1 h2

theorem derive_chain (hs : DeriveStart E w T K M N t n) (hb : K + M < 10 ^ 50) {u : Tree} (hu : DeriveDuring w K M (n.gas.get w.val) t u)
    {d : Disk} (hc : Crash u d) (ho : (openTree E d).out = .ok ())
    (hg : ((Op.getDerivativeChain w).run E (openTree E d).final).out = .ok ()) :
    ChainNearly ((Op.getDerivativeChain w).run E (openTree E d).final).final w M N := by
  have hsz := size_big
  obtain ⟨ch, hch⟩ := hs.chain
  have hown := ownChain_of hs.same hs.ready (by omega) hch
  obtain ⟨c, b, e, h1, h2, h3, _, h5⟩ := opened_chain hg
  obtain ⟨c1, _, c3⟩ := hc.deriv (hexEncode w.val)
  rw [e]
  have hread : DerivativeChain.readConfig (b.hash E) (u.handle w).chain.config = .ok (c.chain.height, c.chain.difficulty, c.genesisHash) := by
    rw [← h5, c3]; rfl
  obtain ⟨g1, g2⟩ := hu.own.file.config _ _ _ _ hread
  have hle := hu.own.le
  have hgas : ∀ a, Tree.getGas (Tree.putHandle w c (openTree E d).final) a = holds d.gas a := by
    intro a
    show Tree.getGas (openTree E d).final a = _
    unfold Tree.getGas
    rw [(opened_ledgers ho).2]
    rfl
  obtain ⟨⟨y, pay, y1, y2, y3⟩, y4⟩ := hu.gas d.gas hc.gas
  refine ⟨?_, fun i hi => ?_, ⟨y, pay, by rw [hgas]; exact y1, ?_, y3⟩, fun a ha => by rw [hgas]; exact y4 a ha⟩
  · rw [Tree.handle_put_self]
    omega
  · rw [Tree.handle_put_self]
    obtain ⟨blk, k1, k2⟩ := hown.founder i hi
    refine ⟨blk, ?_, k2⟩
    have hv : (U256.ofNat i).val = i := ofNat_val (by omega)
    rw [← k1]
    unfold DerivativeChain.findByHeight Chain.findRawByHeight
    have hh := hown.height
    rw [if_neg (by omega), if_neg (by omega)]
    have hm := hu.own.file.blocks (d.deriv (hexEncode w.val)).blocks (.inr c1) (U256.ofNat i) (by omega)
    rw [h1]
    exact congrArg DerivativeChain.decode hm
  · have := hs.ready.gas
    omega

/-- C153, what holds: at whatever moment the example is killed, if the directory can be opened then the main chain and the
coins are as before, and if the wallet's chain can be opened then nothing of it that was flushed is lost, and the chain and the gas are each
at most one block ahead of what was flushed. (Missing: that the chain and the gas agree about this block, and that both can
be opened.) -/
theorem C153_off_by_one_partial (hw : w ≠ ROOT_PUBLIC_ADDRESS) {js : List (Job × Nat)} {d : Disk}
    (h : Sessions E S w secret T js d) (cs : List UInt64) (hf : E.overflowChecks = true → Forward T cs)
    (hb : roundsOf js + cs.length < 10 ^ 50) (u : Tree)
    (hu : u = (openTree E d).final ∨ u ∈ ((Job.derive cs).run E S w secret (openTree E d).final).trace) (d' : Disk) (hc : Crash u d')
    (ho : (openTree E d').out = .ok ()) :
    Paid (openTree E d').final w (mainBlocks js) (sentBy js) ∧
    (((Op.getDerivativeChain w).run E (openTree E d').final).out = .ok () → ∃ M, chainBlocks js ≤ M ∧ M ≤ chainBlocks js + cs.length ∧
      ChainNearly ((Op.getDerivativeChain w).run E (openTree E d').final).final w M (sentBy js)) := by
  obtain ⟨h1, ⟨n, hs⟩, hN, hR⟩ := sessions_ready hw h (by omega)
  obtain ⟨hok, n1, hstart⟩ := DeriveStart.opened hw h1 hs (by omega)
  have c1 : Example.call E (.getDerivativeChain w) (openTree E d).final = ⟨.ok (),
      ((Op.getDerivativeChain w).run E (openTree E d).final).final, ((Op.getDerivativeChain w).run E (openTree E d).final).trace⟩ := by
    unfold Example.call; rw [hok]; rfl
  have key : ∃ T' j t' n', j ≤ cs.length ∧ DeriveStart E w T' (mainBlocks js) (chainBlocks js + j) (sentBy js) t' n' ∧
      mainBlocks js + (chainBlocks js + j) < 10 ^ 50 ∧
      ∃ u', DeriveDuring w (mainBlocks js) (chainBlocks js + j) (n'.gas.get w.val) t' u' ∧ Crash u' d' := by
    have start : ∃ T' j t' n', j ≤ cs.length ∧ DeriveStart E w T' (mainBlocks js) (chainBlocks js + j) (sentBy js) t' n' ∧
        mainBlocks js + (chainBlocks js + j) < 10 ^ 50 ∧ t' = ((Op.getDerivativeChain w).run E (openTree E d).final).final ∧
        DeriveDuring w (mainBlocks js) (chainBlocks js + j) (n'.gas.get w.val) t' t' :=
      ⟨T, 0, _, n1, Nat.zero_le _, hstart, by omega, rfl, hstart.during⟩
    rcases hu with rfl | hu
    · obtain ⟨T', j, t', n', a1, a2, a3, rfl, a4⟩ := start
      exact ⟨T', j, _, n', a1, a2, a3, _, a4, opened_files hok hc⟩
    · have hu' : u ∈ ((Example.call E (.getDerivativeChain w) >>= fun _ => Example.rounds (Example.deriveRound E w) cs)
          (openTree E d).final).trace := hu
      rw [Act.bind_ok c1] at hu'
      rcases List.mem_append.mp hu' with hu' | hu'
      · obtain ⟨T', j, t', n', a1, a2, a3, rfl, a4⟩ := start
        obtain ⟨c, b, e, _⟩ := opened_chain hok
        refine ⟨T', j, _, n', a1, a2, a3, _, a4, ?_⟩
        rw [e] at hu' ⊢
        rw [List.mem_singleton.mp hu'] at hc
        exact hc
      · obtain ⟨T', j, t', c, ⟨n', a1⟩, a3, a4, a5, a6⟩ := rounds_trace (ch := E.overflowChecks)
          (P := fun T' i t' => ∃ n', DeriveStart E w T' (mainBlocks js) (chainBlocks js + i) (sentBy js) t' n')
          (bound := cs.length) (u := u) (fun T' i t' c ⟨n', b1⟩ hc hi => by
            obtain ⟨ch, b2⟩ := b1.chain
            rcases Example.deriveRound_run b1.same b1.ready (by omega) b2 hc with ⟨g1, _⟩ | ⟨t'', n'', tr, c', g1, g2, g3, g4, g5⟩
            · exact .inl g1
            · exact .inr ⟨t'', tr, g1, n'', DeriveStart.lasting g5 g2 g3 g4 (by omega)⟩)
          cs T 0 _ ⟨n1, hstart⟩ hf (by omega) hu'
        exact ⟨T', j, t', n', by omega, a1, by omega, u, derive_killed a1 (by omega) a3 a6, hc⟩
  obtain ⟨T', j, t', n', a1, a2, a3, u', a4, a5⟩ := key
  exact ⟨derive_main hw a2 a3 a4 a5 ho, fun hg => ⟨_, Nat.le_add_right _ _, Nat.add_le_add_left a1 _, derive_chain a2 a3 a4 a5 ho hg⟩⟩

/-! ## The moments at which it does harm -/

/-- The directory `d` is still in the files of the node just opened on it. -/
theorem opened_crash {d : Disk} (ho : (openTree E d).out = .ok ()) : Crash (openTree E d).final d := by
  have seed : ∀ h : U256, d.summary ∈ (seedSummary h d.boot.summary).recov := by
    intro h
    unfold seedSummary
    split
    · exact List.mem_cons_of_mem _ (List.mem_singleton.mpr rfl)
    · exact List.mem_singleton.mpr rfl
  have one : ∀ m : KV, m ∈ (Db.open' m).recov := fun _ => List.mem_singleton.mpr rfl
  rcases openTree_ok ho with ⟨h, df, hr, hp⟩ | ⟨df, hr⟩
  · rw [(openTree_pos (E := E) hr hp).2]
    exact ⟨one _, one _, one _, rfl, seed _, one _, one _, one _, fun n => ⟨one _, one _, rfl⟩⟩
  · rw [(openTree_zero (E := E) hr).2]
    exact ⟨List.mem_cons_of_mem _ (one _), List.mem_cons_of_mem _ (one _), one _, rfl, seed _, one _, one _, one _,
      fun n => ⟨one _, one _, rfl⟩⟩

/-- Another gas database and other chains change nothing else of the node that is opened. -/
theorem opened_with {d : Disk} (ho : (openTree E d).out = .ok ()) (g : KV) (f : Bytes → DerivDisk) :
    (openTree E { d with gas := g, deriv := f }).out = .ok () ∧
    (openTree E { d with gas := g, deriv := f }).final.main = (openTree E d).final.main ∧
    (openTree E { d with gas := g, deriv := f }).final.gas = Db.open' g := by
  rcases openTree_ok ho with ⟨h, df, hr, hp⟩ | ⟨df, hr⟩
  · obtain ⟨o1, o2⟩ := openTree_pos (E := E) (d := { d with gas := g, deriv := f }) hr hp
    exact ⟨o1, by rw [o2, (openTree_pos (E := E) hr hp).2]; rfl, by rw [o2]; rfl⟩
  · obtain ⟨o1, o2⟩ := openTree_zero (E := E) (d := { d with gas := g, deriv := f }) hr
    exact ⟨o1, by rw [o2, (openTree_zero (E := E) hr).2]; rfl, by rw [o2]; rfl⟩

/-- The chain of `w` can be opened if there is a last block on the main chain and its config file can be read. -/
theorem opens_chain {d : Disk} {b : Block} (hb : (openTree E d).final.main.getLastBlock = .ok (some b)) {h : U256} {df g : Hash}
    (hr : DerivativeChain.readConfig (b.hash E) (d.deriv (hexEncode w.val)).config = .ok (h, df, g)) :
    ((Op.getDerivativeChain w).run E (openTree E d).final).out = .ok () ∧
    (((Op.getDerivativeChain w).run E (openTree E d).final).final.handle w).chain.height = h ∧
    ((Op.getDerivativeChain w).run E (openTree E d).final).final.gas = (openTree E d).final.gas := by
  obtain ⟨e1, e2⟩ := opening_deriv (E := E) (d := d) (.inr rfl)
  have hok : ((Op.getDerivativeChain w).run E (openTree E d).final).out = .ok () := by
    show (Tree.getDerivativeChain E w (openTree E d).final).out = .ok ()
    rw [getDeriv_new (by rw [e2]) hb (c := { chain := { blocks := Db.open' (d.deriv (hexEncode w.val)).blocks, heightReference := Db.open' (d.deriv (hexEncode w.val)).heightReference, height := h, difficulty := df, config := (d.deriv (hexEncode w.val)).config }, genesisHash := g }) (by
      rw [e1]
      show DerivativeChain.new (b.hash E) (Db.open' (d.deriv (hexEncode w.val)).blocks) (Db.open' (d.deriv (hexEncode w.val)).heightReference) (d.deriv (hexEncode w.val)).config = _
      unfold DerivativeChain.new
      rw [hr]
      rfl)]
  obtain ⟨c, b', e, _, _, _, hb', hr'⟩ := opened_chain hok
  rw [hb] at hb'
  cases hb'
  rw [hr] at hr'
  cases hr'
  rw [e]
  exact ⟨rfl, by rw [Tree.handle_put_self], rfl⟩

/-- The chain as it is after blocks were added to it, and not flushed. -/
structure Added (a c : Chain) : Prop where
  config : c.config = a.config
  blocks : ∀ m ∈ a.blocks.recov, m ∈ c.blocks.recov
  refs : ∀ m ∈ a.heightReference.recov, m ∈ c.heightReference.recov

theorem added_add (E : Env) (b : DerivativeBlock) :
    Act.Rel (fun s t : DerivativeChain => Added s.chain t.chain) (DerivativeChain.addBlock E b) :=
  DerivativeChain.addBlock_rel (R := Added)
    (Chain.addBlock_rel E (fun _ => ⟨rfl, fun _ h => h, fun _ h => h⟩) _ _
      (fun _ _ => ⟨rfl, fun _ h => List.mem_cons_of_mem _ h, fun _ h => h⟩)
      (fun _ _ => ⟨rfl, fun _ h => List.mem_cons_of_mem _ h, fun _ h => List.mem_cons_of_mem _ h⟩)
      (fun _ _ _ => ⟨rfl, fun _ h => List.mem_cons_of_mem _ h, fun _ h => List.mem_cons_of_mem _ h⟩)) fun _ _ h => h

theorem put_put (o : Address) (c c' : DerivativeChain) (s : Tree) : Tree.putHandle o c' (Tree.putHandle o c s) = Tree.putHandle o c' s := by
  unfold Tree.putHandle
  congr 1
  · funext n; simp only; split <;> rfl
  · funext n; simp only; split <;> rfl

theorem added_emit {c : DerivativeChain} {s : Tree} {pow : BytesN 32} {ts : UInt64} :
    Throughout (fun u => ∃ c', u = Tree.putHandle w c' s ∧ Added c.chain c'.chain)
      ((Op.emitDerivative pow w ts).run E (Tree.putHandle w c s)) := by
  have h0 : IsOpen w (Tree.putHandle w c s) := by unfold IsOpen; rw [Tree.putHandle_mem_self]; rfl
  suffices Throughout (fun u => ∃ c', u = Tree.putHandle w c' s ∧ Added c.chain c'.chain)
      (Tree.emitDerivative E pow w ts (Tree.putHandle w c s)) by
    show Throughout _ (Act.void (Tree.emitDerivative E pow w ts) (Tree.putHandle w c s))
    rw [Act.void_run]; exact this
  rw [emitDerivative_checks, Act.bind_ok (get_open h0)]
  have := throughout_emit (E := E) (P := fun u => ∃ c', u = Tree.putHandle w c' s ∧ Added c.chain c'.chain)
    (t := Tree.putHandle w c s) (pow := pow) (o := w) (ts := ts) (fun b => by
      have := Act.rel_zoom (part := fun t : Tree => t.handle w) (put := Tree.putHandle w)
        (Q := fun a b => a = Tree.putHandle w c s → ∃ c', b = Tree.putHandle w c' s ∧ Added c.chain c'.chain) (added_add E b) (fun s' m hm e => by
          subst e
          rw [Tree.handle_put_self] at hm
          exact ⟨m, put_put _ _ _ _, hm⟩) (Tree.putHandle w c s)
      exact ⟨this.1 rfl, fun u hu => this.2 u hu rfl⟩) ⟨c, rfl, rfl, fun _ h => h, fun _ h => h⟩
  exact ⟨this.1, fun u hu => this.2 u (by simpa using hu)⟩

theorem gas_step {c : KV → Outcome KV} (h : (Tree.onGas (Ledger.transact c) t).out = .ok ()) :
    ∃ m, Tree.onGas (Ledger.transact c) t =
      ⟨.ok (), { t with gas := t.gas.commit fun _ => m }, [{ t with gas := t.gas.commit fun _ => m }]⟩ := by
  unfold Tree.onGas at h ⊢
  rw [Act.zoom_run] at h ⊢
  cases hc : c t.gas.cur with
  | ok m => exact ⟨m, by rw [Ledger.transact_ok hc]; rfl⟩
  | err e => rw [Ledger.transact_err hc] at h; cases h
  | panic e => rw [Ledger.transact_panic hc] at h; cases h
  | ub => rw [Ledger.transact_ub hc] at h; cases h

theorem flushChain_states (c : DerivativeChain) (s : Tree) :
    ∃ tr, Example.flushChain w (Tree.putHandle w c s) = ⟨.ok (), Tree.putHandle w c.flushed s, tr⟩ ∧
      Tree.putHandle w { c with chain := { c.chain with config := some [] } } s ∈ tr ∧ Tree.putHandle w c.flushed s ∈ tr := by
  have h1 : (Tree.putHandle w c s).handle w = c := Tree.handle_put_self _ _ _
  refine ⟨(Tree.onDeriv w DerivativeChain.flush (Tree.putHandle w c s)).trace, ?_, ?_, ?_⟩
  · show (⟨_, _, _⟩ : Res Tree Unit) = _
    unfold Tree.onDeriv
    rw [Act.zoom_run, h1]
    congr 1
    rw [(DerivativeChain.flush_run c).2]
    exact put_put _ _ _ _
  · unfold Tree.onDeriv
    rw [Act.zoom_run, h1]
    refine List.mem_map.mpr ⟨_, ?_, put_put _ _ _ _⟩
    unfold DerivativeChain.flush DerivativeChain.dumpConfig DerivativeChain.writeConfig
    simp [Act.step_bind, Act.bind_assoc']
  · unfold Tree.onDeriv
    rw [Act.zoom_run, h1]
    refine List.mem_map.mpr ⟨_, ?_, put_put _ _ _ _⟩
    unfold DerivativeChain.flush DerivativeChain.dumpConfig DerivativeChain.writeConfig
    simp [Act.step_bind, Act.bind_assoc', DerivativeChain.saved, DerivativeChain.flushed]

/-- Of every block mined on the wallet's chain: there are moments at which a crash leaves the payment without the block, the
block without the payment, and a chain that can never be opened again. -/
theorem derive_badly (hw : w ≠ ROOT_PUBLIC_ADDRESS) {js : List (Job × Nat)} {d : Disk} (h : Sessions E S w secret T js d)
    {c : UInt64} (hf : E.overflowChecks = true → T ≤ c) (hb : roundsOf js + 1 < 10 ^ 50)
    (hst : ¬ ChainStuck E ((Op.getDerivativeChain w).run E (openTree E d).final).final w) :
    ∃ x, (openTree E d).final.getGas w = .ok x ∧
    (∃ u ∈ ((Job.derive [c]).run E S w secret (openTree E d).final).trace, ∃ d', Crash u d' ∧ (openTree E d').out = .ok () ∧
      ((Op.getDerivativeChain w).run E (openTree E d').final).out = .ok () ∧
      (((Op.getDerivativeChain w).run E (openTree E d').final).final.handle w).chain.height.val = chainBlocks js ∧
      ∃ y, ((Op.getDerivativeChain w).run E (openTree E d').final).final.getGas w = .ok y ∧ y.val = x.val + 25000000000000000) ∧
    (∃ u ∈ ((Job.derive [c]).run E S w secret (openTree E d).final).trace, ∃ d', Crash u d' ∧ (openTree E d').out = .ok () ∧
      ((Op.getDerivativeChain w).run E (openTree E d').final).out = .ok () ∧
      (((Op.getDerivativeChain w).run E (openTree E d').final).final.handle w).chain.height.val = chainBlocks js + 1 ∧
      ((Op.getDerivativeChain w).run E (openTree E d').final).final.getGas w = .ok x) ∧
    ∃ u ∈ ((Job.derive [c]).run E S w secret (openTree E d).final).trace, ∃ d', Crash u d' ∧ (openTree E d').out = .ok () ∧
      ∀ s, Since E (.down d') (.idle s) → ((Op.getDerivativeChain w).run E s).out ≠ .ok () := by
  obtain ⟨h1, ⟨n0, hs⟩, hN, hR⟩ := sessions_ready hw h (by omega)
  obtain ⟨hok, n, hstart⟩ := DeriveStart.opened hw h1 hs (by omega)
  have hcr := opened_crash h1
  have hsz := size_big
  obtain ⟨ch, hcc⟩ := hstart.chain
  have hm := hstart.same
  have r := hstart.ready
  have hown := hstart.own
  obtain ⟨p, hp, hpair⟩ := Example.follows_run hm r hcc
  obtain ⟨x, x1, x2⟩ := Example.gas_ok hm w
  obtain ⟨k0, b, e, q1, q2, q3, q4, q5⟩ := opened_chain hok
  have hOC := ownChain_of hm r (by omega) hcc
  -- the moments of the round are moments of the program
  have first : ∀ u, u ∈ (Example.deriveRound E w c ((Op.getDerivativeChain w).run E (openTree E d).final).final).trace →
      u ∈ ((Job.derive [c]).run E S w secret (openTree E d).final).trace := by
    intro u hu
    refine (call_mem hok (fun _ => Example.rounds (Example.deriveRound E w) [c])).2 ?_
    show u ∈ ((Example.deriveRound E w c >>= fun found => _) _).trace
    generalize ((Op.getDerivativeChain w).run E (openTree E d).final).final = t at hu
    cases ho : (Example.deriveRound E w c t).out with
    | ok a =>
      rw [Act.bind_ok (a := a) (s' := (Example.deriveRound E w c t).final) (t := (Example.deriveRound E w c t).trace) (by rw [← ho])]
      exact List.mem_append_left _ hu
    | err a =>
      rw [Act.bind_err (e := a) (s' := (Example.deriveRound E w c t).final) (t := (Example.deriveRound E w c t).trace) (by rw [← ho])]
      exact hu
    | panic a =>
      rw [Act.bind_panic (p := a) (s' := (Example.deriveRound E w c t).final) (t := (Example.deriveRound E w c t).trace) (by rw [← ho])]
      exact hu
    | ub =>
      rw [Act.bind_ub (s' := (Example.deriveRound E w c t).final) (t := (Example.deriveRound E w c t).trace) (by rw [← ho])]
      exact hu
  have hgas0 : ((Op.getDerivativeChain w).run E (openTree E d).final).final.gas = (openTree E d).final.gas := by rw [e]; rfl
  have hrun : Example.deriveRound E w c ((Op.getDerivativeChain w).run E (openTree E d).final).final =
      Example.finishChain E w c (Example.search E p.1 p.2.1 []) ((Op.getDerivativeChain w).run E (openTree E d).final).final := by
    unfold Example.deriveRound
    rw [Example.ask_bind x1, Example.quiet_bind hpair]
  cases hse : Example.search E p.1 p.2.1 [] with
  | none => exact absurd (chainStuck_of hm hcc hp (Example.search_none hse)) hst
  | some pow =>
    obtain ⟨n1, n2, s1, s2, r2, c2, hc2⟩ := r.derived (by omega) hf hcc hp (Example.search_some hse)
    have o1 := call_ok hm r.short (by omega) s1
    obtain ⟨_, m1, k1⟩ := Example.call_done hm r.short (by omega) s1
    have o2 := call_ok m1 k1 (by omega) s2
    obtain ⟨_, m2, k2⟩ := Example.call_done m1 k1 (by omega) s2
    have hOC2 := ownChain_of m2 r2 (by omega) hc2
    obtain ⟨y, y1, y2⟩ := Example.gas_ok m2 w
    obtain ⟨c1, ec1, had⟩ := (added_emit (E := E) (w := w) (c := k0) (s := (openTree E d).final) (pow := pow) (ts := c)).1
    rw [hrun, hse] at first
    rw [e] at o1 o2 hOC2 hOC y1 first
    dsimp only at o1 o2 hOC2 hOC y1 first
    rw [ec1] at o2 hOC2 y1
    obtain ⟨v, ev⟩ : ∃ v, (Op.addGas w.val MAIN_CHAIN_PAYMENT).run E (Tree.putHandle w c1 (openTree E d).final) = ⟨.ok (), _, _⟩ := gas_step o2
    rw [ev] at hOC2 y1
    obtain ⟨tr, ef, f1, f2⟩ := flushChain_states (w := w) c1 { (openTree E d).final with gas := (openTree E d).final.gas.commit fun _ => v }
    have moments : ∀ u, (u = Tree.putHandle w c1 { (openTree E d).final with gas := (openTree E d).final.gas.commit fun _ => v } ∨ u ∈ tr) →
        u ∈ ((Job.derive [c]).run E S w secret (openTree E d).final).trace := by
      intro u hu
      refine first u ?_
      unfold Example.finishChain
      simp only
      refine (call_mem o1 _).2 ?_
      rw [ec1]
      rcases hu with rfl | hu
      · refine (call_mem o2 _).1 ?_
        rw [ev]
        exact List.mem_singleton.mpr rfl
      · refine (call_mem o2 _).2 ?_
        rw [ev]
        show u ∈ ((Example.flushChain w >>= _)
          (Tree.putHandle w c1 { (openTree E d).final with gas := (openTree E d).final.gas.commit fun _ => v })).trace
        rw [Act.bind_ok ef]
        exact List.mem_append_left _ hu
    have hh1 : c1.chain.height.val = chainBlocks js + 1 := by
      have := hOC2.height
      rw [show Tree.handle { Tree.putHandle w c1 (openTree E d).final with gas := (Tree.putHandle w c1 (openTree E d).final).gas.commit fun _ => v } w
        = c1 from Tree.handle_put_self w c1 (openTree E d).final] at this
      exact this
    have hh0 : k0.chain.height.val = chainBlocks js := by
      have := hOC.height
      rw [Tree.handle_put_self] at this
      exact this
    have hy : Ledger.balance (v.get w.val) = .ok y := y1
    have hyv : y.val = x.val + 25000000000000000 := by
      have g1 := r.gas
      have g2 := r2.gas
      omega
    have hx0 : (openTree E d).final.getGas w = .ok x := by
      have := x1
      unfold Tree.getGas at this ⊢
      rw [hgas0] at this
      exact this
    have hx : Ledger.balance (d.gas.get w.val) = .ok x := by
      have := hx0
      unfold Tree.getGas at this
      rw [(opened_ledgers h1).2] at this
      exact this
    -- a crash that finds the old state of everything but the gas and the chain of `w`
    have crash : ∀ (c' : DerivativeChain) (g : KV) (f : DerivDisk), (g = v ∨ g = d.gas) → f.blocks ∈ c'.chain.blocks.recov →
        f.heightReference ∈ c'.chain.heightReference.recov → f.config = c'.chain.config →
        Crash (Tree.putHandle w c' { (openTree E d).final with gas := (openTree E d).final.gas.commit fun _ => v })
          { d with gas := g, deriv := fun n => if n = hexEncode w.val then f else d.deriv n } := by
      intro c' g f hg h1' h2' h3'
      refine ⟨hcr.blocks, hcr.heightReference, hcr.transactions, hcr.config, hcr.summary, hcr.oldSummary, ?_, hcr.oldGas, fun n => ?_⟩
      · rcases hg with rfl | rfl
        · exact List.mem_cons_self
        · exact List.mem_cons_of_mem _ hcr.gas
      · simp only [Tree.putHandle]
        split
        · exact ⟨h1', h2', h3'⟩
        · exact hcr.deriv n
    have hd0 := hcr.deriv (hexEncode w.val)
    rw [(opening_deriv (E := E) (d := d) (.inr rfl)).1] at hd0
    refine ⟨x, hx0, ⟨_, moments _ (.inl rfl), _, crash c1 v (d.deriv (hexEncode w.val)) (.inl rfl) (had.blocks _ (by rw [q1]; exact hd0.1))
      (had.refs _ (by rw [q2]; exact hd0.2.1)) (by rw [had.config, q3]), ?_⟩,
      ⟨_, moments _ (.inr f2), _, crash c1.flushed d.gas ⟨c1.chain.blocks.cur, c1.chain.heightReference.cur, some c1.saved⟩ (.inr rfl)
        (List.mem_singleton.mpr rfl) (List.mem_singleton.mpr rfl) rfl, ?_⟩,
      ⟨_, moments _ (.inr f1), _, crash { c1 with chain := { c1.chain with config := some [] } } d.gas
        ⟨(d.deriv (hexEncode w.val)).blocks, (d.deriv (hexEncode w.val)).heightReference, some []⟩ (.inr rfl)
        (had.blocks _ (by rw [q1]; exact hd0.1)) (had.refs _ (by rw [q2]; exact hd0.2.1)) rfl, ?_⟩⟩
    · obtain ⟨w1, w2, w3⟩ := opened_with h1 v (fun n => if n = hexEncode w.val then d.deriv (hexEncode w.val) else d.deriv n)
      obtain ⟨z1, z2, z3⟩ := opens_chain (w := w) (b := b) (by rw [w2]; exact q4) (h := k0.chain.height) (df := k0.chain.difficulty)
        (g := k0.genesisHash) (by simp only [if_true]; exact q5)
      exact ⟨w1, z1, by rw [z2]; exact hh0, y, by unfold Tree.getGas; rw [z3, w3]; exact hy, hyv⟩
    · obtain ⟨w1, w2, w3⟩ := opened_with h1 d.gas (fun n => if n = hexEncode w.val then (⟨c1.chain.blocks.cur, c1.chain.heightReference.cur, some c1.saved⟩ : DerivDisk) else d.deriv n)
      obtain ⟨z1, z2, z3⟩ := opens_chain (w := w) (b := b) (by rw [w2]; exact q4) (h := c1.chain.height) (df := c1.chain.difficulty)
        (g := c1.genesisHash) (by simp only [if_true]; exact DerivativeChain.readConfig_written _ _ _ _)
      exact ⟨w1, z1, by rw [z2]; exact hh1, by unfold Tree.getGas; rw [z3, w3]; exact hx⟩
    · refine ⟨(opened_with h1 _ _).1, fun s hs => ?_⟩
      exact (stuck_get E (since_stuck (o := w) (f := []) (by unfold fileOf; simp only [if_true]) (by decide) hs)).1

/-- C153, as one would want it: whenever the example is killed, another program that can open the wallet's chain finds a chain
and an amount of gas that agree. -/
def C153_full : Prop :=
  ∀ (E : Env) (S : SigScheme) (w : Address) (secret : BytesN 32) (T : UInt64) (js : List (Job × Nat)) (d : Disk),
    w ≠ ROOT_PUBLIC_ADDRESS → Sessions E S w secret T js d → ∀ cs, (E.overflowChecks = true → Forward T cs) →
    roundsOf js + cs.length < 10 ^ 50 → ∀ u ∈ ((Job.derive cs).run E S w secret (openTree E d).final).trace, ∀ d', Crash u d' →
    (openTree E d').out = .ok () → ((Op.getDerivativeChain w).run E (openTree E d').final).out = .ok () →
    ∃ M, OwnChain ((Op.getDerivativeChain w).run E (openTree E d').final).final w M ∧
      Fuelled ((Op.getDerivativeChain w).run E (openTree E d').final).final w M (sentBy js)

/-- C153 is false: with every block mined there are moments at which a crash leaves the payment without the block, the block
without the payment, and a chain no later program can open. -/
theorem C153_refuted :
    (∀ (E : Env) (S : SigScheme) (w : Address) (secret : BytesN 32) (T : UInt64) (js : List (Job × Nat)) (d : Disk) (c : UInt64),
      w ≠ ROOT_PUBLIC_ADDRESS → Sessions E S w secret T js d → (E.overflowChecks = true → T ≤ c) → roundsOf js + 1 < 10 ^ 50 →
      ¬ ChainStuck E ((Op.getDerivativeChain w).run E (openTree E d).final).final w →
      ∃ x, (openTree E d).final.getGas w = .ok x ∧
      (∃ u ∈ ((Job.derive [c]).run E S w secret (openTree E d).final).trace, ∃ d', Crash u d' ∧ (openTree E d').out = .ok () ∧
        ((Op.getDerivativeChain w).run E (openTree E d').final).out = .ok () ∧
        (((Op.getDerivativeChain w).run E (openTree E d').final).final.handle w).chain.height.val = chainBlocks js ∧
        ∃ y, ((Op.getDerivativeChain w).run E (openTree E d').final).final.getGas w = .ok y ∧ y.val = x.val + 25000000000000000) ∧
      (∃ u ∈ ((Job.derive [c]).run E S w secret (openTree E d).final).trace, ∃ d', Crash u d' ∧ (openTree E d').out = .ok () ∧
        ((Op.getDerivativeChain w).run E (openTree E d').final).out = .ok () ∧
        (((Op.getDerivativeChain w).run E (openTree E d').final).final.handle w).chain.height.val = chainBlocks js + 1 ∧
        ((Op.getDerivativeChain w).run E (openTree E d').final).final.getGas w = .ok x) ∧
      ∃ u ∈ ((Job.derive [c]).run E S w secret (openTree E d).final).trace, ∃ d', Crash u d' ∧ (openTree E d').out = .ok () ∧
        ∀ s, Since E (.down d') (.idle s) → ((Op.getDerivativeChain w).run E s).out ≠ .ok ()) ∧
    ¬ C153_full := by
  refine ⟨fun E S w secret T js d c hw h hf hb hst => derive_badly hw h hf hb hst, fun hfull => ?_⟩
  have hw : BytesN.fill 33 7 ≠ ROOT_PUBLIC_ADDRESS := by decide +kernel
  obtain ⟨x, _, ⟨u, hu, d', hc, ho, hg, hh, y, y1, y2⟩, _⟩ := derive_badly (S := toyScheme) (secret := BytesN.fill 32 1) (c := 1700000000)
    hw (Sessions.none (E := zeroEnv)) (fun _ => by decide) (by decide) (zero_chain _)
  obtain ⟨M, h1, h2⟩ := hfull zeroEnv toyScheme (BytesN.fill 33 7) (BytesN.fill 32 1) _ _ _ hw .none [1700000000]
    (fun _ => ⟨by decide, trivial⟩) (by decide) u hu d' hc ho hg
  have hM : M = 0 := by
    have := h1.height
    rw [hh] at this
    have e : chainBlocks [] = 0 := rfl
    omega
  subst hM
  obtain ⟨z, z1, z2⟩ := h2.gas
  rw [y1] at z1
  cases z1
  omega

end
end BCT.Props
