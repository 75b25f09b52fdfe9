import Verif.Props.Power
import Verif.Props.DerivCrash
/-!
# C155: derivative chains and power failures (chain.rs:440-575, blockchaintree.rs:85-101, 369-413)
-/

namespace BCT.Props
open BCT

/-! ## The claim -/

/-- C155 at full strength: when the flush of a derivative chain has returned and the power fails, then, if the node opens
again and has its last block, the chain opens, is no shorter than it was when flushed, and has the same blocks. -/
def C155_full : Prop := ∀ (E : Env) (past : List Tree) (s : Tree) (o : Address) (d : Disk) (b : Block),
  Powered E past (.idle s) → ((Op.derivFlush o).run E s).out = .ok () →
  PowerLoss (past ++ ((Op.derivFlush o).run E s).trace) ((Op.derivFlush o).run E s).final d →
  (openTree E d).out = .ok () → (openTree E d).final.main.getLastBlock = .ok (some b) →
  ((Op.getDerivativeChain o).run E (openTree E d).final).out = .ok () ∧
  (((Op.derivFlush o).run E s).final.handle o).chain.height.val ≤
    (((Op.getDerivativeChain o).run E (openTree E d).final).final.handle o).chain.height.val ∧
  ∀ q : U256, q.val < (((Op.derivFlush o).run E s).final.handle o).chain.height.val →
    (((Op.getDerivativeChain o).run E (openTree E d).final).final.handle o).chain.findRawByHeight q =
      (((Op.derivFlush o).run E s).final.handle o).chain.findRawByHeight q

/-! ## Flushing a derivative chain -/

/-- What the config file of a chain is while the chain is flushed. -/
def MidFlush (c : DerivativeChain) (f : Option Bytes) : Prop :=
  f = some [] ∨ f = some c.chain.height.toBE.val ∨ f = some (c.chain.height.toBE.val ++ c.chain.difficulty.val) ∨ f = some c.saved

theorem flush_configs (c : DerivativeChain) :
    (∀ x ∈ (DerivativeChain.flush c).trace, MidFlush c x.chain.config) ∧
    ∃ x ∈ (DerivativeChain.flush c).trace, x.chain.config = some [] := by
  constructor
  · intro x hx
    unfold DerivativeChain.flush DerivativeChain.dumpConfig DerivativeChain.writeConfig at hx
    simp only [Act.step_bind, Act.bind_assoc', Act.step_run, List.mem_cons, List.not_mem_nil, or_false] at hx
    rcases hx with rfl | rfl | rfl | rfl | rfl | rfl
    · exact .inl rfl
    · exact .inr (.inl rfl)
    · exact .inr (.inr (.inl rfl))
    all_goals exact .inr (.inr (.inr rfl))
  · refine ⟨{ c with chain := { c.chain with config := some [] } }, ?_, rfl⟩
    unfold DerivativeChain.flush DerivativeChain.dumpConfig DerivativeChain.writeConfig
    simp [Act.step_bind, Act.bind_assoc']

theorem put_config (o : Address) (c : DerivativeChain) (s : Tree) :
    ((Tree.putHandle o c s).derivFiles (hexEncode o.val)).config = c.chain.config := by
  unfold Tree.putHandle
  simp

theorem put_open (o : Address) (c : DerivativeChain) (s : Tree) : IsOpen o (Tree.putHandle o c s) := by
  unfold IsOpen
  rw [Tree.putHandle_mem_self]; rfl

theorem getDeriv_config (E : Env) (o : Address) : Act.Rel (fun s t : Tree =>
    (t.derivFiles (hexEncode o.val)).config = (s.derivFiles (hexEncode o.val)).config) (Tree.getDerivativeChain E o) := by
  intro s
  rcases Tree.getDeriv_cases E o s with ⟨_, e⟩ | ⟨hm, ⟨out, _, e⟩ | ⟨b, c, _, hc, e⟩⟩
  · rw [e]; exact ⟨rfl, by simp⟩
  · rw [e]; exact ⟨rfl, by simp⟩
  · have : ((Tree.putHandle o c s).derivFiles (hexEncode o.val)).config = (s.derivFiles (hexEncode o.val)).config := by
      rw [put_config]
      unfold DerivativeChain.new at hc
      cases hr : DerivativeChain.readConfig (b.hash E) (s.derivFiles (hexEncode o.val)).config with
      | ok r => rw [hr] at hc; cases hc; rfl
      | err e => rw [hr] at hc; cases hc
      | panic => rw [hr] at hc; cases hc
      | ub => rw [hr] at hc; cases hc
    rw [e]
    exact ⟨this, by simpa using this⟩

/-- A flush that has returned: the chain was open or could be opened, and then the config file was written, in four steps. -/
theorem derivFlush_ok {E : Env} {o : Address} {s : Tree} (h : ((Op.derivFlush o).run E s).out = .ok ()) :
    ∃ v, v = (Tree.getDerivativeChain E o s).final ∧ (Tree.getDerivativeChain E o s).out = .ok () ∧ IsOpen o v ∧
      ((Op.derivFlush o).run E s).final = Tree.putHandle o (v.handle o).flushed v ∧
      (∀ p ∈ ((Op.derivFlush o).run E s).trace, p ∈ (Tree.getDerivativeChain E o s).trace ∨
        MidFlush (v.handle o) (p.derivFiles (hexEncode o.val)).config) ∧
      ∃ p ∈ ((Op.derivFlush o).run E s).trace, (p.derivFiles (hexEncode o.val)).config = some [] := by
  rcases Act.bind_cases (Tree.getDerivativeChain E o) (fun _ => Tree.onDeriv o DerivativeChain.flush) s with
    ⟨a, h1, h2, h3, -⟩ | ⟨-, -, -, h4⟩
  · refine ⟨_, rfl, h1, getDeriv_open h1, ?_, ?_, ?_⟩
    · refine h2.trans ?_
      show Tree.putHandle o (DerivativeChain.flush _).final _ = _
      rw [(DerivativeChain.flush_run _).2]
    · intro p hp
      rw [show ((Op.derivFlush o).run E s).trace = _ from h3] at hp
      rcases List.mem_append.mp hp with hp | hp
      · exact .inl hp
      · unfold Tree.onDeriv at hp
        rw [Act.zoom_run] at hp
        obtain ⟨x, hx, rfl⟩ := List.mem_map.mp hp
        rw [put_config]
        exact .inr ((flush_configs _).1 x hx)
    · obtain ⟨x, hx, hc⟩ := (flush_configs ((Tree.getDerivativeChain E o s).final.handle o)).2
      refine ⟨Tree.putHandle o x (Tree.getDerivativeChain E o s).final, ?_, by rw [put_config]; exact hc⟩
      rw [show ((Op.derivFlush o).run E s).trace = _ from h3]
      refine List.mem_append_right _ ?_
      unfold Tree.onDeriv
      rw [Act.zoom_run]
      exact List.mem_map.mpr ⟨x, hx, rfl⟩
  · exact absurd h (h4 ())

/-! ## What is lost -/

/-- The directory of a stopped node, with another config file for the chain of `o`. -/
def closedWith (t : Tree) (o : Address) (f : Option Bytes) : Disk :=
  { t.close with deriv := fun n => if n = hexEncode o.val then { t.close.deriv n with config := f } else t.close.deriv n }

theorem loss_with {E : Env} {past : List Tree} {t p : Tree} (o : Address) (h : Powered E past (.idle t)) (hp : p ∈ past) :
    PowerLoss past t (closedWith t o (p.derivFiles (hexEncode o.val)).config) := by
  have hs := powered_sound h
  refine ⟨hs.blocks, hs.heightReference, hs.transactions, ⟨t, List.mem_cons_self, rfl⟩, hs.summary, hs.oldSummary,
    hs.gas, hs.oldGas, fun n => ?_⟩
  unfold closedWith
  simp only
  split
  · rename_i hn
    subst hn
    exact ⟨(hs.deriv _).1, (hs.deriv _).2, p, List.mem_cons_of_mem _ hp, rfl⟩
  · exact ⟨(hs.deriv n).1, (hs.deriv n).2, t, List.mem_cons_self, rfl⟩

/-- Between two calls the config file of the main chain can be read. -/
theorem powered_config {E : Env} {past : List Tree} {s : Tree} (h : Powered E past (.idle s)) :
    ∃ q df, MainChain.readConfig s.main.chain.config = .ok (q, df) := by
  have : Pinned KV.empty 0 s.main.chain := by
    generalize hm : Moment.idle s = m at h
    induction h generalizing s with
    | opened _ d _ ho =>
      cases hm
      refine ⟨?_, Nat.zero_le _, fun _ _ _ hq => absurd hq (Nat.not_lt_zero _)⟩
      obtain ⟨x, hx⟩ := (readConfig_ok_iff _).mpr ((openTree_ok_iff E d).mp ho)
      rw [show (openTree E d).final.main.chain.config = d.config from (open_config E d.boot).1]
      exact ⟨x.1, x.2, hx, Nat.zero_le _⟩
    | call _ s' op _ ih => cases hm; exact pinned_op E op s' (ih rfl)
    | _ => cases hm
  obtain ⟨q, df, h, -⟩ := this.config
  exact ⟨q, df, h⟩

theorem closedWith_opens {E : Env} {past : List Tree} {t : Tree} (o : Address) (f : Option Bytes)
    (h : Powered E past (.idle t)) : (openTree E (closedWith t o f)).out = .ok () := by
  obtain ⟨q, df, hr⟩ := powered_config h
  exact (openTree_ok_iff E _).mpr ((readConfig_ok_iff _).mp ⟨_, hr⟩)

/-- Opening a chain whose config file can be read. -/
theorem opens_at {E : Env} {o : Address} {d : Disk} {b : Block} {h : U256} {df g : Hash}
    (hb : (openTree E d).final.main.getLastBlock = .ok (some b))
    (hr : DerivativeChain.readConfig (b.hash E) (d.deriv (hexEncode o.val)).config = .ok (h, df, g)) :
    ((Op.getDerivativeChain o).run E (openTree E d).final).out = .ok () ∧
    ((Op.getDerivativeChain o).run E (openTree E d).final).final.handle o =
      ⟨⟨Db.open' (d.deriv (hexEncode o.val)).blocks, Db.open' (d.deriv (hexEncode o.val)).heightReference, h, df,
        (d.deriv (hexEncode o.val)).config⟩, g⟩ := by
  obtain ⟨h1, h2⟩ := opening_deriv (E := E) (d := d) (.inr rfl)
  have hf : (openTree E d).final.derivFiles (hexEncode o.val) = ⟨Db.open' (d.deriv (hexEncode o.val)).blocks,
      Db.open' (d.deriv (hexEncode o.val)).heightReference, (d.deriv (hexEncode o.val)).config⟩ := by rw [h1]; rfl
  have hn := getDeriv_new (E := E) (v := (openTree E d).final) (o := o) (by rw [h2]) hb
    (c := ⟨⟨Db.open' (d.deriv (hexEncode o.val)).blocks, Db.open' (d.deriv (hexEncode o.val)).heightReference, h, df,
        (d.deriv (hexEncode o.val)).config⟩, g⟩) (by
      rw [hf]
      unfold DerivativeChain.new
      simp only
      rw [hr]; rfl)
  rw [show (Op.getDerivativeChain o).run E (openTree E d).final = _ from hn]
  exact ⟨rfl, Tree.handle_put_self _ _ _⟩

/-- C155 is false of the code. However a node has come to be and whatever it holds: when the flush of a derivative chain
has returned, a power failure can leave a directory that opens, but in which the chain can never again be opened, whatever
is done. If there was no config file for the chain when the machine was started or at any time since (so for every chain
begun since then), it can also leave one in which the chain opens empty, begun anew at the present last main block. -/
theorem C155_refuted :
    (∀ (E : Env) (past : List Tree) (s : Tree) (o : Address), Powered E past (.idle s) →
      ((Op.derivFlush o).run E s).out = .ok () →
      (∃ d, PowerLoss (past ++ ((Op.derivFlush o).run E s).trace) ((Op.derivFlush o).run E s).final d ∧
        (openTree E d).out = .ok () ∧
        ∀ t, Since E (.down d) (.idle t) → ((Op.getDerivativeChain o).run E t).out ≠ .ok ()) ∧
      ((∃ p ∈ past, (p.derivFiles (hexEncode o.val)).config = none) →
        ∃ d, PowerLoss (past ++ ((Op.derivFlush o).run E s).trace) ((Op.derivFlush o).run E s).final d ∧
          (openTree E d).out = .ok () ∧
          ∀ b, (openTree E d).final.main.getLastBlock = .ok (some b) →
            ((Op.getDerivativeChain o).run E (openTree E d).final).out = .ok () ∧
            (((Op.getDerivativeChain o).run E (openTree E d).final).final.handle o).chain.height.val = 0 ∧
            (((Op.getDerivativeChain o).run E (openTree E d).final).final.handle o).genesisHash = b.hash E ∧
            (((Op.getDerivativeChain o).run E (openTree E d).final).final.handle o).getLastBlock = .ok none ∧
            ∀ q : U256, 0 < q.val →
              (((Op.getDerivativeChain o).run E (openTree E d).final).final.handle o).chain.findRawByHeight q = none)) ∧
    ¬ C155_full := by
  refine ⟨fun E past s o h hok => ?_, fun hf => ?_⟩
  · have h' := Powered.call past s (.derivFlush o) h
    obtain ⟨v, -, -, -, -, -, p, hp, hc⟩ := derivFlush_ok hok
    refine ⟨⟨_, loss_with o h' (List.mem_append_right _ hp), closedWith_opens o _ h', fun t ht => ?_⟩, fun hp => ?_⟩
    · refine (stuck_get E (since_stuck (o := o) (f := []) ?_ (by decide) ht)).1
      rw [hc]
      unfold fileOf closedWith
      simp
    · obtain ⟨p, hp, hc⟩ := hp
      refine ⟨_, loss_with o h' (List.mem_append_left _ hp), closedWith_opens o _ h', fun b hb => ?_⟩
      obtain ⟨g1, g2⟩ := opens_at (o := o) (h := U256.zero) (df := BEGINNING_DIFFICULTY) (g := b.hash E) hb (by
        unfold closedWith
        simp only [if_pos]
        rw [hc]; rfl)
      rw [g2]
      refine ⟨g1, rfl, rfl, ?_, fun q hq => ?_⟩
      · unfold DerivativeChain.getLastBlock DerivativeChain.getLastRawBlock
        rw [if_pos (by rfl)]; rfl
      · unfold Chain.findRawByHeight
        rw [if_pos (show U256.zero.val < q.val from hq)]
  · obtain ⟨f1, f2, f3, -⟩ := freshWith_flush zeroEnv ROOT_PUBLIC_ADDRESS (oneDeriv zeroEnv)
    have hs := Powered.call _ _ (.derivAddBlock ROOT_PUBLIC_ADDRESS exDerivBlock)
      (.opened _ _ (.start (E := zeroEnv)) (openTree_fresh zeroEnv).1)
    rw [fresh_add] at hs
    have hc := freshWith_crash zeroEnv ROOT_PUBLIC_ADDRESS (oneDeriv zeroEnv).flushed (oneDeriv zeroEnv).chain.blocks.cur
      (oneDeriv zeroEnv).chain.heightReference.cur (List.mem_singleton.mpr rfl) (List.mem_singleton.mpr rfl)
    obtain ⟨o1, o2, o3, o4⟩ := onlyDeriv_opens zeroEnv ROOT_PUBLIC_ADDRESS
      ⟨(oneDeriv zeroEnv).chain.blocks.cur, (oneDeriv zeroEnv).chain.heightReference.cur, some []⟩
    have := (hf zeroEnv _ _ ROOT_PUBLIC_ADDRESS (onlyDeriv ROOT_PUBLIC_ADDRESS
      ⟨(oneDeriv zeroEnv).chain.blocks.cur, (oneDeriv zeroEnv).chain.heightReference.cur, some []⟩) _ hs f1 (by
        rw [← f2] at hc
        refine ⟨hc.blocks, hc.heightReference, hc.transactions, ⟨_, List.mem_cons_self, hc.config⟩, hc.summary,
          hc.oldSummary, hc.gas, hc.oldGas, fun n => ?_⟩
        obtain ⟨c1, c2, c3⟩ := hc.deriv n
        unfold onlyDeriv at c1 c2 c3 ⊢
        simp only at c1 c2 c3 ⊢
        split
        · rename_i hn
          subst hn
          rw [if_pos rfl] at c1 c2
          refine ⟨c1, c2, _, List.mem_cons_of_mem _ (List.mem_append_right _ f3), ?_⟩
          unfold freshWith
          rw [put_config]
        · rename_i hn
          rw [if_neg hn] at c1 c2 c3
          exact ⟨c1, c2, _, List.mem_cons_self, c3⟩) o1 o2).1
    refine (stuck_get zeroEnv ⟨o3, [], ?_, by decide⟩).1 this
    rw [o4]

/-! ## What is kept -/

/-- The blocks below `H` are on disk, and the config file has a height of at least `H` and anchor `g`. -/
structure Banked (m0 : KV) (H : Nat) (g : Hash) (c : DerivativeChain) : Prop where
  height : H ≤ c.chain.height.val
  anchor : c.genesisHash = g
  blocks : ∀ m, m = c.chain.blocks.cur ∨ m ∈ c.chain.blocks.recov → ∀ q : U256, q.val < H →
    m.get q.toBE.val = m0.get q.toBE.val
  config : ∃ (h : U256) (df : Hash), (∀ p, DerivativeChain.readConfig p c.chain.config = .ok (h, df, g)) ∧ H ≤ h.val

theorem Banked.put {m0 : KV} {H : Nat} {g : Hash} {c : DerivativeChain} (h : Banked m0 H g c) (v : Bytes) :
    ∀ m, m = (c.chain.blocks.insert c.chain.height.toBE.val v).cur ∨
        m ∈ (c.chain.blocks.insert c.chain.height.toBE.val v).recov →
      ∀ q : U256, q.val < H → m.get q.toBE.val = m0.get q.toBE.val := by
  intro m hm q hq
  have hne : q.toBE.val ≠ c.chain.height.toBE.val := fun e => by
    have h1 : q.val = c.chain.height.val := by rw [toBE_inj e]
    have := h.height
    omega
  have key : (c.chain.blocks.cur.insert c.chain.height.toBE.val v).get q.toBE.val = m0.get q.toBE.val := by
    rw [KV.get_insert, if_neg (Ne.symm hne)]
    exact h.blocks _ (.inl rfl) q hq
  rcases hm with rfl | hm
  · exact key
  · rcases List.mem_cons.mp hm with rfl | hm
    · exact key
    · exact h.blocks m (.inr hm) q hq

theorem banked_addBlock {m0 : KV} {H : Nat} {g : Hash} (E : Env) (b : DerivativeBlock) :
    Act.Rel (fun s t : DerivativeChain => Banked m0 H g s → Banked m0 H g t) (DerivativeChain.addBlock E b) :=
  DerivativeChain.addBlock_rel (R := fun a b => ∀ x, Banked m0 H g ⟨a, x⟩ → Banked m0 H g ⟨b, x⟩)
    (Chain.addBlock_rel E (fun _ _ h => h) _ _
      (fun _ _ _ h => ⟨h.height, h.anchor, h.put _, h.config⟩)
      (fun _ _ _ h => ⟨h.height, h.anchor, h.put _, h.config⟩)
      (fun _ _ _ _ h => ⟨Nat.le_succ_of_le h.height, h.anchor, h.put _, h.config⟩)) fun m _ h => h m.genesisHash

theorem banked_flushed {m0 : KV} {H : Nat} {c : DerivativeChain} (hH : H ≤ c.chain.height.val)
    (hb : ∀ q : U256, q.val < H → c.chain.blocks.cur.get q.toBE.val = m0.get q.toBE.val) :
    Banked m0 H c.genesisHash c.flushed := by
  refine ⟨hH, rfl, fun m hm => ?_, c.chain.height, c.chain.difficulty,
    fun p => DerivativeChain.readConfig_written p _ _ _, hH⟩
  rcases hm with rfl | hm
  · exact hb
  · rw [Db.flush_recov hm]; exact hb

/-- The chain of `o` is open and what was flushed of it is on disk. -/
def Deposit (m0 : KV) (H : Nat) (g : Hash) (o : Address) (t : Tree) : Prop := IsOpen o t ∧ Banked m0 H g (t.handle o)

theorem deposit_op {m0 : KV} {H : Nat} {g : Hash} {o : Address} (E : Env) (op : Op) (s : Tree) (h : Deposit m0 H g o s) :
    Deposit m0 H g o (op.run E s).final := by
  by_cases hf : op = .derivFlush o
  · subst hf
    have hr : ((Op.derivFlush o).run E s).final = Tree.putHandle o (s.handle o).flushed s := by
      show ((Tree.getDerivativeChain E o >>= fun _ => Tree.onDeriv o DerivativeChain.flush) s).final = _
      rw [Act.bind_ok (get_open h.1)]
      show Tree.putHandle o (DerivativeChain.flush _).final _ = _
      rw [(DerivativeChain.flush_run _).2]
    rw [hr]
    refine ⟨put_open _ _ _, ?_⟩
    rw [Tree.handle_put_self, ← h.2.anchor]
    exact banked_flushed h.2.height (h.2.blocks _ (.inl rfl))
  · refine (owner_op (P := Deposit m0 H g o) (fun a b hab ha => ?_) (fun a ha => ?_) (fun a b ha ho => ?_) s op hf h).1
    · have he : b.handle o = a.handle o := by unfold Tree.handle; rw [hab.1, hab.2]
      exact ⟨by unfold IsOpen; rw [hab.2]; exact ha.1, by rw [he]; exact ha.2⟩
    · rw [get_open ha.1]; exact ⟨ha, by simp⟩
    · have := Act.rel_zoom (part := fun t : Tree => t.handle o) (put := Tree.putHandle o)
        (Q := fun x y => x = a → Deposit m0 H g o y) (banked_addBlock (m0 := m0) (H := H) (g := g) E b) (fun t m hm e => by
          subst e
          exact ⟨put_open _ _ _, by rw [Tree.handle_put_self]; exact hm ha.2⟩) a
      exact ⟨this.1 rfl, fun t ht => this.2 t ht rfl⟩

theorem deposit_later {E : Env} {o : Address} {s u : Tree} (hok : ((Op.derivFlush o).run E s).out = .ok ())
    (hu : Later E ((Op.derivFlush o).run E s).final u) :
    Deposit (((Op.derivFlush o).run E s).final.handle o).chain.blocks.cur
      (((Op.derivFlush o).run E s).final.handle o).chain.height.val
      (((Op.derivFlush o).run E s).final.handle o).genesisHash o u := by
  induction hu with
  | refl =>
    obtain ⟨v, -, -, ho, hf, -⟩ := derivFlush_ok hok
    rw [hf]
    refine ⟨put_open _ _ _, ?_⟩
    rw [Tree.handle_put_self]
    exact banked_flushed (Nat.le_refl _) fun _ _ => rfl
  | call s' op _ ih => exact deposit_op E op s' ih

/-- The databases of a derivative chain keep what was flushed. Whatever is called after the flush has returned, and
whatever a power failure then makes of the config file: the block database of the chain has every block below the flushed
height, unchanged. If the config file can be read, the chain opens at its height and returns the flushed blocks up to
there; and if it is as last written, the chain opens at the flushed height or above, with the anchor it had. (Missing:
config files that are missing, cut short, or from before the flush.) -/
theorem C155_databases_partial (E : Env) (past' : List Tree) (s u : Tree) (o : Address) (d : Disk)
    (hok : ((Op.derivFlush o).run E s).out = .ok ()) (hu : Later E ((Op.derivFlush o).run E s).final u)
    (hd : PowerLoss past' u d) :
    (∀ q : U256, q.val < (((Op.derivFlush o).run E s).final.handle o).chain.height.val →
      (d.deriv (hexEncode o.val)).blocks.get q.toBE.val =
        (((Op.derivFlush o).run E s).final.handle o).chain.findRawByHeight q) ∧
    (∀ b h df g, (openTree E d).final.main.getLastBlock = .ok (some b) →
      DerivativeChain.readConfig (b.hash E) (d.deriv (hexEncode o.val)).config = .ok (h, df, g) →
      ((Op.getDerivativeChain o).run E (openTree E d).final).out = .ok () ∧
      (((Op.getDerivativeChain o).run E (openTree E d).final).final.handle o).chain.height = h ∧
      (((Op.getDerivativeChain o).run E (openTree E d).final).final.handle o).genesisHash = g ∧
      ∀ q : U256, q.val < (((Op.derivFlush o).run E s).final.handle o).chain.height.val → q.val ≤ h.val →
        (((Op.getDerivativeChain o).run E (openTree E d).final).final.handle o).chain.findRawByHeight q =
          (((Op.derivFlush o).run E s).final.handle o).chain.findRawByHeight q) ∧
    (∀ b, (openTree E d).final.main.getLastBlock = .ok (some b) →
      (d.deriv (hexEncode o.val)).config = (u.derivFiles (hexEncode o.val)).config →
      ((Op.getDerivativeChain o).run E (openTree E d).final).out = .ok () ∧
      (((Op.derivFlush o).run E s).final.handle o).chain.height.val ≤
        (((Op.getDerivativeChain o).run E (openTree E d).final).final.handle o).chain.height.val ∧
      (((Op.getDerivativeChain o).run E (openTree E d).final).final.handle o).genesisHash =
        (((Op.derivFlush o).run E s).final.handle o).genesisHash ∧
      ∀ q : U256, q.val < (((Op.derivFlush o).run E s).final.handle o).chain.height.val →
        (((Op.getDerivativeChain o).run E (openTree E d).final).final.handle o).chain.findRawByHeight q =
          (((Op.derivFlush o).run E s).final.handle o).chain.findRawByHeight q) := by
  obtain ⟨ho, hb⟩ := deposit_later hok hu
  have hblocks : (u.handle o).chain.blocks = (u.derivFiles (hexEncode o.val)).blocks := rfl
  have hconfig : (u.handle o).chain.config = (u.derivFiles (hexEncode o.val)).config := rfl
  generalize hF : ((Op.derivFlush o).run E s).final.handle o = c at hb ⊢
  have hq : ∀ q : U256, q.val < c.chain.height.val →
      (d.deriv (hexEncode o.val)).blocks.get q.toBE.val = c.chain.findRawByHeight q := by
    intro q hq
    rw [hb.blocks _ (.inr (by rw [hblocks]; exact (hd.deriv _).1)) q hq]
    unfold Chain.findRawByHeight
    rw [if_neg (by omega)]
    rfl
  have hr : ∀ b h df g, (openTree E d).final.main.getLastBlock = .ok (some b) →
      DerivativeChain.readConfig (b.hash E) (d.deriv (hexEncode o.val)).config = .ok (h, df, g) →
      ((Op.getDerivativeChain o).run E (openTree E d).final).out = .ok () ∧
      (((Op.getDerivativeChain o).run E (openTree E d).final).final.handle o).chain.height = h ∧
      (((Op.getDerivativeChain o).run E (openTree E d).final).final.handle o).genesisHash = g ∧
      ∀ q : U256, q.val < c.chain.height.val → q.val ≤ h.val →
        (((Op.getDerivativeChain o).run E (openTree E d).final).final.handle o).chain.findRawByHeight q =
          c.chain.findRawByHeight q := by
    intro b h df g hl hr
    obtain ⟨g1, g2⟩ := opens_at (o := o) hl hr
    rw [g2]
    refine ⟨g1, rfl, rfl, fun q h1 h2 => ?_⟩
    rw [← hq q h1]
    unfold Chain.findRawByHeight
    simp only
    rw [if_neg (by omega)]
    rfl
  refine ⟨hq, hr, fun b hl he => ?_⟩
  obtain ⟨h, df, hc, hH⟩ := hb.config
  obtain ⟨r1, r2, r3, r4⟩ := hr b h df c.genesisHash hl (by rw [he, ← hconfig]; exact hc _)
  exact ⟨r1, by rw [r2]; exact hH, r3, fun q hq => r4 q hq (by omega)⟩

/-! ## The chain is never too long -/

/-- A height that can be read from a config file. -/
def ReadsAs (f : Option Bytes) (h : U256) : Prop := ∃ p df g, DerivativeChain.readConfig p f = .ok (h, df, g)

theorem readsAs_short {f : Bytes} (hf : f.length < 96) (h : U256) : ¬ ReadsAs (some f) h := by
  rintro ⟨p, df, g, hr⟩
  unfold DerivativeChain.readConfig at hr
  simp only at hr
  split at hr
  · split at hr
    · rw [dif_neg (by omega)] at hr; cases hr
    · cases hr
  · cases hr

theorem readsAs_unique {f : Option Bytes} {h h' : U256} (h1 : ReadsAs f h) (h2 : ReadsAs f h') : h = h' := by
  obtain ⟨p, df, g, h1⟩ := h1
  obtain ⟨p', df', g', h2⟩ := h2
  cases f with
  | none => cases h1; cases h2; rfl
  | some f =>
    have : DerivativeChain.readConfig p (some f) = DerivativeChain.readConfig p' (some f) := rfl
    rw [this, h2] at h1
    cases h1; rfl

/-- `n` is at most the height of the chain of `o`, or, if it is not open, the height it would open at. -/
def Upto (o : Address) (t : Tree) (n : Nat) : Prop :=
  (IsOpen o t ∧ n ≤ (t.handle o).chain.height.val) ∨
  (t.derivMem o = none ∧ ∃ h, ReadsAs (t.derivFiles (hexEncode o.val)).config h ∧ n ≤ h.val)

theorem upto_same {o : Address} {s t : Tree} (h : OwnSame o s t) {n : Nat} (hn : Upto o s n) : Upto o t n := by
  have he : t.handle o = s.handle o := by unfold Tree.handle; rw [h.1, h.2]
  unfold Upto IsOpen
  rw [he, h.1, h.2]
  exact hn

theorem upto_get {E : Env} {o : Address} {s : Tree} {n : Nat} (hn : Upto o s n) :
    Throughout (fun t => (t.derivFiles (hexEncode o.val)).config = (s.derivFiles (hexEncode o.val)).config ∧ Upto o t n)
      (Tree.getDerivativeChain E o s) := by
  rcases Tree.getDeriv_cases E o s with ⟨_, e⟩ | ⟨hm, ⟨out, _, e⟩ | ⟨b, c, _, hc, e⟩⟩
  · rw [e]; exact ⟨⟨rfl, hn⟩, by simp⟩
  · rw [e]; exact ⟨⟨rfl, hn⟩, by simp⟩
  · have : (((Tree.putHandle o c s).derivFiles (hexEncode o.val)).config = (s.derivFiles (hexEncode o.val)).config) ∧
        Upto o (Tree.putHandle o c s) n := by
      rw [put_config]
      unfold DerivativeChain.new at hc
      cases hr : DerivativeChain.readConfig (b.hash E) (s.derivFiles (hexEncode o.val)).config with
      | ok r =>
        obtain ⟨h, df, g⟩ := r
        rw [hr] at hc
        cases hc
        refine ⟨rfl, .inl ⟨put_open _ _ _, ?_⟩⟩
        rw [Tree.handle_put_self]
        rcases hn with ⟨ho, -⟩ | ⟨-, h', h1, h2⟩
        · unfold IsOpen at ho; rw [hm] at ho; cases ho
        · rw [readsAs_unique (h := h) ⟨_, _, _, hr⟩ h1]
          exact h2
      | err e => rw [hr] at hc; cases hc
      | panic => rw [hr] at hc; cases hc
      | ub => rw [hr] at hc; cases hc
    rw [e]
    exact ⟨this, by simpa using this⟩

theorem upto_op {E : Env} {o : Address} {s : Tree} {n : Nat} (op : Op) (hf : op ≠ .derivFlush o) (hn : Upto o s n) :
    Throughout (fun t => (t.derivFiles (hexEncode o.val)).config = (s.derivFiles (hexEncode o.val)).config ∧ Upto o t n)
      (op.run E s) := by
  refine owner_op (P := fun t => (t.derivFiles (hexEncode o.val)).config = (s.derivFiles (hexEncode o.val)).config ∧ Upto o t n)
    (fun a b hab ha => ⟨by rw [hab.1]; exact ha.1, upto_same hab ha.2⟩) (fun a ha => ?_) (fun a b ha ho => ?_) s op hf ⟨rfl, hn⟩
  · have := upto_get (E := E) ha.2
    exact ⟨⟨this.1.1.trans ha.1, this.1.2⟩, fun t ht => ⟨(this.2 t ht).1.trans ha.1, (this.2 t ht).2⟩⟩
  · have hle : n ≤ (a.handle o).chain.height.val := by
      rcases ha.2 with h | h
      · exact h.2
      · unfold IsOpen at ho; rw [h.1] at ho; cases ho
    have hx : Act.Rel (fun c c' : DerivativeChain => c.chain.height.val ≤ c'.chain.height.val ∧ c'.chain.config = c.chain.config)
        (DerivativeChain.addBlock E b) :=
      DerivativeChain.addBlock_rel (R := fun a b => a.height.val ≤ b.height.val ∧ b.config = a.config)
        (Chain.addBlock_rel E (fun _ => ⟨Nat.le_refl _, rfl⟩) _ _ (fun _ _ => ⟨Nat.le_refl _, rfl⟩)
          (fun _ _ => ⟨Nat.le_refl _, rfl⟩) (fun _ _ _ => ⟨Nat.le_succ _, rfl⟩)) fun _ _ h => h
    have := Act.rel_zoom (part := fun t : Tree => t.handle o) (put := Tree.putHandle o)
      (Q := fun x y => x = a → (y.derivFiles (hexEncode o.val)).config = (s.derivFiles (hexEncode o.val)).config ∧ Upto o y n)
      hx (fun t m hm e => by
        subst e
        refine ⟨by rw [put_config, hm.2]; exact ha.1, .inl ⟨put_open _ _ _, ?_⟩⟩
        rw [Tree.handle_put_self]
        exact Nat.le_trans hle hm.1) a
    exact ⟨this.1 rfl, fun t ht => this.2 t ht rfl⟩

theorem midFlush_reads {c : DerivativeChain} {f : Option Bytes} (h : MidFlush c f) {x : U256} (hx : ReadsAs f x) :
    x = c.chain.height := by
  have l1 : c.chain.height.toBE.val.length = 32 := c.chain.height.toBE.property
  have l2 : c.chain.difficulty.val.length = 32 := c.chain.difficulty.property
  rcases h with rfl | rfl | rfl | rfl
  · exact absurd hx (readsAs_short (by decide) x)
  · exact absurd hx (readsAs_short (by omega) x)
  · exact absurd hx (readsAs_short (by rw [List.length_append]; omega) x)
  · exact readsAs_unique hx ⟨c.genesisHash, _, _, DerivativeChain.readConfig_written c.genesisHash _ _ _⟩

/-- Every config file the chain of `o` has had since the machine was started has at most its present height. -/
theorem powered_upto {E : Env} {past : List Tree} {s : Tree} (o : Address) (hs : Powered E past (.idle s)) :
    ∀ p ∈ s :: past, ∀ h, ReadsAs (p.derivFiles (hexEncode o.val)).config h → Upto o s h.val := by
  generalize hm : Moment.idle s = m at hs
  induction hs generalizing s with
  | opened _ d _ ho =>
    cases hm
    intro p hp h hr
    refine .inr ⟨(reopened (.inr rfl)).1, h, ?_, Nat.le_refl _⟩
    rw [(reopened (.inr rfl)).2]
    rcases List.mem_cons.mp hp with rfl | hp
    · rw [(reopened (.inr rfl)).2] at hr; exact hr
    · rcases List.mem_cons.mp hp with rfl | hp
      · exact hr
      · rw [(reopened (.inl hp)).2] at hr; exact hr
  | call past s' op _ ih =>
    cases hm
    have ih := ih rfl
    intro p hp h hr
    by_cases hf : op = .derivFlush o
    · subst hf
      have flushing : ∀ v : Tree, ∀ n, IsOpen o v → Upto o v n →
          Upto o (Tree.putHandle o (v.handle o).flushed v) n := by
        intro v n ho hn
        refine .inl ⟨put_open _ _ _, ?_⟩
        rw [Tree.handle_put_self]
        rcases hn with hn | hn
        · exact hn.2
        · unfold IsOpen at ho; rw [hn.1] at ho; cases ho
      rcases Act.bind_cases (Tree.getDerivativeChain E o) (fun _ => Tree.onDeriv o DerivativeChain.flush) s' with
        ⟨a, h1, h2, h3, h4⟩ | ⟨-, h2, h3, -⟩
      · have hok : ((Op.derivFlush o).run E s').out = .ok () := by
          refine h4.trans ?_
          unfold Tree.onDeriv
          rw [Act.zoom_run]
          exact (DerivativeChain.flush_run ((Tree.getDerivativeChain E o s').final.handle o)).1
        obtain ⟨v, hv, -, ho, hfin, htr, -⟩ := derivFlush_ok hok
        have first : ∀ h, ReadsAs (s'.derivFiles (hexEncode o.val)).config h → Upto o v h.val := by
          intro h hr
          rw [hv]
          exact (upto_get (ih s' List.mem_cons_self h hr)).1.2
        have mid : ∀ f h, MidFlush (v.handle o) f → ReadsAs f h → Upto o (Tree.putHandle o (v.handle o).flushed v) h.val := by
          intro f h hm hr
          rw [midFlush_reads hm hr]
          refine .inl ⟨put_open _ _ _, ?_⟩
          rw [Tree.handle_put_self]
          exact Nat.le_refl _
        rw [hfin] at hp ⊢
        rcases List.mem_cons.mp hp with rfl | hp
        · refine mid _ h (.inr (.inr (.inr ?_))) hr
          rw [put_config]; rfl
        · rcases List.mem_append.mp hp with hp | hp
          · refine flushing v _ ho ?_
            rw [hv]
            exact (upto_get (ih p (List.mem_cons_of_mem _ hp) h hr)).1.2
          · rcases htr p hp with hp | hp
            · have hc : (p.derivFiles (hexEncode o.val)).config = (s'.derivFiles (hexEncode o.val)).config := (getDeriv_config E o s').2 p hp
              rw [hc] at hr
              exact flushing v _ ho (first h hr)
            · exact mid _ h hp hr
      · have hfin : ((Op.derivFlush o).run E s').final = (Tree.getDerivativeChain E o s').final := h2
        have htr : ((Op.derivFlush o).run E s').trace = (Tree.getDerivativeChain E o s').trace := h3
        rw [hfin, htr] at hp
        rw [hfin]
        rcases List.mem_cons.mp hp with rfl | hp
        · have hc := (getDeriv_config E o s').1
          rw [hc] at hr
          exact (upto_get (ih s' List.mem_cons_self h hr)).1.2
        · rcases List.mem_append.mp hp with hp | hp
          · exact (upto_get (ih p (List.mem_cons_of_mem _ hp) h hr)).1.2
          · rw [(getDeriv_config E o s').2 p hp] at hr
            exact (upto_get (ih s' List.mem_cons_self h hr)).1.2
    · have same : ∀ p, p = (op.run E s').final ∨ p ∈ (op.run E s').trace →
          (p.derivFiles (hexEncode o.val)).config = (s'.derivFiles (hexEncode o.val)).config := by
        have := owner_op (P := fun t => (t.derivFiles (hexEncode o.val)).config = (s'.derivFiles (hexEncode o.val)).config)
          (E := E) (o := o) (fun a b hab ha => by rw [hab.1]; exact ha)
          (fun a ha => ⟨((getDeriv_config E o a).1).trans ha, fun t ht => ((getDeriv_config E o a).2 t ht).trans ha⟩)
          (fun a b ha ho => ?_) s' op hf rfl
        · rintro p (rfl | hp)
          · exact this.1
          · exact this.2 p hp
        · have hx : Act.Rel (fun c c' : DerivativeChain => c'.chain.config = c.chain.config) (DerivativeChain.addBlock E b) :=
            DerivativeChain.addBlock_rel (R := fun a b => b.config = a.config)
              (Chain.addBlock_rel (R := fun a b => b.config = a.config) E (fun _ => rfl) _ _ (fun _ _ => rfl) (fun _ _ => rfl) (fun _ _ _ => rfl)) fun _ _ h => h
          have := Act.rel_zoom (part := fun t : Tree => t.handle o) (put := Tree.putHandle o)
            (Q := fun x y => x = a → (y.derivFiles (hexEncode o.val)).config = (s'.derivFiles (hexEncode o.val)).config)
            hx (fun t m hm e => by subst e; rw [put_config, hm]; exact ha) a
          exact ⟨this.1 rfl, fun t ht => this.2 t ht rfl⟩
      rcases List.mem_cons.mp hp with rfl | hp
      · rw [same _ (.inl rfl)] at hr
        exact (upto_op op hf (ih s' List.mem_cons_self h hr)).1.2
      · rcases List.mem_append.mp hp with hp | hp
        · exact (upto_op op hf (ih p (List.mem_cons_of_mem _ hp) h hr)).1.2
        · rw [same p (.inr hp)] at hr
          exact (upto_op op hf (ih s' List.mem_cons_self h hr)).1.2
  | _ => cases hm

/-- C155. A power failure between two calls never makes a derivative chain appear longer than it was: if the chain was open
and opens again, its height is at most the height it had. -/
theorem C155_no_higher (E : Env) (past : List Tree) (s : Tree) (o : Address) (d : Disk) (b : Block)
    (hs : Powered E past (.idle s)) (ho : IsOpen o s) (hd : PowerLoss past s d)
    (hb : (openTree E d).final.main.getLastBlock = .ok (some b))
    (hok : ((Op.getDerivativeChain o).run E (openTree E d).final).out = .ok ()) :
    (((Op.getDerivativeChain o).run E (openTree E d).final).final.handle o).chain.height.val ≤ (s.handle o).chain.height.val := by
  cases hr : DerivativeChain.readConfig (b.hash E) (d.deriv (hexEncode o.val)).config with
  | ok r =>
    obtain ⟨h, df, g⟩ := r
    obtain ⟨-, g2⟩ := opens_at (o := o) hb hr
    rw [g2]
    obtain ⟨p, hp, hc⟩ := (hd.deriv (hexEncode o.val)).2.2
    rw [hc] at hr
    rcases powered_upto o hs p hp h ⟨_, _, _, hr⟩ with h | h
    · exact h.2
    · unfold IsOpen at ho; rw [h.1] at ho; cases ho
  | _ =>
    exfalso
    rcases Tree.getDeriv_cases E o (openTree E d).final with ⟨ho, _⟩ | ⟨-, ⟨out, hout, e⟩ | ⟨b', c, hb', hc, e⟩⟩
    · rw [(reopened (.inr rfl)).1] at ho; cases ho
    · rw [show (Op.getDerivativeChain o).run E (openTree E d).final = _ from e] at hok
      exact hout () hok
    · rw [hb] at hb'
      cases hb'
      unfold DerivativeChain.new at hc
      rw [(reopened (.inr rfl)).2, show DerivativeChain.readConfig (b.hash E) (fileOf o d) = _ from hr] at hc
      cases hc

/-- A case as in the theorems above: a derivative chain with one block is flushed on a fresh node, and the power fails. -/
example (E : Env) (o : Address) : ∃ past s d, Powered E past (.idle s) ∧ ((Op.derivFlush o).run E s).out = .ok () ∧
    PowerLoss (past ++ ((Op.derivFlush o).run E s).trace) ((Op.derivFlush o).run E s).final d ∧
    (((Op.derivFlush o).run E s).final.handle o).chain.height.val = 1 ∧
    (∃ p ∈ past, (p.derivFiles (hexEncode o.val)).config = none) ∧
    (openTree E d).final.main.getLastBlock = .ok (some (genesis E)) ∧
    (d.deriv (hexEncode o.val)).config = (((Op.derivFlush o).run E s).final.derivFiles (hexEncode o.val)).config := by
  obtain ⟨f1, f2, f3, -⟩ := freshWith_flush E o (oneDeriv E)
  have hs := Powered.call _ _ (.derivAddBlock o exDerivBlock) (.opened _ _ (.start (E := E)) (openTree_fresh E).1)
  rw [fresh_add] at hs
  have hc := freshWith_crash E o (oneDeriv E).flushed (oneDeriv E).chain.blocks.cur
    (oneDeriv E).chain.heightReference.cur (List.mem_singleton.mpr rfl) (List.mem_singleton.mpr rfl)
  rw [← f2] at hc
  refine ⟨_, _, _, hs, f1, ⟨hc.blocks, hc.heightReference, hc.transactions, ⟨_, List.mem_cons_self, hc.config⟩, hc.summary,
    hc.oldSummary, hc.gas, hc.oldGas, fun n => ⟨(hc.deriv n).1, (hc.deriv n).2.1, _, List.mem_cons_self, (hc.deriv n).2.2⟩⟩,
    ?_, ⟨Disk.empty.boot, by simp, rfl⟩, (onlyDeriv_opens E o _).2.1, (hc.deriv _).2.2⟩
  rw [f2]
  unfold freshWith
  rw [Tree.handle_put_self]
  rfl

end BCT.Props
