import Verif.Props.Miner
import Verif.Props.Crash
import Verif.Props.Power
/-!
# C136: the mining example killed at any moment
-/

namespace BCT.Props
open BCT

section
variable {E : Env} {S : SigScheme} {w : Address} {secret : BytesN 32} {T : UInt64} {K M N : Nat} {n : Spec.Node} {t : Tree}

/-! ## The calls of a round -/

/-- What a round calls once a nonce is found. -/
def roundOps (w : Address) (txs : List Hash) (pow : BytesN 32) (c : UInt64) (fee : U256) : List Op :=
  .emitMain pow w txs c :: .sendAmount ROOT_PUBLIC_ADDRESS.val w.val MAIN_CHAIN_PAYMENT ::
    (txs.map fun _ => Op.addAmount w.val fee) ++ [.flush]

theorem call_trace {β : Type} {op : Op} {f : Unit → Act Tree β} {u : Tree} (h : u ∈ ((Example.call E op >>= f) t).trace) :
    u ∈ (op.run E t).trace ∨ u ∈ (f () (op.run E t).final).trace := by
  cases ho : (op.run E t).out with
  | ok a =>
    have e : Example.call E op t = ⟨.ok (), (op.run E t).final, (op.run E t).trace⟩ := by
      unfold Example.call; rw [ho]; rfl
    rw [Act.bind_ok e] at h
    exact List.mem_append.mp h
  | err a =>
    have e : Example.call E op t = ⟨.panic .unwrap, (op.run E t).final, (op.run E t).trace⟩ := by
      unfold Example.call; rw [ho]; rfl
    rw [Act.bind_panic e] at h
    exact .inl h
  | panic a =>
    have e : Example.call E op t = ⟨.panic a, (op.run E t).final, (op.run E t).trace⟩ := by
      unfold Example.call; rw [ho]; rfl
    rw [Act.bind_panic e] at h
    exact .inl h
  | ub =>
    have e : Example.call E op t = ⟨.ub, (op.run E t).final, (op.run E t).trace⟩ := by
      unfold Example.call; rw [ho]; rfl
    rw [Act.bind_ub e] at h
    exact .inl h

theorem forEach_trace {op : Op} {β : Type} {g : Unit → Act Tree β} {rest : List Op} {u : Tree} :
    ∀ (l : List Hash) (t : Tree), (∀ t, u ∈ (g () t).trace → ∃ ops, ops <+: rest ∧ Stops E t ops u) →
      u ∈ ((Act.forEach l (fun _ => Example.call E op) >>= g) t).trace →
      ∃ ops, ops <+: (l.map fun _ => op) ++ rest ∧ Stops E t ops u
  | [], t, hg, h => hg t h
  | _ :: l, t, hg, h => by
    have h' : u ∈ ((Example.call E op >>= fun _ => Act.forEach l (fun _ => Example.call E op) >>= g) t).trace := by
      rw [← Act.bind_assoc']; exact h
    rcases call_trace h' with h1 | h1
    · exact ⟨[op], List.prefix_append [op] _, .within _ _ _ h1⟩
    · obtain ⟨ops, h2, h3⟩ := forEach_trace l _ hg h1
      exact ⟨op :: ops, (List.prefix_cons_inj op).mpr h2, .after _ _ _ _ h3⟩

theorem finish_trace {d : Hash} {txs : List Hash} {c : UInt64} {pow : BytesN 32} {u : Tree}
    (h : u ∈ (Example.finish E w d txs c (some pow) t).trace) :
    ∃ ops, ops <+: roundOps w txs pow c ⟨Spec.fee d, fee_lt d⟩ ∧ Stops E t ops u := by
  unfold Example.finish at h
  simp only at h
  rcases call_trace h with h | h
  · exact ⟨[_], List.prefix_append [_] _, .within _ _ _ h⟩
  rcases call_trace h with h | h
  · exact ⟨[_, _], List.prefix_append [_, _] _, .after _ _ _ _ (.within _ _ _ h)⟩
  rw [fee_spec, Act.lift_ok_bind] at h
  obtain ⟨ops, h1, h2⟩ := forEach_trace (rest := [.flush]) txs _ (fun t hu => by
    rcases call_trace hu with h | h
    · exact ⟨[_], List.prefix_append [_] _, .within _ _ _ h⟩
    · cases h) h
  exact ⟨_ :: _ :: ops, (List.prefix_cons_inj _).mpr ((List.prefix_cons_inj _).mpr h1), .after _ _ _ _ (.after _ _ _ _ h2)⟩

/-! ## The main chain at every moment -/

/-- The blocks below `B` are in every state the files may be found in, and the config file, if it can be read, has a height
between `H` (with 0 for a chain of one block) and the height of the chain. -/
structure OnFile (m0 : KV) (B H : Nat) (c : MainChain) : Prop where
  blocks : ∀ m, m = c.chain.blocks.cur ∨ m ∈ c.chain.blocks.recov → ∀ q : U256, q.val < B →
    m.get q.toBE.val = m0.get q.toBE.val
  config : ∀ h df, MainChain.readConfig c.chain.config = .ok (h, df) → H ≤ max h.val 1 ∧ h.val ≤ c.chain.height.val
  height : B ≤ c.chain.height.val ∧ H ≤ c.chain.height.val

theorem OnFile.put {m0 : KV} {B H : Nat} {c : MainChain} (h : OnFile m0 B H c) (v : Bytes) :
    ∀ m, m = (c.chain.blocks.insert c.chain.height.toBE.val v).cur ∨
        m ∈ (c.chain.blocks.insert c.chain.height.toBE.val v).recov →
      ∀ q : U256, q.val < B → m.get q.toBE.val = m0.get q.toBE.val := by
  intro m hm q hq
  have hne : q.toBE.val ≠ c.chain.height.toBE.val := fun e => by
    have h1 : q.val = c.chain.height.val := by rw [toBE_inj e]
    have := h.height.1
    omega
  have key : (c.chain.blocks.cur.insert c.chain.height.toBE.val v).get q.toBE.val = m0.get q.toBE.val := by
    rw [KV.get_insert, if_neg (Ne.symm hne)]
    exact h.blocks _ (.inl rfl) q hq
  rcases hm with rfl | hm
  · exact key
  · rcases List.mem_cons.mp hm with rfl | hm
    · exact key
    · exact h.blocks m (.inr hm) q hq

theorem onFile_op {m0 : KV} {B H : Nat} (E : Env) (op : Op) :
    Act.Rel (fun s t : Tree => OnFile m0 B H s.main → OnFile m0 B H t.main) (op.run E) := by
  have hR : Act.PreOrd (fun s t : MainChain => OnFile m0 B H s → OnFile m0 B H t) := Act.inv_preord _
  have hT : Act.PreOrd (fun s t : Tree => OnFile m0 B H s.main → OnFile m0 B H t.main) := ⟨fun _ h => h, fun a b h => b (a h)⟩
  refine Op.sat (main_prims_rel (A := fun _ => True) hR (fun b _ => ?_)
    (fun t => Act.rel_step fun c h => ⟨h.blocks, h.config, h.height⟩) ?_) (Act.rel_closed hT) op op.adds_true
  · exact MainChain.addBlock_rel (E := E) (b := b)
      (R := fun a b : Chain => ∀ T, OnFile m0 B H ⟨a, T⟩ → OnFile m0 B H ⟨b, T⟩)
      (Chain.addBlock_rel E (fun _ _ h => h) _ _
        (fun _ _ _ h => ⟨h.put _, h.config, h.height⟩)
        (fun _ _ _ h => ⟨h.put _, h.config, h.height⟩)
        (fun _ _ _ _ h => ⟨h.put _, fun h' df hr => ⟨(h.config h' df hr).1, Nat.le_succ_of_le (h.config h' df hr).2⟩,
          Nat.le_succ_of_le h.height.1, Nat.le_succ_of_le h.height.2⟩)) fun m _ h => h m.transactions
  · intro c
    have key : ∀ t : MainChain, t.chain.height = c.chain.height → (t.chain.blocks = c.chain.blocks ∨
        t.chain.blocks = c.chain.blocks.flush) →
        (t.chain.config = some [] ∨ t.chain.config = some c.chain.height.toBE.val ∨ t.chain.config = some c.chain.saved) →
        OnFile m0 B H c → OnFile m0 B H t := by
      intro t hh hbl ht h
      refine ⟨fun m hm => h.blocks m ?_, fun h' df hr => ?_, by rw [hh]; exact h.height⟩
      · rcases hbl with e | e
        · rw [e] at hm; exact hm
        · rw [e] at hm
          rcases hm with hm | hm
          · exact .inl hm
          · exact .inl (Db.flush_recov hm)
      · rcases ht with ht | ht | ht
        · rw [ht] at hr; exact absurd hr (readConfig_short (by decide) h' df)
        · rw [ht] at hr; exact absurd hr (readConfig_short (by rw [c.chain.height.toBE.property]; decide) h' df)
        · rw [ht, show MainChain.readConfig (some c.chain.saved) = _ from MainChain.readConfig_written _ _] at hr
          cases hr
          rw [hh]
          exact ⟨Nat.le_trans h.height.2 (Nat.le_max_left _ _), Nat.le_refl _⟩
    rw [MainChain.flush_run]
    refine ⟨key _ rfl (.inr rfl) (.inr (.inr rfl)), fun t ht => ?_⟩
    simp only [List.mem_cons, List.not_mem_nil, or_false] at ht
    rcases ht with rfl | rfl | rfl | rfl | rfl | rfl
    · exact key _ rfl (.inl rfl) (.inl rfl)
    · exact key _ rfl (.inl rfl) (.inr (.inl rfl))
    · exact key _ rfl (.inl rfl) (.inr (.inr rfl))
    all_goals exact key _ rfl (.inr rfl) (.inr (.inr rfl))

theorem stops_onFile {m0 : KV} {B H : Nat} {ops : List Op} {u : Tree} (h : Stops E t ops u) (h0 : OnFile m0 B H t.main) :
    OnFile m0 B H u.main ∧ u.main.chain.height.val ≤ (runAll E t ops).main.chain.height.val := by
  induction h with
  | idle s => exact ⟨h0, Nat.le_refl _⟩
  | within s op t ht => exact ⟨(onFile_op E op s).2 t ht h0, op_height_along E op s t ht⟩
  | after s op ops t _ ih => exact ih ((onFile_op E op s).1 h0)

/-! ## The wallet at every moment -/

/-- The states between the calls of a round. -/
theorem round_states (h : Matches E t n) (r : Ready E w T K M N n) (hw : w ≠ ROOT_PUBLIC_ADDRESS) (hb : K + M < 10 ^ 50)
    {txs : List Hash} (htx : txs = [] ∨ ∃ x, txs = [x]) (ht : txs = [] ↔ (K + 1) % 1000000 = 0) {c : UInt64}
    (hc : E.overflowChecks = true → T ≤ c) {pow : BytesN 32} {last : Block} (hl : n.tip = some last)
    (hwork : Spec.enoughWork E (Spec.digest E last) last.info.difficulty txs pow = true) {ops : List Op}
    (ho : ops <+: roundOps w txs pow c ⟨Spec.fee last.info.difficulty, fee_lt _⟩) :
    ∃ n', Matches E (runAll E t ops) n' ∧ n'.blocks.length ≤ K + 2 ∧ ∃ pay, n'.coins.get w.val = n.coins.get w.val + pay ∧
      (pay = 0 ∨ 25000000000000000 ≤ pay ∧ pay ≤ 25000000000000000 + 16000000) := by
  have hsz := size_big
  have hlen := r.length
  obtain ⟨n1, n2, n3, s1, s2, s3, r3, hch, htxs, g1, g2, ⟨f, hf, g3⟩, b1, b2, bl, hbl, hcon⟩ := r.mined hw hb ht hc hl hwork
  have s1' : n.step E (.emitMain pow w txs c) = (.done, n1) := s1
  obtain ⟨_, m1, k1⟩ := Example.call_done h r.short (by omega) s1'
  obtain ⟨_, m2, k2⟩ := Example.call_done m1 k1 (by omega) s2
  have l3 : n3.blocks.length ≤ K + 2 := by rw [hbl, List.length_append, hlen]; simp
  let Q := fun t' : Tree => ∃ n', Matches E t' n' ∧ n'.blocks.length ≤ K + 2 ∧ ∃ pay, n'.coins.get w.val = n.coins.get w.val + pay ∧
      (pay = 0 ∨ 25000000000000000 ≤ pay ∧ pay ≤ 25000000000000000 + 16000000)
  have e0 : Q t := ⟨n, h, by omega, 0, rfl, .inl rfl⟩
  have e1 : Q (runAll E t [.emitMain pow w txs c]) := ⟨n1, m1, by rw [b1]; exact l3, 0, g1, .inl rfl⟩
  have e2 : Q (runAll E t [.emitMain pow w txs c, .sendAmount ROOT_PUBLIC_ADDRESS.val w.val MAIN_CHAIN_PAYMENT]) :=
    ⟨n2, m2, by rw [b2]; exact l3, _, g2, .inr ⟨Nat.le_refl _, by omega⟩⟩
  have hflush : ∀ t', Matches E t' n3 → Q t' ∧ Q (Op.flush.run E t').final := by
    intro t' m
    have q : ∀ t'', Matches E t'' n3 → Q t'' := fun t'' m' =>
      ⟨n3, m', l3, 25000000000000000 + f, by rw [g3]; omega, .inr ⟨by omega, by omega⟩⟩
    exact ⟨q _ m, q _ (flush_call m).2⟩
  show Q (runAll E t ops)
  rcases htx with htx | ⟨x, htx⟩
  · rw [if_pos (ht.mp htx)] at s3
    subst s3
    subst htx
    unfold roundOps at ho
    simp only [List.map_nil, List.nil_append, List.cons_append, List.prefix_cons_iff, List.prefix_nil] at ho
    rcases ho with rfl | ⟨_, rfl, rfl | ⟨_, rfl, rfl | ⟨_, rfl, rfl⟩⟩⟩
    · exact e0
    · exact e1
    · exact e2
    · exact (hflush _ m2).2
  · have hep : ¬ (K + 1) % 1000000 = 0 := fun e => by rw [htx] at ht; simpa using ht.mpr e
    rw [if_neg hep] at s3
    obtain ⟨_, m3, _⟩ := Example.call_done m2 k2 (by omega) s3
    subst htx
    unfold roundOps at ho
    simp only [List.map_cons, List.map_nil, List.nil_append, List.cons_append, List.prefix_cons_iff, List.prefix_nil] at ho
    rcases ho with rfl | ⟨_, rfl, rfl | ⟨_, rfl, rfl | ⟨_, rfl, rfl | ⟨_, rfl, rfl⟩⟩⟩⟩
    · exact e0
    · exact e1
    · exact e2
    · exact (hflush _ m3).1
    · exact (hflush _ m3).2

/-- What the wallet has in the state of a database. -/
def holds (m : KV) (w : Address) : Outcome U256 := Ledger.balance (m.get w.val)

/-- The node at the beginning of a round. -/
structure RoundStart (E : Env) (w : Address) (T : UInt64) (K M N : Nat) (t : Tree) (n : Spec.Node) : Prop where
  same : Matches E t n
  ready : Ready E w T K M N n
  wallet : ∀ m ∈ t.summary.recov, holds m w = holds t.summary.cur w
  files : OnFile t.main.chain.blocks.cur (if K = 0 then 0 else K + 1) (K + 1) t.main

/-- Whatever a round is doing when it is stopped. -/
theorem round_killed (hs : RoundStart E w T K M N t n) (hw : w ≠ ROOT_PUBLIC_ADDRESS) (hb : K + M < 10 ^ 50) {c : UInt64}
    (hc : E.overflowChecks = true → T ≤ c) {u : Tree} (hu : u ∈ (Example.mineRound E w c t).trace) :
    ∃ x, (∀ m ∈ u.summary.recov, ∃ y pay, holds m w = .ok y ∧ y.val = x + pay ∧
        (pay = 0 ∨ 25000000000000000 ≤ pay ∧ pay ≤ 25000000000000000 + 16000000)) ∧ x = n.coins.get w.val ∧
      OnFile t.main.chain.blocks.cur (if K = 0 then 0 else K + 1) (K + 1) u.main ∧ u.main.chain.height.val ≤ K + 2 := by
  have h := hs.same
  have r := hs.ready
  have hsz := size_big
  have hlen := r.length
  obtain ⟨_, ha, hav⟩ := Example.amount_ok h w
  obtain ⟨_, hr, _⟩ := Example.amount_ok h ROOT_PUBLIC_ADDRESS
  obtain ⟨b, ht, hlast, hread, hheight⟩ | ⟨ht, _⟩ := h.last
  · have hnext : b.info.height.add U256.one = .ok (U256.ofNat (K + 1)) := add_one_eq (by omega) (by omega)
    have hnv : (U256.ofNat (K + 1)).val = K + 1 := ofNat_val (by omega)
    have hdig : b.hash E = Spec.digest E b := rfl
    have he : BLOCKS_PER_EPOCH = 1000000 := rfl
    have hrun : Example.mineRound E w c t = Example.finish E w b.info.difficulty (if (K + 1) % 1000000 = 0 then [] else [BytesN.fill 32 25]) c
        (Example.search E (Spec.digest E b) b.info.difficulty (if (K + 1) % 1000000 = 0 then [] else [BytesN.fill 32 25])) t := by
      unfold Example.mineRound
      rw [Example.ask_bind ha, Example.ask_bind hr]
      unfold Example.mineOnce
      rw [Example.ask_bind hread]
      simp only [Outcome.ofOption_some, Act.lift_ok_bind, hnext, hnv, hdig, he]
    rw [hrun] at hu
    generalize htx : (if (K + 1) % 1000000 = 0 then [] else [BytesN.fill 32 25]) = txs at hu
    have htn : txs = [] ↔ (K + 1) % 1000000 = 0 := by
      rw [← htx]
      by_cases hep : (K + 1) % 1000000 = 0 <;> simp [hep]
    have htn' : txs = [] ∨ ∃ x, txs = [x] := by
      rw [← htx]
      split
      · exact .inl rfl
      · exact .inr ⟨_, rfl⟩
    cases hse : Example.search E (Spec.digest E b) b.info.difficulty txs with
    | none =>
      rw [hse] at hu
      cases hu
    | some pow =>
      rw [hse] at hu
      obtain ⟨ops, ho, hst⟩ := finish_trace hu
      have key := fun {l : List Op} (hl : l <+: _) => round_states h r hw hb htn' htn hc ht (Example.search_some hse) (ops := l) hl
      obtain ⟨f1, f2⟩ := stops_onFile hst hs.files
      refine ⟨n.coins.get w.val, fun m hm => ?_, rfl, f1, ?_⟩
      · rcases stops_recov (p := Tree.summary) (fun op s => op.once_summary s) hst hm with hm | ⟨k, hk, rfl⟩
        · exact ⟨_, 0, (hs.wallet m hm).trans ha, hav, .inl rfl⟩
        · obtain ⟨n', m', _, pay, q1, q2⟩ := key ((List.take_prefix k ops).trans ho)
          obtain ⟨y, y1, y2⟩ := Example.amount_ok m' w
          exact ⟨y, pay, y1, by rw [y2, q1], q2⟩
      · obtain ⟨n', m', l', _⟩ := key ho
        have : (runAll E t ops).main.chain.height.val = n'.blocks.length := m'.height
        omega
  · obtain ⟨_, _, hb2, _⟩ := r.tip
    rw [ht] at hb2
    cases hb2

/-- Stopped in the loop, a program is stopped in one of its rounds. -/
theorem rounds_trace {round : UInt64 → Act Tree Bool} {P : UInt64 → Nat → Tree → Prop} {bound : Nat} {ch : Bool} {u : Tree}
    (hround : ∀ T i t c, P T i t → (ch = true → T ≤ c) → i < bound →
      (∀ c, round c t = ⟨.ok false, t, []⟩) ∨ ∃ t' tr, round c t = ⟨.ok true, t', tr⟩ ∧ P c (i + 1) t') :
    ∀ (cs : List UInt64) (T : UInt64) (i : Nat) (t : Tree), P T i t → (ch = true → Forward T cs) → i + cs.length ≤ bound →
      u ∈ (Example.rounds round cs t).trace →
      ∃ T' j t' c, P T' j t' ∧ (ch = true → T' ≤ c) ∧ i ≤ j ∧ j < i + cs.length ∧ u ∈ (round c t').trace
  | [], T, i, t, _, _, _, hu => by cases hu
  | c :: cs, T, i, t, hP, hf, hb, hu => by
    rw [List.length_cons] at hb
    rcases hround T i t c hP (fun ho => (hf ho).1) (by omega) with hst | ⟨t1, tr1, e, hP1⟩
    · rw [Example.rounds_stuck hst] at hu
      cases hu
    · have hu' : u ∈ ((round c >>= fun found => Example.rounds round cs >>= fun k => (pure (if found then k + 1 else k) : Act Tree Nat)) t).trace := hu
      rw [Act.bind_ok e] at hu'
      rcases List.mem_append.mp hu' with hu' | hu'
      · exact ⟨T, i, t, c, hP, fun ho => (hf ho).1, Nat.le_refl _, by rw [List.length_cons]; omega, by rw [e]; exact hu'⟩
      · have hu'' : u ∈ (Example.rounds round cs t1).trace := by
          have hx : ∀ {x : Act Tree Nat} {g : Nat → Nat}, u ∈ ((x >>= fun k => (pure (g k) : Act Tree Nat)) t1).trace → u ∈ (x t1).trace := by
            intro x g hx
            cases ho : (x t1).out with
            | ok a =>
              rw [Act.bind_ok (a := a) (s' := (x t1).final) (t := (x t1).trace) (by rw [← ho])] at hx
              rcases List.mem_append.mp hx with hx | hx
              · exact hx
              · cases hx
            | err a => rwa [Act.bind_err (e := a) (s' := (x t1).final) (t := (x t1).trace) (by rw [← ho])] at hx
            | panic a => rwa [Act.bind_panic (p := a) (s' := (x t1).final) (t := (x t1).trace) (by rw [← ho])] at hx
            | ub => rwa [Act.bind_ub (s' := (x t1).final) (t := (x t1).trace) (by rw [← ho])] at hx
          exact hx hu'
        obtain ⟨T', j, t', c', h1, h2, h3, h4, h5⟩ := rounds_trace hround cs c (i + 1) t1 hP1 (fun ho => (hf ho).2) (by omega) hu''
        exact ⟨T', j, t', c', h1, h2, by omega, by rw [List.length_cons]; omega, h5⟩

theorem RoundStart.lasting (h : Lasting E n t) (hm : Matches E t n) (r : Ready E w T K M N n) : RoundStart E w T K M N t n := by
  have hlen := r.length
  have hh : t.main.chain.height.val = K + 1 := by rw [← hlen]; exact hm.height
  refine ⟨hm, r, ?_, ?_⟩
  · obtain ⟨t', rfl, _, _⟩ := h
    intro m hm
    rw [(flush_op E t').2] at hm ⊢
    rw [Db.flush_recov hm]
    rfl
  · obtain ⟨t', rfl, _, _⟩ := h
    rw [(flush_op E t').2] at hh ⊢
    refine ⟨fun m hm q _ => ?_, fun h df hr => ?_, ?_⟩
    · rcases hm with rfl | hm
      · rfl
      · rw [Db.flush_recov hm]
        rfl
    · have hr' : MainChain.readConfig (some t'.main.chain.saved) = .ok (h, df) := hr
      rw [show MainChain.readConfig (some t'.main.chain.saved) = _ from MainChain.readConfig_written _ _] at hr'
      cases hr'
      have hh' : t'.main.chain.height.val = K + 1 := hh
      exact ⟨by omega, Nat.le_of_eq rfl⟩
    · constructor
      · split <;> omega
      · omega

theorem RoundStart.opened (hw : w ≠ ROOT_PUBLIC_ADDRESS) {d : Disk} (ho : (openTree E d).out = .ok ())
    (hs : Begun E w T K M N (openTree E d).final n) : RoundStart E w T K M N (openTree E d).final n := by
  have hlen := hs.ready.length
  have hh : (openTree E d).final.main.chain.height.val = K + 1 := by rw [← hlen]; exact hs.same.height
  have hne : ROOT_PUBLIC_ADDRESS.val ≠ w.val := fun e => hw (Subtype.ext e.symm)
  refine ⟨hs.same, hs.ready, fun m hm => ?_, ?_⟩
  · have key : ∀ m ∈ (openTree E d).final.summary.recov, m.get w.val = d.summary.get w.val := by
      rw [(opened_ledgers ho).1]
      unfold seedSummary
      split
      · intro m hm
        rcases List.mem_cons.mp hm with rfl | hm
        · show (d.summary.insert _ _).get _ = _
          rw [KV.get_insert, if_neg hne]
        · rw [List.mem_singleton.mp hm]
      · intro m hm
        rw [List.mem_singleton.mp hm]
    have kc : (openTree E d).final.summary.cur.get w.val = d.summary.get w.val := by
      have := seed_other (h := (openTree E d).final.main.getHeight) (m := d.summary) (.inr hne.symm)
      rw [← (opened_ledgers ho).1] at this
      exact this
    unfold holds
    rw [key m hm, kc]
  · rcases openTree_cases d with h | ⟨h, df, hr, hp⟩ | ⟨df, hr⟩
    · rw [openTree_torn h] at ho
      cases ho
    · rw [(openTree_pos (E := E) hr hp).2] at hh ⊢
      have hh' : h.val = K + 1 := hh
      refine ⟨fun m hm q _ => ?_, fun h' df' hr' => ?_, ?_⟩
      · rcases hm with rfl | hm
        · rfl
        · rw [List.mem_singleton.mp hm]
          rfl
      · have hr'' : MainChain.readConfig d.config = .ok (h', df') := hr'
        rw [hr] at hr''
        cases hr''
        exact ⟨by omega, Nat.le_refl _⟩
      · show _ ≤ h.val ∧ _ ≤ h.val
        constructor
        · split <;> omega
        · omega
    · rw [(openTree_zero (E := E) hr).2] at hh ⊢
      have hh' : 1 = K + 1 := hh
      obtain rfl : K = 0 := by omega
      refine ⟨fun m hm q hq => ?_, fun h' df' hr' => ?_, ?_⟩
      · rw [if_pos rfl] at hq
        omega
      · have hr'' : MainChain.readConfig d.config = .ok (h', df') := hr'
        rw [hr] at hr''
        cases hr''
        exact ⟨by decide, Nat.zero_le _⟩
      · exact ⟨Nat.zero_le _, Nat.le_refl _⟩

/-! ## What the next program finds -/

/-- A node found after the miner was killed: there are `K` blocks that were flushed, or one more; the wallet has been paid
for `K` blocks, and for one more with or without its fee, or not. -/
structure Nearly (t : Tree) (w : Address) (K N : Nat) : Prop where
  height : t.main.getHeight.val = K + 1 ∨ t.main.getHeight.val = K + 2
  founder : ∀ i, 0 < i → i ≤ K → ∃ b, t.main.findByHeight (U256.ofNat i) = .ok (some b) ∧ b.info.founder = w
  wallet : ∃ x pay, t.getAmount w = .ok x ∧
    x.val + 228 * N = 25000000000000000 * K + ((List.range K).map (feeAt t)).sum + pay ∧
    (pay = 0 ∨ 25000000000000000 ≤ pay ∧ pay ≤ 25000000000000000 + 16000000)

theorem main_after (hs : RoundStart E w T K M N t n) (hb : K + M < 10 ^ 50) {u : Tree}
    (h2 : OnFile t.main.chain.blocks.cur (if K = 0 then 0 else K + 1) (K + 1) u.main) (h3 : u.main.chain.height.val ≤ K + 2)
    {d : Disk} (hc : Crash u d) (ho : (openTree E d).out = .ok ()) :
    ((openTree E d).final.main.getHeight.val = K + 1 ∨ (openTree E d).final.main.getHeight.val = K + 2) ∧
    ∀ i, i ≤ K → 0 < K → (openTree E d).final.main.findByHeight (U256.ofNat i) = t.main.findByHeight (U256.ofNat i) := by
  have hsz := size_big
  have hh : (openTree E d).final.main.getHeight.val = K + 1 ∨ (openTree E d).final.main.getHeight.val = K + 2 := by
    rcases openTree_cases d with h | ⟨h, df, hr, hp⟩ | ⟨df, hr⟩
    · rw [openTree_torn h] at ho
      cases ho
    · rw [(openTree_pos (E := E) hr hp).2]
      show h.val = _ ∨ h.val = _
      rw [hc.config] at hr
      obtain ⟨a, b⟩ := h2.config h df hr
      omega
    · rw [(openTree_zero (E := E) hr).2]
      show 1 = _ ∨ 1 = _
      rw [hc.config] at hr
      obtain ⟨a, b⟩ := h2.config _ df hr
      have : U256.zero.val = 0 := rfl
      omega
  have hblocks : ∀ i, i ≤ K → 0 < K → (openTree E d).final.main.findByHeight (U256.ofNat i) = t.main.findByHeight (U256.ofNat i) := by
    intro i hi hK
    have hv : (U256.ofNat i).val = i := ofNat_val (by omega)
    have hm := h2.blocks d.blocks (.inr hc.blocks) (U256.ofNat i) (by rw [hv, if_neg (by omega)]; omega)
    have : (openTree E d).final.main.findRawByHeight (U256.ofNat i) = d.blocks.get (U256.ofNat i).toBE.val := by
      rcases openTree_cases d with h | ⟨h, df, hr, hp⟩ | ⟨df, hr⟩
      · rw [openTree_torn h] at ho
        cases ho
      · rw [(openTree_pos (E := E) hr hp).2]
        have hge : K + 1 ≤ h.val := by
          rw [hc.config] at hr
          have := (h2.config h df hr).1
          omega
        unfold MainChain.findRawByHeight Chain.findRawByHeight
        rw [if_neg (by show ¬ h.val < _; omega)]
        rfl
      · rw [(openTree_zero (E := E) hr).2] at hh
        have hh' : 1 = K + 1 ∨ 1 = K + 2 := hh
        omega
    unfold MainChain.findByHeight
    have hraw : t.main.findRawByHeight (U256.ofNat i) = t.main.chain.blocks.cur.get (U256.ofNat i).toBE.val := by
      have hl : t.main.chain.height.val = n.blocks.length := hs.same.height
      unfold MainChain.findRawByHeight Chain.findRawByHeight
      rw [if_neg (by rw [hl, hs.ready.length]; omega)]
      rfl
    rw [this, hm, hraw]
  exact ⟨hh, hblocks⟩

theorem nearly_of (hs : RoundStart E w T K M N t n) (hw : w ≠ ROOT_PUBLIC_ADDRESS) (hb : K + M < 10 ^ 50) {u : Tree}
    (h1 : ∀ m ∈ u.summary.recov, ∃ y pay, holds m w = .ok y ∧ y.val = n.coins.get w.val + pay ∧
        (pay = 0 ∨ 25000000000000000 ≤ pay ∧ pay ≤ 25000000000000000 + 16000000))
    (h2 : OnFile t.main.chain.blocks.cur (if K = 0 then 0 else K + 1) (K + 1) u.main) (h3 : u.main.chain.height.val ≤ K + 2)
    {d : Disk} (hc : Crash u d) (ho : (openTree E d).out = .ok ()) : Nearly (openTree E d).final w K N := by
  have hsz := size_big
  have hp := paid_of hs.same hs.ready (by omega)
  obtain ⟨hh, hblocks⟩ := main_after hs hb h2 h3 hc ho
  refine ⟨hh, fun i h0 hi => ?_, ?_⟩
  · rw [hblocks i hi (by omega)]
    exact hp.founder i h0 hi
  · obtain ⟨y, pay, y1, y2, y3⟩ := h1 d.summary hc.summary
    obtain ⟨x, x1, x2⟩ := hp.wallet
    obtain ⟨x', x1', x2'⟩ := Example.amount_ok hs.same w
    rw [x1] at x1'
    cases x1'
    refine ⟨y, pay, ?_, ?_, y3⟩
    · unfold Tree.getAmount
      rw [(opened_ledgers ho).1, seed_other (.inr (fun e => hw (Subtype.ext e)))]
      exact y1
    · have : (List.range K).map (feeAt (openTree E d).final) = (List.range K).map (feeAt t) := by
        apply List.map_congr_left
        intro i hi
        rw [List.mem_range] at hi
        unfold feeAt
        rw [hblocks i (by omega) (by omega)]
      rw [this, y2, ← x2']
      omega

/-- C136, what holds: at whatever moment the mining example is killed, if the directory can be opened then nothing that was
flushed is lost, and the chain and the wallet are each at most one block ahead of what was flushed. (Missing: that the chain
and the wallet agree about this block, and that the directory can be opened.) -/
theorem C136_off_by_one_partial (hw : w ≠ ROOT_PUBLIC_ADDRESS) {js : List (Job × Nat)} {d : Disk}
    (h : Sessions E S w secret T js d) (cs : List UInt64) (hf : E.overflowChecks = true → Forward T cs)
    (hb : roundsOf js + cs.length < 10 ^ 50) (u : Tree)
    (hu : u = (openTree E d).final ∨ u ∈ ((Job.mine cs).run E S w secret (openTree E d).final).trace) (d' : Disk) (hc : Crash u d')
    (ho : (openTree E d').out = .ok ()) :
    ∃ K, mainBlocks js ≤ K ∧ K ≤ mainBlocks js + cs.length ∧ Nearly (openTree E d').final w K (sentBy js) := by
  obtain ⟨h1, ⟨n, hs⟩, hN, hR⟩ := sessions_ready hw h (by omega)
  have hstart := RoundStart.opened hw h1 hs
  rcases hu with rfl | hu
  · refine ⟨_, Nat.le_refl _, Nat.le_add_right _ _, nearly_of hstart hw (by omega) (fun m hm => ?_) hstart.files ?_ hc ho⟩
    · obtain ⟨x, x1, x2⟩ := Example.amount_ok hs.same w
      exact ⟨x, 0, (hstart.wallet m hm).trans x1, x2, .inl rfl⟩
    · have : (openTree E d).final.main.chain.height.val = n.blocks.length := hs.same.height
      rw [this, hs.ready.length]
      omega
  · obtain ⟨T', j, t', c, ⟨n', a1, a2⟩, a3, a4, a5, a6⟩ := rounds_trace (ch := E.overflowChecks)
      (P := fun T' i t' => ∃ n', RoundStart E w T' (mainBlocks js + i) (chainBlocks js) (sentBy js) t' n' ∧ ∀ o, n'.chains o = none)
      (bound := cs.length) (u := u) (fun T' i t' c ⟨n', b1, b2⟩ hc hi => by
        obtain ⟨_, ha, _⟩ := Example.amount_ok b1.same w
        obtain ⟨_, hr, _⟩ := Example.amount_ok b1.same ROOT_PUBLIC_ADDRESS
        have e : ∀ c, Example.mineRound E w c t' = Example.mineOnce E w [BytesN.fill 32 25] c t' := by
          intro c
          unfold Example.mineRound
          rw [Example.ask_bind ha, Example.ask_bind hr]
        simp only [e]
        rcases Example.mineOnce_run b1.same b1.ready hw (by omega) (BytesN.fill 32 25) hc with
          ⟨g1, _⟩ | ⟨t'', n'', tr, g1, g2, g3, g4, _, _, g5⟩
        · exact .inl g1
        · exact .inr ⟨t'', tr, g1, n'', RoundStart.lasting (g5 b2) g2 g3, fun o => by rw [g4]; exact b2 o⟩)
      cs T 0 _ ⟨n, hstart, hs.closed⟩ hf (by omega) hu
    obtain ⟨x, k1, rfl, k2, k3⟩ := round_killed a1 hw (by omega) a3 a6
    exact ⟨_, Nat.le_add_right _ _, by omega, nearly_of a1 hw (by omega) k1 k2 k3 hc ho⟩

/-! ## How the chain and the wallet come apart -/

theorem ledger_step {c : KV → Outcome KV} (h : (Tree.onSummary (Ledger.transact c) t).out = .ok ()) :
    ∃ m, Tree.onSummary (Ledger.transact c) t =
      ⟨.ok (), { t with summary := t.summary.commit fun _ => m }, [{ t with summary := t.summary.commit fun _ => m }]⟩ := by
  unfold Tree.onSummary at h ⊢
  rw [Act.zoom_run] at h ⊢
  cases hc : c t.summary.cur with
  | ok m => exact ⟨m, by rw [Ledger.transact_ok hc]; rfl⟩
  | err e => rw [Ledger.transact_err hc] at h; cases h
  | panic e => rw [Ledger.transact_panic hc] at h; cases h
  | ub => rw [Ledger.transact_ub hc] at h; cases h

theorem call_mem {op : Op} (h : (op.run E t).out = .ok ()) {β : Type} (f : Unit → Act Tree β) {u : Tree} :
    (u ∈ (op.run E t).trace → u ∈ ((Example.call E op >>= f) t).trace) ∧
    (u ∈ (f () (op.run E t).final).trace → u ∈ ((Example.call E op >>= f) t).trace) := by
  have e : Example.call E op t = ⟨.ok (), (op.run E t).final, (op.run E t).trace⟩ := by unfold Example.call; rw [h]; rfl
  rw [Act.bind_ok e]
  exact ⟨fun hu => List.mem_append_left _ hu, fun hu => List.mem_append_right _ hu⟩

theorem call_ok (h : Matches E t n) {k : Nat} (hk : Short k n) (hm : k + 1 < U256.size) {op : Op} {n' : Spec.Node}
    (hd : n.step E op = (.done, n')) : (op.run E t).out = .ok () := by
  obtain ⟨h1, _⟩ := (sim_step h hk hm op).1
  rw [hd] at h1
  cases ho : (op.run E t).out with
  | ok a => rfl
  | err e => rw [ho] at h1; cases h1
  | panic e => rw [ho] at h1; cases h1
  | ub => rw [ho] at h1; cases h1

/-- The moments of a round at which a crash does harm. -/
theorem round_moments (hs : RoundStart E w T K M N t n) (hd : Sound t) (hw : w ≠ ROOT_PUBLIC_ADDRESS) (hb : K + M < 10 ^ 50)
    (hep : ¬ (K + 1) % 1000000 = 0) {c : UInt64} (hc : E.overflowChecks = true → T ≤ c)
    (hst : ¬ MainStuck E t [BytesN.fill 32 25]) :
    ∃ u s : Tree, u ∈ (Example.mineRound E w c t).trace ∧ Sound u ∧ u.main.chain.config = t.main.chain.config ∧
      (∃ y, u.getAmount w = .ok y ∧ y.val = n.coins.get w.val + 25000000000000000) ∧
      { s with main := { s.main with chain := { s.main.chain with config := some [] } } } ∈ (Example.mineRound E w c t).trace ∧
      { s with main := { s.main with chain := { s.main.chain with config := some s.main.chain.saved } } } ∈
        (Example.mineRound E w c t).trace ∧
      Sound s ∧ s.main.chain.height.val = K + 2 ∧ ∀ m ∈ t.summary.recov, m ∈ s.summary.recov := by
  have h := hs.same
  have r := hs.ready
  have hsz := size_big
  have hlen := r.length
  obtain ⟨_, ha, hav⟩ := Example.amount_ok h w
  obtain ⟨_, hr, _⟩ := Example.amount_ok h ROOT_PUBLIC_ADDRESS
  obtain ⟨b, ht, hlast, hread, hheight⟩ | ⟨ht, _⟩ := h.last
  · have hnext : b.info.height.add U256.one = .ok (U256.ofNat (K + 1)) := add_one_eq (by omega) (by omega)
    have hnv : (U256.ofNat (K + 1)).val = K + 1 := ofNat_val (by omega)
    have hdig : b.hash E = Spec.digest E b := rfl
    have he : BLOCKS_PER_EPOCH = 1000000 := rfl
    have hrun : Example.mineRound E w c t = Example.finish E w b.info.difficulty [BytesN.fill 32 25] c
        (Example.search E (Spec.digest E b) b.info.difficulty [BytesN.fill 32 25]) t := by
      unfold Example.mineRound
      rw [Example.ask_bind ha, Example.ask_bind hr]
      unfold Example.mineOnce
      rw [Example.ask_bind hread]
      simp only [Outcome.ofOption_some, Act.lift_ok_bind, hnext, hnv, hdig, he, if_neg hep]
    cases hse : Example.search E (Spec.digest E b) b.info.difficulty [BytesN.fill 32 25] with
    | none =>
      refine absurd ⟨b, hread, ?_⟩ hst
      have hg : t.main.getHeight.val = K + 1 := by rw [← hlen]; exact h.height
      rw [hg, if_neg hep]
      exact noNonce_of (Example.search_none hse)
    | some pow =>
      rw [hrun, hse]
      obtain ⟨n1, n2, n3, s1, s2, s3, r3, hch, htxs, g1, g2, ⟨f, hf, g3⟩, b1, b2, bl, hbl, hcon⟩ :=
        r.mined hw hb (txs := [BytesN.fill 32 25]) (by simp [hep]) hc ht (Example.search_some hse)
      rw [if_neg hep] at s3
      have s1' : n.step E (.emitMain pow w [BytesN.fill 32 25] c) = (.done, n1) := s1
      have o1 := call_ok h r.short (by omega) s1'
      obtain ⟨_, m1, k1⟩ := Example.call_done h r.short (by omega) s1'
      have o2 := call_ok m1 k1 (by omega) s2
      obtain ⟨_, m2, k2⟩ := Example.call_done m1 k1 (by omega) s2
      have o3 := call_ok m2 k2 (by omega) s3
      obtain ⟨_, m3, k3⟩ := Example.call_done m2 k2 (by omega) s3
      have d1 : Sound ((Op.emitMain pow w [BytesN.fill 32 25] c).run E t).final := (Example.tidy_call E (.emitMain pow w [BytesN.fill 32 25] c) t).1 hd
      have d2 : Sound ((Op.sendAmount ROOT_PUBLIC_ADDRESS.val w.val MAIN_CHAIN_PAYMENT).run E ((Op.emitMain pow w [BytesN.fill 32 25] c).run E t).final).final :=
        (Example.tidy_call E (.sendAmount ROOT_PUBLIC_ADDRESS.val w.val MAIN_CHAIN_PAYMENT) _).1 d1
      have d3 : Sound ((Op.addAmount w.val ⟨Spec.fee b.info.difficulty, fee_lt _⟩).run E
          ((Op.sendAmount ROOT_PUBLIC_ADDRESS.val w.val MAIN_CHAIN_PAYMENT).run E ((Op.emitMain pow w [BytesN.fill 32 25] c).run E t).final).final).final :=
        (Example.tidy_call E (.addAmount w.val ⟨Spec.fee b.info.difficulty, fee_lt _⟩) _).1 d2
      -- what the emission leaves alone
      have f1 : ((Op.emitMain pow w [BytesN.fill 32 25] c).run E t).final.main.chain.config = t.main.chain.config ∧
          ((Op.emitMain pow w [BytesN.fill 32 25] c).run E t).final.summary = t.summary := by
        obtain ⟨bs, hbs⟩ := h.first
        have hho := h.main.holds
        rw [hbs] at hho
        have hh : t.main.chain.height.val = K + 1 := by rw [← hlen]; exact h.height
        rw [emitMain_op] at o1 ⊢
        rcases emitMain_cases hho (by omega) pow w [BytesN.fill 32 25] c with ⟨out, q1, q2, _⟩ |
          ⟨_, _, _, s0, _, _, _, _, _, _, _, _, q2, _, rfl, _, ⟨_, _, _, rfl⟩ | ⟨_, q3, _⟩⟩
        · rw [q2]
          exact ⟨rfl, rfl⟩
        · rw [q2]
          exact ⟨rfl, rfl⟩
        · cases q3
      generalize hS1 : ((Op.emitMain pow w [BytesN.fill 32 25] c).run E t).final = t1 at *
      have e2 : ∃ m, (Op.sendAmount ROOT_PUBLIC_ADDRESS.val w.val MAIN_CHAIN_PAYMENT).run E t1 =
          ⟨.ok (), { t1 with summary := t1.summary.commit fun _ => m }, [{ t1 with summary := t1.summary.commit fun _ => m }]⟩ := by
        have hne : ¬ ROOT_PUBLIC_ADDRESS.val = w.val := fun e => hw (Subtype.ext e.symm)
        have : (Op.sendAmount ROOT_PUBLIC_ADDRESS.val w.val MAIN_CHAIN_PAYMENT).run E t1 =
            Tree.onSummary (Ledger.transact (Ledger.transferClosure ROOT_PUBLIC_ADDRESS.val w.val MAIN_CHAIN_PAYMENT)) t1 := by
          show Tree.sendAmount _ _ _ t1 = _
          unfold Tree.sendAmount
          rw [if_neg hne]
          rfl
        rw [this] at o2 ⊢
        exact ledger_step o2
      obtain ⟨v2, e2⟩ := e2
      obtain ⟨v3, e3⟩ : ∃ m, (Op.addAmount w.val ⟨Spec.fee b.info.difficulty, fee_lt _⟩).run E
            ((Op.sendAmount ROOT_PUBLIC_ADDRESS.val w.val MAIN_CHAIN_PAYMENT).run E t1).final = ⟨.ok (), _, _⟩ := ledger_step o3
      have o4 := (flush_op E ((Op.addAmount w.val ⟨Spec.fee b.info.difficulty, fee_lt _⟩).run E
            ((Op.sendAmount ROOT_PUBLIC_ADDRESS.val w.val MAIN_CHAIN_PAYMENT).run E t1).final).final).1
      have htrace : ∀ u, u ∈ ((Op.sendAmount ROOT_PUBLIC_ADDRESS.val w.val MAIN_CHAIN_PAYMENT).run E t1).trace ∨
          u ∈ (Op.flush.run E ((Op.addAmount w.val ⟨Spec.fee b.info.difficulty, fee_lt _⟩).run E
            ((Op.sendAmount ROOT_PUBLIC_ADDRESS.val w.val MAIN_CHAIN_PAYMENT).run E t1).final).final).trace →
          u ∈ (Example.finish E w b.info.difficulty [BytesN.fill 32 25] c (some pow) t).trace := by
        intro u hu
        unfold Example.finish
        simp only
        refine (call_mem o1 _).2 ?_
        rw [hS1]
        rcases hu with hu | hu
        · exact (call_mem o2 _).1 hu
        · refine (call_mem o2 _).2 ?_
          rw [fee_spec, Act.lift_ok_bind]
          show u ∈ (((Example.call E (.addAmount w.val ⟨Spec.fee b.info.difficulty, fee_lt _⟩) >>= fun _ => pure ()) >>= _) _).trace
          rw [Act.bind_assoc']
          refine (call_mem o3 _).2 ?_
          rw [Act.bind_ok (show (pure () : Act Tree Unit) _ = ⟨.ok (), _, []⟩ from rfl)]
          exact (call_mem o4 (fun _ => (pure true : Act Tree Bool))).1 hu
      obtain ⟨tr, g1', g2', g3'⟩ := Tree.flush_run ((Op.addAmount w.val ⟨Spec.fee b.info.difficulty, fee_lt _⟩).run E
            ((Op.sendAmount ROOT_PUBLIC_ADDRESS.val w.val MAIN_CHAIN_PAYMENT).run E t1).final).final
      refine ⟨_, _, htrace _ (.inl (by rw [e2]; exact List.mem_singleton.mpr rfl)), ?_, ?_, ?_, htrace _ (.inr ?_),
        htrace _ (.inr ?_), d3, ?_, ?_⟩
      · rw [e2] at d2; exact d2
      · exact f1.1
      · obtain ⟨y, y1, y2⟩ := Example.amount_ok m2 w
        rw [e2] at y1
        exact ⟨y, y1, by rw [y2, g2]⟩
      · show _ ∈ (Tree.flush _).trace
        rw [g1']
        exact g2'
      · show _ ∈ (Tree.flush _).trace
        rw [g1']
        exact g3'
      · have : _ = n3.blocks.length := m3.height
        rw [hbl, List.length_append, hlen] at this
        exact this
      · intro m hm
        rw [e3, e2]
        exact List.mem_cons_of_mem _ (List.mem_cons_of_mem _ (by rw [f1.2]; exact hm))
  · obtain ⟨_, _, hb2, _⟩ := r.tip
    rw [ht] at hb2
    cases hb2

theorem run_one {c : UInt64} {u : Tree} {secret : BytesN 32} (h : u ∈ (Example.mineRound E w c t).trace) :
    u ∈ ((Job.mine [c]).run E S w secret t).trace := by
  show u ∈ ((Example.mineRound E w c >>= fun found => _) t).trace
  cases ho : (Example.mineRound E w c t).out with
  | ok a =>
    rw [Act.bind_ok (a := a) (s' := (Example.mineRound E w c t).final) (t := (Example.mineRound E w c t).trace) (by rw [← ho])]
    exact List.mem_append_left _ h
  | err a =>
    rw [Act.bind_err (e := a) (s' := (Example.mineRound E w c t).final) (t := (Example.mineRound E w c t).trace) (by rw [← ho])]
    exact h
  | panic a =>
    rw [Act.bind_panic (p := a) (s' := (Example.mineRound E w c t).final) (t := (Example.mineRound E w c t).trace) (by rw [← ho])]
    exact h
  | ub =>
    rw [Act.bind_ub (s' := (Example.mineRound E w c t).final) (t := (Example.mineRound E w c t).trace) (by rw [← ho])]
    exact h

/-- Whenever the miner finds a nonce for a block that does not end an epoch, it may be killed so that the next program finds
the payment without the block, the block without the payment, or nothing, as it cannot start. -/
theorem killed_badly (hw : w ≠ ROOT_PUBLIC_ADDRESS) {js : List (Job × Nat)} {d : Disk} (h : Sessions E S w secret T js d)
    {c : UInt64} (hf : E.overflowChecks = true → T ≤ c) (hb : roundsOf js < 10 ^ 50) (hep : (mainBlocks js + 1) % 1000000 ≠ 0)
    (hst : ¬ MainStuck E (openTree E d).final [BytesN.fill 32 25]) :
    ∃ x, (openTree E d).final.getAmount w = .ok x ∧
    (∃ u ∈ ((Job.mine [c]).run E S w secret (openTree E d).final).trace, ∃ d', Crash u d' ∧ (openTree E d').out = .ok () ∧
      (openTree E d').final.main.getHeight.val = mainBlocks js + 1 ∧
      ∃ y, (openTree E d').final.getAmount w = .ok y ∧ y.val = x.val + 25000000000000000) ∧
    (∃ u ∈ ((Job.mine [c]).run E S w secret (openTree E d).final).trace, ∃ d', Crash u d' ∧ (openTree E d').out = .ok () ∧
      (openTree E d').final.main.getHeight.val = mainBlocks js + 2 ∧ (openTree E d').final.getAmount w = .ok x) ∧
    ∃ u ∈ ((Job.mine [c]).run E S w secret (openTree E d).final).trace, ∃ d', Crash u d' ∧
      (openTree E d').out = .err .chainInit := by
  obtain ⟨h1, ⟨n, hs⟩, hN, hR⟩ := sessions_ready hw h (by omega)
  have hstart := RoundStart.opened hw h1 hs
  have hsound : Sound (openTree E d).final := (new_sound (E := E) d.boot).1 (boot_sound d)
  have hne : w.val ≠ ROOT_PUBLIC_ADDRESS.val := fun e => hw (Subtype.ext e)
  obtain ⟨u, s, a1, a2, a3, ⟨y, a4, a5⟩, a6, a7, a8, a9, a10⟩ := round_moments hstart hsound hw (by omega) hep hf hst
  obtain ⟨x, x1, x2⟩ := Example.amount_ok hs.same w
  have hh : (openTree E d).final.main.chain.height.val = mainBlocks js + 1 := by rw [← hs.ready.length]; exact hs.same.height
  have amount : ∀ {d' : Disk}, (openTree E d').out = .ok () → (openTree E d').final.getAmount w = holds d'.summary w := by
    intro d' ho
    unfold Tree.getAmount
    rw [(opened_ledgers ho).1, seed_other (.inr hne)]
    rfl
  refine ⟨x, x1, ⟨u, run_one a1, u.close, a2.close, ?_⟩, ⟨_, run_one a7, ?_⟩, ⟨_, run_one a6, ?_⟩⟩
  · have hcfg : (u.close).config = d.config := by
      show u.main.chain.config = _
      rw [a3]
      rcases openTree_cases d with h | ⟨h, df, hr, hp⟩ | ⟨df, hr⟩
      · rw [openTree_torn h] at h1
        cases h1
      · rw [(openTree_pos (E := E) hr hp).2]
        rfl
      · rw [(openTree_zero (E := E) hr).2]
        rfl
    have hopen : (openTree E u.close).out = .ok () ∧ (openTree E u.close).final.main.getHeight.val = mainBlocks js + 1 := by
      rcases openTree_cases d with h | ⟨h, df, hr, hp⟩ | ⟨df, hr⟩
      · rw [openTree_torn h] at h1
        cases h1
      · rw [(openTree_pos (E := E) hr hp).2] at hh
        rw [← hcfg] at hr
        obtain ⟨o1, o2⟩ := openTree_pos (E := E) hr hp
        exact ⟨o1, by rw [o2]; exact hh⟩
      · rw [(openTree_zero (E := E) hr).2] at hh
        rw [← hcfg] at hr
        obtain ⟨o1, o2⟩ := openTree_zero (E := E) hr
        exact ⟨o1, by rw [o2]; exact hh⟩
    exact ⟨hopen.1, hopen.2, y, by rw [amount hopen.1]; exact a4, by rw [a5, x2]⟩
  · have hc : Crash s s.close := a8.close
    have hr : MainChain.readConfig (some s.main.chain.saved) = _ := MainChain.readConfig_written _ _
    refine ⟨{ s.close with config := some s.main.chain.saved, summary := (openTree E d).final.summary.cur },
      ⟨hc.blocks, hc.heightReference, hc.transactions, rfl, a10 _ hsound.summary, hc.oldSummary, hc.gas, hc.oldGas, hc.deriv⟩, ?_⟩
    obtain ⟨o1, o2⟩ := openTree_pos (E := E)
      (d := { s.close with config := some s.main.chain.saved, summary := (openTree E d).final.summary.cur }) hr (by omega)
    exact ⟨o1, by rw [o2]; exact a9, by rw [amount o1]; exact x1⟩
  · have hc : Crash s s.close := a8.close
    refine ⟨{ s.close with config := some [] },
      ⟨hc.blocks, hc.heightReference, hc.transactions, rfl, hc.summary, hc.oldSummary, hc.gas, hc.oldGas, hc.deriv⟩, ?_⟩
    have ht : MainChain.readConfig (some []) = .err .chainInit := by
      rcases MainChain.readConfig_cases (some []) with ⟨h, df, hc⟩ | hc
      · exact absurd hc (readConfig_short (by decide) _ _)
      · exact hc
    rw [openTree_torn ht]

/-- C136, as one would want it: whenever the mining example is killed, another program, if it can start, finds a chain and a
wallet that agree. -/
def C136_full : Prop :=
  ∀ (E : Env) (S : SigScheme) (w : Address) (secret : BytesN 32) (T : UInt64) (js : List (Job × Nat)) (d : Disk),
    w ≠ ROOT_PUBLIC_ADDRESS → Sessions E S w secret T js d → ∀ cs, (E.overflowChecks = true → Forward T cs) →
    roundsOf js + cs.length < 10 ^ 50 → ∀ u ∈ ((Job.mine cs).run E S w secret (openTree E d).final).trace, ∀ d', Crash u d' →
    (openTree E d').out = .ok () → ∃ K, Paid (openTree E d').final w K (sentBy js)

/-- C136 is false: with every block that does not end an epoch there are moments at which a crash leaves the payment without
the block, the block without the payment, and a directory that cannot be opened. -/
theorem C136_refuted :
    (∀ (E : Env) (S : SigScheme) (w : Address) (secret : BytesN 32) (T : UInt64) (js : List (Job × Nat)) (d : Disk) (c : UInt64),
      w ≠ ROOT_PUBLIC_ADDRESS → Sessions E S w secret T js d → (E.overflowChecks = true → T ≤ c) → roundsOf js < 10 ^ 50 →
      (mainBlocks js + 1) % 1000000 ≠ 0 → ¬ MainStuck E (openTree E d).final [BytesN.fill 32 25] →
      ∃ x, (openTree E d).final.getAmount w = .ok x ∧
      (∃ u ∈ ((Job.mine [c]).run E S w secret (openTree E d).final).trace, ∃ d', Crash u d' ∧ (openTree E d').out = .ok () ∧
        (openTree E d').final.main.getHeight.val = mainBlocks js + 1 ∧
        ∃ y, (openTree E d').final.getAmount w = .ok y ∧ y.val = x.val + 25000000000000000) ∧
      (∃ u ∈ ((Job.mine [c]).run E S w secret (openTree E d).final).trace, ∃ d', Crash u d' ∧ (openTree E d').out = .ok () ∧
        (openTree E d').final.main.getHeight.val = mainBlocks js + 2 ∧ (openTree E d').final.getAmount w = .ok x) ∧
      ∃ u ∈ ((Job.mine [c]).run E S w secret (openTree E d).final).trace, ∃ d', Crash u d' ∧
        (openTree E d').out = .err .chainInit) ∧
    ¬ C136_full := by
  refine ⟨fun E S w secret T js d c hw h hf hb hep hst => killed_badly hw h hf hb hep hst, fun hfull => ?_⟩
  have hw : BytesN.fill 33 7 ≠ ROOT_PUBLIC_ADDRESS := by decide +kernel
  obtain ⟨x, _, ⟨u, hu, d', hc, ho, hh, y, y1, y2⟩, _⟩ := killed_badly (S := toyScheme) (secret := BytesN.fill 32 1) (c := 1700000000)
    hw (Sessions.none (E := zeroEnv)) (fun _ => by decide) (by decide) (by decide) (zero_main _ _)
  obtain ⟨K, hp⟩ := hfull zeroEnv toyScheme (BytesN.fill 33 7) (BytesN.fill 32 1) _ _ _ hw .none [1700000000]
    (fun _ => ⟨by decide, trivial⟩) (by decide) u hu d' hc ho
  have hK : K = 0 := by
    have := hp.height
    rw [hh] at this
    have e : mainBlocks [] = 0 := rfl
    omega
  subst hK
  obtain ⟨z, z1, z2⟩ := hp.wallet
  rw [y1] at z1
  cases z1
  simp only [List.range_zero, List.map_nil, List.sum_nil] at z2
  omega

end
end BCT.Props
