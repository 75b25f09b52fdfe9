import Verif.Props.DerivKill
/-!
# C154: the sending example killed at any moment
-/

namespace BCT.Props
open BCT

section
variable {E : Env} {S : SigScheme} {w : Address} {secret : BytesN 32} {T : UInt64} {K M N : Nat} {n : Spec.Node} {t : Tree}

/-! ## The calls -/

/-- What the program calls. -/
inductive Posting (w : Address) (tx : Transaction) : Op → Prop where
  | send : Posting w tx (.sendTransaction tx)
  | mine (pow : BytesN 32) (txs : List Hash) (c : UInt64) : Posting w tx (.emitMain pow w txs c)
  | pay : Posting w tx (.sendAmount ROOT_PUBLIC_ADDRESS.val w.val MAIN_CHAIN_PAYMENT)
  | fee (a : U256) : Posting w tx (.addAmount w.val a)
  | flush : Posting w tx .flush

theorem posting_round {tx : Transaction} {txs : List Hash} {pow : BytesN 32} {c : UInt64} {fee : U256} :
    ∀ op ∈ roundOps w txs pow c fee, Posting w tx op := by
  intro op h
  unfold roundOps at h
  simp only [List.mem_append, List.mem_cons, List.mem_map, List.not_mem_nil, or_false] at h
  rcases h with (rfl | rfl | ⟨_, _, rfl⟩) | rfl
  · exact .mine _ _ _
  · exact .pay
  · exact .fee _
  · exact .flush

theorem mineOnce_trace (h : Matches E t n) (r : Ready E w T K M N n) (hb : K + M < 10 ^ 50) {x : Hash} {c : UInt64} {u : Tree}
    (hu : u ∈ (Example.mineOnce E w [x] c t).trace) :
    ∃ txs pow last ops, (txs = [] ∨ ∃ x, txs = [x]) ∧ (txs = [] ↔ (K + 1) % 1000000 = 0) ∧ n.tip = some last ∧
      Spec.enoughWork E (Spec.digest E last) last.info.difficulty txs pow = true ∧
      ops <+: roundOps w txs pow c ⟨Spec.fee last.info.difficulty, fee_lt _⟩ ∧ Stops E t ops u := by
  have hsz := size_big
  have hlen := r.length
  obtain ⟨b, ht, hlast, hread, hheight⟩ | ⟨ht, _⟩ := h.last
  · have hnext : b.info.height.add U256.one = .ok (U256.ofNat (K + 1)) := add_one_eq (by omega) (by omega)
    have hnv : (U256.ofNat (K + 1)).val = K + 1 := ofNat_val (by omega)
    have hdig : b.hash E = Spec.digest E b := rfl
    have he : BLOCKS_PER_EPOCH = 1000000 := rfl
    have hrun : Example.mineOnce E w [x] c t = Example.finish E w b.info.difficulty (if (K + 1) % 1000000 = 0 then [] else [x]) c
        (Example.search E (Spec.digest E b) b.info.difficulty (if (K + 1) % 1000000 = 0 then [] else [x])) t := by
      unfold Example.mineOnce
      rw [Example.ask_bind hread]
      simp only [Outcome.ofOption_some, Act.lift_ok_bind, hnext, hnv, hdig, he]
    rw [hrun] at hu
    generalize htx : (if (K + 1) % 1000000 = 0 then [] else [x]) = txs at hu
    have htn : txs = [] ↔ (K + 1) % 1000000 = 0 := by
      rw [← htx]
      by_cases hep : (K + 1) % 1000000 = 0 <;> simp [hep]
    have htn' : txs = [] ∨ ∃ x, txs = [x] := by
      rw [← htx]
      split
      · exact .inl rfl
      · exact .inr ⟨_, rfl⟩
    cases hse : Example.search E (Spec.digest E b) b.info.difficulty txs with
    | none =>
      rw [hse] at hu
      cases hu
    | some pow =>
      rw [hse] at hu
      obtain ⟨ops, ho, hst⟩ := finish_trace hu
      exact ⟨txs, pow, b, ops, htn', htn, ht, Example.search_some hse, ho, hst⟩
  · obtain ⟨_, _, hb2, _⟩ := r.tip
    rw [ht] at hb2
    cases hb2

/-! ## The ledgers between the calls -/

/-- What the wallet has in the coin database: the payment has been taken or not, and then the block has been paid or not. -/
def CoinsSent (m : KV) (w : Address) (x : Nat) : Prop :=
  ∃ y s pay, holds m w = .ok y ∧ y.val + 228 * s = x + pay ∧ s ≤ 1 ∧
    (pay = 0 ∨ s = 1 ∧ 25000000000000000 ≤ pay ∧ pay ≤ 25000000000000000 + 16000000)

/-- What the wallet has in the gas database: the transaction has been charged or not. -/
def GasSent (m : KV) (w : Address) (x : Nat) : Prop :=
  (∃ y s, holds m w = .ok y ∧ y.val + 88125000000000 * s = x ∧ s ≤ 1) ∧ ∀ a, a ≠ w → holds m a = .ok U256.zero

/-- The node between two calls of the program. -/
structure Between (w : Address) (K x g : Nat) (t : Tree) : Prop where
  coins : CoinsSent t.summary.cur w x
  gas : GasSent t.gas.cur w g
  height : t.main.chain.height.val ≤ K + 2

theorem between_start (h : Matches E t n) (r : Ready E w T K M N n) : Between w K (n.coins.get w.val) (n.gas.get w.val) t := by
  obtain ⟨x, x1, x2⟩ := Example.amount_ok h w
  obtain ⟨y, y1, y2⟩ := Example.gas_ok h w
  have hh : t.main.chain.height.val = n.blocks.length := h.height
  refine ⟨⟨x, 0, 0, x1, by omega, by omega, .inl rfl⟩, ⟨⟨y, 0, y1, by omega, by omega⟩, (fuelled_of h r).others⟩, ?_⟩
  rw [hh, r.length]
  omega

theorem charged_once {g g' p q N M : Nat} (a : g + p * N = q * M) (b : g' + p * (N + 1) = q * M) : g' + p = g := by
  rw [Nat.mul_succ] at b
  omega

/-- Stopped anywhere, the program is stopped in a list of calls, and between any two of them the node is as above. -/
theorem send_trace (h : Matches E t n) (r : Ready E w T K M N n) (hw : w ≠ ROOT_PUBLIC_ADDRESS) (hN : N ≤ K) {now c : UInt64}
    {tx : Transaction} (hp : Example.payment E S w secret now = .ok tx) (hf : E.overflowChecks = true → T ≤ c)
    (hb : K + M + 1 < 10 ^ 50) {u : Tree} (hu : u ∈ ((Job.send now c).run E S w secret t).trace) :
    ∃ ops, Stops E t ops u ∧ (∀ op ∈ ops, Posting w tx op) ∧
      ∀ l, l <+: ops → Between w K (n.coins.get w.val) (n.gas.get w.val) (runAll E t l) := by
  have hsz := size_big
  obtain ⟨p1, p2, p3, p4, p5⟩ := payment_ok hp
  have hsent := r.sent hw (by omega) hN p1 p2 (by rw [p3]; rfl) p4
  obtain ⟨_, ha, _⟩ := Example.amount_ok h w
  obtain ⟨_, hg, _⟩ := Example.gas_ok h w
  obtain ⟨_, hr, _⟩ := Example.amount_ok h ROOT_PUBLIC_ADDRESS
  have e0 := between_start h r
  have hu1 : u ∈ ((Example.call E (.sendTransaction tx) >>= fun _ =>
      Example.ask (fun t => t.getAmount w) >>= fun _ => Example.ask (fun t => t.getGas w) >>= fun _ =>
      Example.ask (fun t => t.getAmount ROOT_PUBLIC_ADDRESS) >>= fun _ => Example.mineOnce E w [tx.hash] c) t).trace := by
    have hx : ∀ {x : Act Tree Bool} {g : Bool → Nat}, u ∈ ((x >>= fun k => (pure (g k) : Act Tree Nat)) t).trace → u ∈ (x t).trace := by
      intro x g hx
      cases ho : (x t).out with
      | ok a =>
        rw [Act.bind_ok (a := a) (s' := (x t).final) (t := (x t).trace) (by rw [← ho])] at hx
        rcases List.mem_append.mp hx with hx | hx
        · exact hx
        · cases hx
      | err a => rwa [Act.bind_err (e := a) (s' := (x t).final) (t := (x t).trace) (by rw [← ho])] at hx
      | panic a => rwa [Act.bind_panic (p := a) (s' := (x t).final) (t := (x t).trace) (by rw [← ho])] at hx
      | ub => rwa [Act.bind_ub (s' := (x t).final) (t := (x t).trace) (by rw [← ho])] at hx
    have hu' : u ∈ (Example.send E S w secret now c t).trace := hx hu
    unfold Example.send at hu'
    rw [Example.ask_bind ha, Example.ask_bind hg, Example.ask_bind hr, hp] at hu'
    simpa only [Outcome.unwrap, Act.lift_ok_bind] using hu'
  by_cases hc : 0 < K ∧ 88125000000000 ≤ n.gas.get w.val
  · rw [if_pos hc] at hsent
    obtain ⟨n1, s1, r1, s2, s3, s4⟩ := hsent
    obtain ⟨c1, m1, k1⟩ := Example.call_done h r.short (by omega) s1
    have hpaid : n1.coins.get w.val + 228 = n.coins.get w.val := by
      have a := r.coins
      have b := r1.coins
      rw [s3] at b
      omega
    have hcharged : n1.gas.get w.val + 88125000000000 = n.gas.get w.val := by
      exact charged_once r.gas r1.gas
    have gas1 : GasSent ((Op.sendTransaction tx).run E t).final.gas.cur w (n.gas.get w.val) := by
      obtain ⟨y, y1, y2⟩ := Example.gas_ok m1 w
      exact ⟨⟨y, 1, y1, by omega, by omega⟩, (fuelled_of m1 r1).others⟩
    have e1 : Between w K (n.coins.get w.val) (n.gas.get w.val) ((Op.sendTransaction tx).run E t).final := by
      obtain ⟨x, x1, x2⟩ := Example.amount_ok m1 w
      have hh : ((Op.sendTransaction tx).run E t).final.main.chain.height.val = n1.blocks.length := m1.height
      refine ⟨⟨x, 1, 0, x1, by omega, by omega, .inl rfl⟩, gas1, ?_⟩
      rw [hh, r1.length]
      omega
    rcases call_trace hu1 with hu1 | hu1
    · refine ⟨[.sendTransaction tx], .within _ _ _ hu1, fun op hm => ?_, fun l hl => ?_⟩
      · rw [List.mem_singleton.mp hm]; exact .send
      · simp only [List.prefix_cons_iff, List.prefix_nil] at hl
        rcases hl with rfl | ⟨_, rfl, rfl⟩
        · exact e0
        · exact e1
    · obtain ⟨_, ha, _⟩ := Example.amount_ok m1 w
      obtain ⟨_, hg, _⟩ := Example.gas_ok m1 w
      obtain ⟨_, hr, _⟩ := Example.amount_ok m1 ROOT_PUBLIC_ADDRESS
      rw [Example.ask_bind ha, Example.ask_bind hg, Example.ask_bind hr] at hu1
      obtain ⟨txs, pow, last, ops, q1, q2, q3, q4, q5, q6⟩ := mineOnce_trace m1 r1 (by omega) hu1
      refine ⟨.sendTransaction tx :: ops, .after _ _ _ _ q6, fun op hm => ?_, fun l hl => ?_⟩
      · rcases List.mem_cons.mp hm with rfl | hm
        · exact .send
        · exact posting_round op (q5.subset hm)
      · rw [List.prefix_cons_iff] at hl
        rcases hl with rfl | ⟨l', rfl, hl'⟩
        · exact e0
        · have hl'' := hl'.trans q5
          obtain ⟨n', m', b', pay, z1, z2⟩ := round_states m1 r1 hw (by omega) q1 q2 hf q3 q4 hl''
          have hgas : ∀ (l : List Op) (t : Tree), (∀ op ∈ l, op ∈ roundOps w txs pow c ⟨Spec.fee last.info.difficulty, fee_lt _⟩) →
              (runAll E t l).gas.cur = t.gas.cur := by
            intro l
            induction l with
            | nil => exact fun _ _ => rfl
            | cons op l ih =>
              intro t hl
              have h2 : ∀ op' ∈ l, op' ∈ roundOps w txs pow c ⟨Spec.fee last.info.difficulty, fee_lt _⟩ := fun o ho => hl o (List.mem_cons_of_mem _ ho)
              refine (ih _ h2).trans ?_
              refine (C104_frame E op .gas ?_ t).1
              have hm := hl op List.mem_cons_self
              unfold roundOps at hm
              simp only [List.mem_append, List.mem_cons, List.mem_map, List.not_mem_nil, or_false] at hm
              rcases hm with (rfl | rfl | ⟨_, _, rfl⟩) | rfl <;> simp [mayChange]
          have hg' := hgas l' ((Op.sendTransaction tx).run E t).final (fun op ho => hl''.subset ho)
          obtain ⟨x, x1, x2⟩ := Example.amount_ok m' w
          have hh : (runAll E ((Op.sendTransaction tx).run E t).final l').main.chain.height.val = n'.blocks.length := m'.height
          show Between w K _ _ (runAll E ((Op.sendTransaction tx).run E t).final l')
          refine ⟨⟨x, 1, pay, x1, by omega, by omega, ?_⟩, by rw [hg']; exact gas1, by omega⟩
          rcases z2 with z2 | z2
          · exact .inl z2
          · exact .inr ⟨rfl, z2⟩
  · rw [if_neg hc] at hsent
    have c1 := Example.call_refused h r.short (by omega) hsent
    rw [Act.bind_panic c1] at hu1
    obtain ⟨_, m1⟩ := (sim_step h r.short (by omega) (.sendTransaction tx)).1
    rw [hsent] at m1
    refine ⟨[.sendTransaction tx], .within _ _ _ hu1, fun op hm => ?_, fun l hl => ?_⟩
    · rw [List.mem_singleton.mp hm]; exact .send
    · simp only [List.prefix_cons_iff, List.prefix_nil] at hl
      rcases hl with rfl | ⟨_, rfl, rfl⟩
      · exact e0
      · exact between_start m1 r

/-! ## The transactions -/

/-- Every state the transactions may be found in is the one of `m0`, with `tx` or without it. -/
def TxNear (E : Env) (m0 : KV) (tx : Transaction) (db : Db) : Prop :=
  ∀ m, m = db.cur ∨ m ∈ db.recov → ∀ h : Hash, m.get h.val = m0.get h.val ∨ h = E.sha256 tx.dump ∧ m.get h.val = some tx.dump

theorem txNear_flush {m0 : KV} {tx : Transaction} {db : Db} (h : TxNear E m0 tx db) : TxNear E m0 tx db.flush := by
  intro m hm
  rcases hm with hm | hm
  · exact h m (.inl hm)
  · exact h m (.inl (Db.flush_recov hm))

theorem txNear_op {m0 : KV} {tx : Transaction} {op : Op} (ho : Posting w tx op) :
    Act.Rel (fun s t : Tree => TxNear E m0 tx s.main.transactions → TxNear E m0 tx t.main.transactions) (op.run E) := by
  have hT : Act.PreOrd (fun s t : Tree => TxNear E m0 tx s.main.transactions → TxNear E m0 tx t.main.transactions) :=
    ⟨fun _ h => h, fun a b h => b (a h)⟩
  have C := Act.rel_closed hT
  have SA : ∀ x : Act Db Unit, Act.Rel (fun s t : Tree => TxNear E m0 tx s.main.transactions → TxNear E m0 tx t.main.transactions) (Tree.onSummary x) :=
    fun x => Act.rel_zoom (Act.rel_true _) fun _ _ _ h => h
  have G : ∀ x : Act Db Unit, Act.Rel (fun s t : Tree => TxNear E m0 tx s.main.transactions → TxNear E m0 tx t.main.transactions) (Tree.onGas x) :=
    fun x => Act.rel_zoom (Act.rel_true _) fun _ _ _ h => h
  have SS : ∀ a b n, Act.Rel (fun s t : Tree => TxNear E m0 tx s.main.transactions → TxNear E m0 tx t.main.transactions) (Tree.sendAmount a b n) := fun a b n => by
    unfold Tree.sendAmount
    split
    · exact C.pure _
    · exact SA _
  have B : ∀ b, Act.Rel (fun s t : Tree => TxNear E m0 tx s.main.transactions → TxNear E m0 tx t.main.transactions) (Tree.onMain (MainChain.addBlock E b)) := fun b =>
    Act.rel_zoom (MainChain.addBlock_rel (E := E) (b := b) (Q := fun s t : MainChain => TxNear E m0 tx s.transactions → TxNear E m0 tx t.transactions)
      (R := fun _ _ => True) (Act.rel_true _) fun _ _ _ h => h) fun _ _ h => h
  have FM : Act.Rel (fun s t : Tree => TxNear E m0 tx s.main.transactions → TxNear E m0 tx t.main.transactions) (Tree.onMain MainChain.flush) :=
    Act.rel_zoom (MainChain.flush_rel (R := fun s t : MainChain => TxNear E m0 tx s.transactions → TxNear E m0 tx t.transactions)
      ⟨fun _ h => h, fun a b h => b (a h)⟩ (fun _ _ h => h) (fun _ h => h) (fun _ h => h) (fun _ h => txNear_flush h)) fun _ _ h => h
  have F := Tree.flush_rel hT FM (fun _ h => h) (fun _ h => h) (fun _ h => h) (fun _ h => h)
  have FR := Tree.rotate_rel hT F (fun _ _ h => h) (fun _ _ h => h)
  cases ho with
  | send =>
    change Act.Rel _ (Tree.sendTransaction E tx)
    unfold Tree.sendTransaction
    refine C.bind C.get fun t => C.bind (C.lift _) fun g => C.bind (C.lift _) fun a => C.bind (C.lift _) fun r => ?_
    split
    · exact C.lift _
    · refine C.bind (C.lift _) fun _ => C.bind (C.lift _) fun _ => C.bind (C.lift _) fun _ => C.bind (C.lift _) fun _ => ?_
      split
      · exact C.lift _
      · refine C.bind ?_ fun _ => C.bind (SS _ _ _) fun _ => G _
        unfold MainChain.addTransaction
        refine Act.rel_zoom (Act.rel_step (R := fun s t : MainChain => TxNear E m0 tx s.transactions → TxNear E m0 tx t.transactions) fun c h => ?_) fun _ _ h => h
        have key : ∀ m, m = c.transactions.cur → ∀ h' : Hash, (m.insert (E.sha256 tx.dump).val tx.dump).get h'.val = m0.get h'.val ∨
            h' = E.sha256 tx.dump ∧ (m.insert (E.sha256 tx.dump).val tx.dump).get h'.val = some tx.dump := by
          intro m hm h'
          rw [KV.get_insert]
          by_cases he : (E.sha256 tx.dump).val = h'.val
          · rw [if_pos he]
            exact .inr ⟨Subtype.ext he.symm, rfl⟩
          · rw [if_neg he]
            rcases h m (.inl hm) h' with e | ⟨e, _⟩
            · exact .inl e
            · exact absurd (congrArg Subtype.val e).symm he
        intro m hm
        rcases hm with rfl | hm
        · exact key _ rfl
        · rcases List.mem_cons.mp hm with rfl | hm
          · exact key _ rfl
          · exact h m (.inr hm)
  | mine p txs ts =>
    change Act.Rel _ (Act.void (Tree.emitMain E p w txs ts))
    refine C.void ?_
    unfold Tree.emitMain
    refine C.bind C.get fun t => C.bind (C.lift _) fun _ => C.bind (C.lift _) fun _ => C.bind (C.lift _) fun _ => ?_
    split
    · exact C.lift _
    · refine C.bind (C.lift _) fun _ => C.bind (C.lift _) fun _ => C.bind (C.lift _) fun _ => C.bind ?_ fun _ => C.bind (B _) fun _ => C.pure _
      split
      · split
        · exact C.lift _
        · exact C.bind (C.lift _) fun _ => C.bind FR fun _ => C.bind (SA _) fun _ => C.pure _
      · split
        · exact C.lift _
        · exact C.bind (C.lift _) fun _ => C.pure _
  | pay => exact SS _ _ _
  | fee a => exact SA _
  | flush => exact F

theorem stops_all {P : Tree → Prop} {Q : Op → Prop} {ops : List Op} {u : Tree} (h : Stops E t ops u)
    (hp : ∀ op, Q op → Act.Rel (fun s t => P s → P t) (op.run E)) : (∀ op ∈ ops, Q op) → P t → P u := by
  induction h with
  | idle s => exact fun _ h => h
  | within s op t ht => exact fun ho h => (hp op (ho op List.mem_cons_self) s).2 t ht h
  | after s op ops t _ ih =>
    exact fun ho h => ih (fun o hm => ho o (List.mem_cons_of_mem _ hm)) ((hp op (ho op List.mem_cons_self) s).1 h)

/-- None of the calls is on a derivative chain. -/
theorem posting_owner {tx : Transaction} {op : Op} (h : Posting w tx op) (o : Address) : owner op ≠ some o := by
  cases h <;> simp [owner]

/-! ## Whenever it is killed -/

/-- The chain, the wallet and the gas, each with what the program did to it or without. -/
structure Posted (t : Tree) (w : Address) (K M N : Nat) : Prop where
  height : t.main.getHeight.val = K + 1 ∨ t.main.getHeight.val = K + 2
  founder : ∀ i, 0 < i → i ≤ K → ∃ b, t.main.findByHeight (U256.ofNat i) = .ok (some b) ∧ b.info.founder = w
  wallet : ∃ x s pay, t.getAmount w = .ok x ∧
    x.val + 228 * (N + s) = 25000000000000000 * K + ((List.range K).map (feeAt t)).sum + pay ∧ s ≤ 1 ∧
    (pay = 0 ∨ s = 1 ∧ 25000000000000000 ≤ pay ∧ pay ≤ 25000000000000000 + 16000000)
  gas : ∃ x s, t.getGas w = .ok x ∧ x.val + 88125000000000 * (N + s) = 25000000000000000 * M ∧ s ≤ 1
  others : ∀ a, a ≠ w → t.getGas a = .ok U256.zero

theorem charged_sum {y p s x N q M : Nat} (a : y + p * s = x) (b : x + p * N = q * M) : y + p * (N + s) = q * M := by
  rw [Nat.mul_add]
  omega

theorem posted_of (hs : RoundStart E w T K M N t n) (hw : w ≠ ROOT_PUBLIC_ADDRESS) (hb : K + M < 10 ^ 50) {u : Tree}
    (h1 : ∀ m ∈ u.summary.recov, CoinsSent m w (n.coins.get w.val)) (h2 : ∀ m ∈ u.gas.recov, GasSent m w (n.gas.get w.val))
    (h3 : OnFile t.main.chain.blocks.cur (if K = 0 then 0 else K + 1) (K + 1) u.main) (h4 : u.main.chain.height.val ≤ K + 2)
    {d : Disk} (hc : Crash u d) (ho : (openTree E d).out = .ok ()) : Posted (openTree E d).final w K M N := by
  have hsz := size_big
  have hp := paid_of hs.same hs.ready (by omega)
  obtain ⟨hh, hblocks⟩ := main_after hs hb h3 h4 hc ho
  have hgas : ∀ a, (openTree E d).final.getGas a = holds d.gas a := by
    intro a
    unfold Tree.getGas
    rw [(opened_ledgers ho).2]
    rfl
  obtain ⟨⟨g, s', g1, g2, g3⟩, g4⟩ := h2 d.gas hc.gas
  refine ⟨hh, fun i h0 hi => ?_, ?_, ⟨g, s', by rw [hgas]; exact g1, charged_sum g2 hs.ready.gas, g3⟩, fun a ha => by rw [hgas]; exact g4 a ha⟩
  · rw [hblocks i hi (by omega)]
    exact hp.founder i h0 hi
  · obtain ⟨y, s, pay, y1, y2, y3, y4⟩ := h1 d.summary hc.summary
    obtain ⟨x, x1, x2⟩ := hp.wallet
    obtain ⟨x', x1', x2'⟩ := Example.amount_ok hs.same w
    rw [x1] at x1'
    cases x1'
    refine ⟨y, s, pay, ?_, ?_, y3, y4⟩
    · unfold Tree.getAmount
      rw [(opened_ledgers ho).1, seed_other (.inr (fun e => hw (Subtype.ext e)))]
      exact y1
    · have : (List.range K).map (feeAt (openTree E d).final) = (List.range K).map (feeAt t) := by
        apply List.map_congr_left
        intro i hi
        rw [List.mem_range] at hi
        unfold feeAt
        rw [hblocks i (by omega) (by omega)]
      rw [this]
      clear this
      omega

theorem opened_txs {d : Disk} (ho : (openTree E d).out = .ok ()) : (openTree E d).final.main.transactions = Db.open' d.transactions := by
  rcases openTree_ok ho with ⟨_, _, hc, hp⟩ | ⟨_, hc⟩
  · rw [(openTree_pos (E := E) hc hp).2]; rfl
  · rw [(openTree_zero (E := E) hc).2]; rfl

/-- C154, what holds: at whatever moment the sending example is killed, if the directory can be opened then the chain has no
block or one more, the transaction has been taken from the wallet or not, its gas has been taken or not, the block has been paid
or not; every transaction is found as before, but perhaps for the new one, which may be found or not; and the files of every
derivative chain are the same. (Missing: that these agree, and that the directory can be opened.) -/
theorem C154_each_alone_partial (hw : w ≠ ROOT_PUBLIC_ADDRESS) {js : List (Job × Nat)} {d : Disk}
    (h : Sessions E S w secret T js d) (now c : UInt64) (hf : E.overflowChecks = true → T ≤ c)
    (hb : roundsOf js + 1 < 10 ^ 50) (u : Tree)
    (hu : u = (openTree E d).final ∨ u ∈ ((Job.send now c).run E S w secret (openTree E d).final).trace) (d' : Disk) (hc : Crash u d')
    (ho : (openTree E d').out = .ok ()) :
    Posted (openTree E d').final w (mainBlocks js) (chainBlocks js) (sentBy js) ∧
    (∀ x, (openTree E d').final.main.getTransaction E x = (openTree E d).final.main.getTransaction E x ∨
      ∃ tx, (openTree E d').final.main.getTransaction E x = .ok (some tx) ∧ tx.hash = x ∧ tx.sender = w ∧
        tx.receiver = ROOT_PUBLIC_ADDRESS ∧ tx.amount.val = 228 ∧ tx.timestamp = now) ∧
    ∀ o : Address, d'.deriv (hexEncode o.val) = d.deriv (hexEncode o.val) := by
  obtain ⟨h1, ⟨n, hs⟩, hN, hR⟩ := sessions_ready hw h (by omega)
  have hstart := RoundStart.opened hw h1 hs
  have hsz := size_big
  have e0 := between_start hs.same hs.ready
  have hrec : ∀ m ∈ (openTree E d).final.gas.recov, m = (openTree E d).final.gas.cur := by
    rw [(opened_ledgers h1).2]
    exact fun m hm => List.mem_singleton.mp hm
  have htx0 : ∀ m, m = (openTree E d).final.main.transactions.cur ∨ m ∈ (openTree E d).final.main.transactions.recov →
      m = (openTree E d).final.main.transactions.cur := by
    rw [opened_txs h1]
    rintro m (rfl | hm)
    · rfl
    · exact List.mem_singleton.mp hm
  have key : ∃ ops, Stops E (openTree E d).final ops u ∧
      (∀ l, l <+: ops → Between w (mainBlocks js) (n.coins.get w.val) (n.gas.get w.val) (runAll E (openTree E d).final l)) ∧
      (∀ m ∈ u.main.transactions.recov, ∀ x : Hash, m.get x.val = (openTree E d).final.main.transactions.cur.get x.val ∨
        ∃ tx : Transaction, x = E.sha256 tx.dump ∧ m.get x.val = some tx.dump ∧ tx.sender = w ∧ tx.receiver = ROOT_PUBLIC_ADDRESS ∧
          tx.amount.val = 228 ∧ tx.timestamp = now) ∧
      ∀ o : Address, u.derivFiles (hexEncode o.val) = (openTree E d).final.derivFiles (hexEncode o.val) := by
    rcases hu with rfl | hu
    · refine ⟨[], .idle _, fun l hl => ?_, fun m hm x => .inl (by rw [htx0 m (.inr hm)]), fun _ => rfl⟩
      rw [List.prefix_nil.mp hl]
      exact e0
    · rcases payment_either E S w secret now with ⟨_, tx, hpay, hts⟩ | ⟨_, hpay⟩
      · obtain ⟨ops, k1, k2, k3⟩ := send_trace hs.same hs.ready hw hN hpay hf (by omega) hu
        obtain ⟨p1, p2, p3, p4, p5⟩ := payment_ok hpay
        have hn : TxNear E (openTree E d).final.main.transactions.cur tx u.main.transactions :=
          stops_all (P := fun t => TxNear E (openTree E d).final.main.transactions.cur tx t.main.transactions) k1
            (fun op ho => txNear_op ho) k2 (fun m hm x => .inl (by rw [htx0 m hm]))
        refine ⟨ops, k1, k3, fun m hm x => ?_, fun o => ?_⟩
        · rcases hn m (.inr hm) x with e | ⟨e1, e2⟩
          · exact .inl e
          · exact .inr ⟨tx, e1, e2, p1, p2, by rw [p3]; rfl, hts⟩
        · have := stops_all (P := OwnSame o (openTree E d).final) (Q := Posting w tx) k1
            (fun op ho => (op_ownSame E o op (posting_owner ho o)).mono fun _ _ h1 h2 => (ownSame_preord o).2 h2 h1) k2 ((ownSame_preord o).1 _)
          exact this.1
      · have : ((Job.send now c).run E S w secret (openTree E d).final).trace = [] := by
          obtain ⟨_, ha, _⟩ := Example.amount_ok hs.same w
          obtain ⟨_, hg, _⟩ := Example.gas_ok hs.same w
          obtain ⟨_, hr, _⟩ := Example.amount_ok hs.same ROOT_PUBLIC_ADDRESS
          have e : Example.send E S w secret now c (openTree E d).final = ⟨.panic .unwrap, (openTree E d).final, []⟩ := by
            unfold Example.send
            rw [Example.ask_bind ha, Example.ask_bind hg, Example.ask_bind hr, hpay]
            rfl
          show ((Example.send E S w secret now c >>= fun found => pure (if found then 1 else 0)) (openTree E d).final).trace = []
          rw [Act.bind_panic e]
        rw [this] at hu
        cases hu
  obtain ⟨ops, k1, k2, k3, k4⟩ := key
  obtain ⟨f1, f2⟩ := stops_onFile k1 hstart.files
  refine ⟨posted_of hstart hw (by omega) (fun m hm => ?_) (fun m hm => ?_) f1 (Nat.le_trans f2 (k2 ops (List.prefix_refl _)).height) hc ho,
    fun x => ?_, fun o => ?_⟩
  · rcases stops_recov (p := Tree.summary) (fun op s => op.once_summary s) k1 hm with hm | ⟨k, _, rfl⟩
    · obtain ⟨y, s, pay, a, b⟩ := e0.coins
      exact ⟨y, s, pay, (hstart.wallet m hm).trans a, b⟩
    · exact (k2 _ (List.take_prefix k ops)).coins
  · rcases stops_recov (p := Tree.gas) (fun op s => op.once_gas s) k1 hm with hm | ⟨k, _, rfl⟩
    · rw [hrec m hm]; exact e0.gas
    · exact (k2 _ (List.take_prefix k ops)).gas
  · have hraw : (openTree E d').final.main.getTransactionRaw x = d'.transactions.get x.val := by
      unfold MainChain.getTransactionRaw
      rw [opened_txs ho]
      rfl
    rcases k3 d'.transactions hc.transactions x with e | ⟨tx, e1, e2, e3, e4, e5, e6⟩
    · left
      unfold MainChain.getTransaction
      rw [hraw, e]
      rfl
    · right
      exact ⟨_, getTransaction_dump (hraw.trans e2), e1.symm, e3, e4, e5, e6⟩
  · obtain ⟨c1, c2, c3⟩ := hc.deriv (hexEncode o.val)
    rw [k4 o, (opening_deriv (E := E) (d := d) (.inr rfl)).1] at c1 c2 c3
    have a1 := List.mem_singleton.mp c1
    have a2 := List.mem_singleton.mp c2
    cases hd : d'.deriv (hexEncode o.val) with
    | mk x y z =>
      rw [hd] at a1 a2 c3
      simp only at a1 a2 c3
      rw [a1, a2, c3]
      rfl

/-- After some programs there is a moment of the example at which it can be killed, and something to be recovered. -/
example : ∃ d, Sessions zeroEnv toyScheme (BytesN.fill 33 7) (BytesN.fill 32 1) 1700000003
      [(.mine [1700000000, 1700000001], 2), (.derive [1700000002], 1), (.send 1700000003 1700000003, 1)] d ∧
    ∃ d', Crash (openTree zeroEnv d).final d' ∧ (openTree zeroEnv d').out = .ok () := by
  have hw : BytesN.fill 33 7 ≠ ROOT_PUBLIC_ADDRESS := by decide +kernel
  obtain ⟨d, h⟩ := some_sessions toyScheme (secret := BytesN.fill 32 1) hw (by decide)
  obtain ⟨h1, _⟩ := sessions_ready hw h (by decide)
  exact ⟨d, h, d, opened_crash h1, h1⟩

/-! ## All at one moment -/

/-- The directory with other transactions, coins and gas in it. -/
theorem opened_other {d : Disk} (ho : (openTree E d).out = .ok ()) (a s g : KV) :
    (openTree E { d with transactions := a, summary := s, gas := g }).out = .ok () ∧
    (openTree E { d with transactions := a, summary := s, gas := g }).final.main.chain = (openTree E d).final.main.chain := by
  rcases openTree_ok ho with ⟨h, df, hr, hp⟩ | ⟨df, hr⟩
  · obtain ⟨o1, o2⟩ := openTree_pos (E := E) (d := { d with transactions := a, summary := s, gas := g }) hr hp
    exact ⟨o1, by rw [o2, (openTree_pos (E := E) hr hp).2]; rfl⟩
  · obtain ⟨o1, o2⟩ := openTree_zero (E := E) (d := { d with transactions := a, summary := s, gas := g }) hr
    exact ⟨o1, by rw [o2, (openTree_zero (E := E) hr).2]⟩

/-- Whenever the example works there is a moment at which the transaction may be stored or not, its amount taken or not, and
its gas taken or not, each independently of the others. -/
theorem sent_badly (hw : w ≠ ROOT_PUBLIC_ADDRESS) {js : List (Job × Nat)} {d : Disk} (h : Sessions E S w secret T js d)
    {now c : UInt64} (hb : roundsOf js + 1 < 10 ^ 50) (hp : S.parseSec secret = true) (h0 : 0 < mainBlocks js)
    (hg : 88125000000000 * (sentBy js + 1) ≤ 25000000000000000 * chainBlocks js) :
    ∃ tx x g, tx.sender = w ∧ tx.receiver = ROOT_PUBLIC_ADDRESS ∧ tx.amount.val = 228 ∧ tx.timestamp = now ∧
    (openTree E d).final.getAmount w = .ok x ∧ (openTree E d).final.getGas w = .ok g ∧
    ∃ u ∈ ((Job.send now c).run E S w secret (openTree E d).final).trace, ∀ stored moved charged : Bool, ∃ d', Crash u d' ∧
      (openTree E d').out = .ok () ∧ (openTree E d').final.main.getHeight = (openTree E d).final.main.getHeight ∧
      (∀ q, (openTree E d').final.main.findByHeight q = (openTree E d).final.main.findByHeight q) ∧
      (openTree E d').final.main.getTransaction E tx.hash =
        (if stored then .ok (some tx) else (openTree E d).final.main.getTransaction E tx.hash) ∧
      (∃ y, (openTree E d').final.getAmount w = .ok y ∧ y.val + (if moved then 228 else 0) = x.val) ∧
      ∃ y, (openTree E d').final.getGas w = .ok y ∧ y.val + (if charged then 88125000000000 else 0) = g.val := by
  obtain ⟨h1, ⟨n, hs⟩, hN, hR⟩ := sessions_ready hw h (by omega)
  have hsz := size_big
  have hcr := opened_crash h1
  have r := hs.ready
  have hne : w.val ≠ ROOT_PUBLIC_ADDRESS.val := fun e => hw (Subtype.ext e)
  obtain ⟨tx, hpay, hts⟩ : ∃ tx, Example.payment E S w secret now = .ok tx ∧ tx.timestamp = now := by
    rcases payment_either E S w secret now with ⟨_, h⟩ | ⟨h, _⟩
    · exact h
    · exact absurd hp h
  obtain ⟨p1, p2, p3, p4, p5⟩ := payment_ok hpay
  have hsent := r.sent hw (by omega) hN p1 p2 (by rw [p3]; rfl) p4
  have hgas := r.gas
  rw [if_pos ⟨h0, by omega⟩] at hsent
  obtain ⟨n1, s1, r1, s2, s3, s4⟩ := hsent
  obtain ⟨x, x1, x2⟩ := Example.amount_ok hs.same w
  obtain ⟨g, g1, g2⟩ := Example.gas_ok hs.same w
  have hok := call_ok hs.same r.short (by omega) s1
  obtain ⟨c1, m1, k1⟩ := Example.call_done hs.same r.short (by omega) s1
  obtain ⟨x', x1', x2'⟩ := Example.amount_ok m1 w
  obtain ⟨g', g1', g2'⟩ := Example.gas_ok m1 w
  have hpaid : n1.coins.get w.val + 228 = n.coins.get w.val := by
    have a := r.coins
    have b := r1.coins
    rw [s3] at b
    omega
  have hcharged : n1.gas.get w.val + 88125000000000 = n.gas.get w.val := charged_once r.gas r1.gas
  obtain ⟨_, ha, _⟩ := Example.amount_ok hs.same w
  obtain ⟨_, hgs, _⟩ := Example.gas_ok hs.same w
  obtain ⟨_, hr, _⟩ := Example.amount_ok hs.same ROOT_PUBLIC_ADDRESS
  rcases sendTransaction_cases E (openTree E d).final tx hs.same.coins.dec hs.same.gas.dec with
    ⟨last, fee, hh, _, q1, q2, q3⟩ | ⟨_, _, _, _, _, q⟩ | ⟨_, out, q1, q2⟩
  · have hmem : ((Op.sendTransaction tx).run E (openTree E d).final).final ∈
        ((Op.sendTransaction tx).run E (openTree E d).final).trace := by
      show (Tree.sendTransaction E tx _).final ∈ (Tree.sendTransaction E tx _).trace
      rw [q2, q3]
      split <;> simp
    have hu : ((Op.sendTransaction tx).run E (openTree E d).final).final ∈
        ((Job.send now c).run E S w secret (openTree E d).final).trace := by
      have hx : ∀ {x : Act Tree Bool} {g : Bool → Nat} {u t : Tree}, u ∈ (x t).trace → u ∈ ((x >>= fun k => (pure (g k) : Act Tree Nat)) t).trace := by
        intro x g u t hx
        cases ho : (x t).out with
        | ok a =>
          rw [Act.bind_ok (a := a) (s' := (x t).final) (t := (x t).trace) (by rw [← ho])]
          exact List.mem_append_left _ hx
        | err a => rwa [Act.bind_err (e := a) (s' := (x t).final) (t := (x t).trace) (by rw [← ho])]
        | panic a => rwa [Act.bind_panic (p := a) (s' := (x t).final) (t := (x t).trace) (by rw [← ho])]
        | ub => rwa [Act.bind_ub (s' := (x t).final) (t := (x t).trace) (by rw [← ho])]
      show _ ∈ ((Example.send E S w secret now c >>= fun found => pure (if found then 1 else 0)) _).trace
      apply hx
      unfold Example.send
      rw [Example.ask_bind ha, Example.ask_bind hgs, Example.ask_bind hr, hpay]
      simp only [Outcome.unwrap, Act.lift_ok_bind]
      exact (call_mem hok _).1 hmem
    refine ⟨tx, x, g, p1, p2, by rw [p3]; rfl, hts, x1, g1, _, hu, fun stored moved charged => ?_⟩
    have hfin : ((Op.sendTransaction tx).run E (openTree E d).final).final = (openTree E d).final.sent E tx hh := q2
    rw [hfin] at m1 x1' g1' ⊢
    refine ⟨{ d with
      transactions := if stored then ((openTree E d).final.sent E tx hh).main.transactions.cur else d.transactions
      summary := if moved then ((openTree E d).final.sent E tx hh).summary.cur else d.summary
      gas := if charged then ((openTree E d).final.sent E tx hh).gas.cur else d.gas }, ?_, ?_⟩
    · refine ⟨hcr.blocks, hcr.heightReference, ?_, hcr.config, ?_, hcr.oldSummary, ?_, hcr.oldGas, hcr.deriv⟩
      · show (if stored then _ else _) ∈ _
        split
        · exact List.mem_cons_self
        · exact List.mem_cons_of_mem _ hcr.transactions
      · show (if moved then _ else _) ∈ _
        unfold Tree.sent paid
        rw [dif_neg (by rw [p1, p2]; exact hw)]
        split
        · exact List.mem_cons_self
        · exact List.mem_cons_of_mem _ hcr.summary
      · show (if charged then _ else _) ∈ _
        split
        · exact List.mem_cons_self
        · exact List.mem_cons_of_mem _ hcr.gas
    · obtain ⟨o1, o2⟩ := opened_other h1 (if stored then ((openTree E d).final.sent E tx hh).main.transactions.cur else d.transactions)
        (if moved then ((openTree E d).final.sent E tx hh).summary.cur else d.summary)
        (if charged then ((openTree E d).final.sent E tx hh).gas.cur else d.gas)
      refine ⟨o1, congrArg Chain.height o2, fun q => ?_, ?_, ?_, ?_⟩
      · unfold MainChain.findByHeight MainChain.findRawByHeight
        rw [o2]
      · have hraw := opened_txs o1
        cases stored with
        | true =>
          have := getTransaction_dump (E := E) (m := (openTree E { d with
              transactions := if true then ((openTree E d).final.sent E tx hh).main.transactions.cur else d.transactions
              summary := if moved then ((openTree E d).final.sent E tx hh).summary.cur else d.summary
              gas := if charged then ((openTree E d).final.sent E tx hh).gas.cur else d.gas }).final.main) (h := tx.hash) (t := tx) (by
            unfold MainChain.getTransactionRaw
            rw [hraw, p5]
            show (KV.insert _ _ _).get _ = _
            rw [KV.get_insert, if_pos rfl])
          rw [this]
          unfold asRead
          rw [p4, ← p5]
          cases tx
          cases p4
          rfl
        | false =>
          unfold MainChain.getTransaction MainChain.getTransactionRaw
          rw [hraw, opened_txs h1]
          rfl
      · unfold Tree.getAmount
        rw [(opened_ledgers o1).1, seed_other (.inr hne)]
        cases moved with
        | true => exact ⟨x', x1', by show x'.val + 228 = _; omega⟩
        | false =>
          refine ⟨x, ?_, rfl⟩
          unfold Tree.getAmount at x1
          rw [(opened_ledgers h1).1, seed_other (.inr hne)] at x1
          exact x1
      · unfold Tree.getGas
        rw [(opened_ledgers o1).2]
        cases charged with
        | true => exact ⟨g', g1', by show g'.val + 88125000000000 = _; omega⟩
        | false =>
          refine ⟨g, ?_, rfl⟩
          unfold Tree.getGas at g1
          rw [(opened_ledgers h1).2] at g1
          exact g1
  · have : (Tree.sendTransaction E tx (openTree E d).final).out = .ok () := hok
    rw [q] at this
    cases this
  · have : (Tree.sendTransaction E tx (openTree E d).final).out = .ok () := hok
    rw [q2] at this
    exact absurd this (q1 ())

/-- C154, as one would want it: whenever the sending example is killed, another program, if it can start, finds a chain, a wallet
and gas that agree. -/
def C154_full : Prop :=
  ∀ (E : Env) (S : SigScheme) (w : Address) (secret : BytesN 32) (T : UInt64) (js : List (Job × Nat)) (d : Disk),
    w ≠ ROOT_PUBLIC_ADDRESS → Sessions E S w secret T js d → ∀ now c : UInt64, (E.overflowChecks = true → T ≤ c) →
    roundsOf js + 1 < 10 ^ 50 → ∀ u ∈ ((Job.send now c).run E S w secret (openTree E d).final).trace, ∀ d', Crash u d' →
    (openTree E d').out = .ok () →
    ∃ K N, Paid (openTree E d').final w K N ∧ Fuelled (openTree E d').final w (chainBlocks js) N

/-- C154 is false: whenever the example works there is a moment at which a crash leaves the transaction stored or not, its
amount taken or not and its gas taken or not, in every combination, with the chain as it was. -/
theorem C154_refuted :
    (∀ (E : Env) (S : SigScheme) (w : Address) (secret : BytesN 32) (T : UInt64) (js : List (Job × Nat)) (d : Disk) (now c : UInt64),
      w ≠ ROOT_PUBLIC_ADDRESS → Sessions E S w secret T js d → roundsOf js + 1 < 10 ^ 50 →
      S.parseSec secret = true → 0 < mainBlocks js → 88125000000000 * (sentBy js + 1) ≤ 25000000000000000 * chainBlocks js →
      ∃ tx x g, tx.sender = w ∧ tx.receiver = ROOT_PUBLIC_ADDRESS ∧ tx.amount.val = 228 ∧ tx.timestamp = now ∧
      (openTree E d).final.getAmount w = .ok x ∧ (openTree E d).final.getGas w = .ok g ∧
      ∃ u ∈ ((Job.send now c).run E S w secret (openTree E d).final).trace, ∀ stored moved charged : Bool, ∃ d', Crash u d' ∧
        (openTree E d').out = .ok () ∧ (openTree E d').final.main.getHeight = (openTree E d).final.main.getHeight ∧
        (∀ q, (openTree E d').final.main.findByHeight q = (openTree E d).final.main.findByHeight q) ∧
        (openTree E d').final.main.getTransaction E tx.hash =
          (if stored then .ok (some tx) else (openTree E d).final.main.getTransaction E tx.hash) ∧
        (∃ y, (openTree E d').final.getAmount w = .ok y ∧ y.val + (if moved then 228 else 0) = x.val) ∧
        ∃ y, (openTree E d').final.getGas w = .ok y ∧ y.val + (if charged then 88125000000000 else 0) = g.val) ∧
    ¬ C154_full := by
  refine ⟨fun E S w secret T js d now c hw h hb hp h0 hg => sent_badly hw h hb hp h0 hg, fun hfull => ?_⟩
  have hw : BytesN.fill 33 7 ≠ ROOT_PUBLIC_ADDRESS := by decide +kernel
  obtain ⟨d, h⟩ := some_sessions toyScheme (secret := BytesN.fill 32 1) hw (by decide)
  obtain ⟨tx, x, g, _, _, _, _, x1, g1, u, hu, hall⟩ := sent_badly (now := 1700000004) (c := 1700000004) hw h (by decide) (by decide) (by decide) (by decide)
  obtain ⟨d', hc, ho, hh, hf, _, ⟨y, y1, y2⟩, z, z1, z2⟩ := hall true true false
  obtain ⟨K, N, hp, hfu⟩ := hfull zeroEnv toyScheme _ _ _ _ _ hw h 1700000004 1700000004 (fun _ => by decide) (by decide) u hu d' hc ho
  obtain ⟨h1, ⟨n, hs⟩, hN, hR⟩ := sessions_ready hw h (by decide)
  have hp0 := paid_of hs.same hs.ready (by decide)
  have hfu0 := fuelled_of hs.same hs.ready
  have hK : K = 3 := by
    have a := hp.height
    have b := hp0.height
    rw [hh, b] at a
    exact (Nat.succ.inj a).symm
  subst hK
  obtain ⟨a, a1, a2⟩ := hp.wallet
  obtain ⟨b, b1, b2⟩ := hp0.wallet
  obtain ⟨c, c1, c2⟩ := hfu.gas
  obtain ⟨e, e1, e2⟩ := hfu0.gas
  rw [y1] at a1
  rw [x1] at b1
  rw [z1] at c1
  rw [g1] at e1
  cases a1
  cases b1
  cases c1
  cases e1
  have hfees : (List.range 3).map (feeAt (openTree zeroEnv d').final) = (List.range 3).map (feeAt (openTree zeroEnv d).final) := by
    apply List.map_congr_left
    intro i _
    unfold feeAt
    rw [hf]
  rw [hfees] at a2
  simp only [if_true, Bool.false_eq_true, if_false] at y2 z2
  have b2' : x.val + 228 * 1 = 25000000000000000 * 3 + ((List.range 3).map (feeAt (openTree zeroEnv d).final)).sum := b2
  have e2' : g.val + 88125000000000 * 1 = 25000000000000000 * 1 := e2
  have c2' : z.val + 88125000000000 * N = 25000000000000000 * 1 := c2
  omega

end
end BCT.Props
