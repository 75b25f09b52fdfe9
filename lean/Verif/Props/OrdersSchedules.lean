import Verif.Props.AnyOrder
/-!
# C181: calls that are safe in every order are safe under every schedule
-/

namespace BCT.Props
open BCT

/-! ## Statement -/

/-- Made one after the other, in whatever order, the calls are all accepted. -/
def SafeOrders {ι : Type} (E : Env) (s : Tree) (op : ι → Op) : Prop :=
  ∀ order : List ι, order.Nodup → (∀ i, i ∈ order) → AllAccepted E s (order.map op)

/-- Made by threads, under whatever schedule, no call that ends is refused or panics. -/
def SafeSchedules {ι : Type} [DecidableEq ι] (E : Env) (s : Tree) (call : ι → Deal) : Prop :=
  ∀ (log : List (Event ι Node)) (c : Config ι Node Reply), Exec ⟨⟨s, false⟩, fun i => (call i).prog E⟩ log c →
    ∀ i, hasEnded (c.threads i) → ∃ r, c.threads i = .done (.ok r)

/-! ## Orders -/

theorem perm_of_map {α β : Type} {f : α → β} {m l' : List β} (h : m.Perm l') : ∀ {l : List α}, m = l.map f →
    ∃ l'', l.Perm l'' ∧ l''.map f = l' := by
  induction h with
  | nil =>
    intro l e
    exact ⟨l, .refl _, e.symm⟩
  | cons x _ ih =>
    intro l e
    cases l with
    | nil => cases e
    | cons a l =>
      injection e with e1 e2
      obtain ⟨l'', h1, h2⟩ := ih e2
      exact ⟨a :: l'', h1.cons a, by rw [List.map_cons, h2, e1]⟩
  | swap x y l0 =>
    intro l e
    cases l with
    | nil => cases e
    | cons a l =>
      injection e with e1 e2
      cases l with
      | nil => cases e2
      | cons b l =>
        injection e2 with e2 e3
        exact ⟨b :: a :: l, .swap _ _ _, by rw [List.map_cons, List.map_cons, e1, e2, e3]⟩
  | trans _ _ i1 i2 =>
    intro l e
    obtain ⟨l1, h1, h2⟩ := i1 e
    obtain ⟨l2, h3, h4⟩ := i2 h2.symm
    exact ⟨l2, h1.trans h3, h4⟩

section
variable {ι : Type} [Fintype ι] [DecidableEq ι] {E : Env}

omit [DecidableEq ι] in
theorem orders_perms {s : Tree} {op : ι → Op} (h : SafeOrders E s op) (ops' : List Op)
    (hp : (Finset.univ.toList.map op).Perm ops') : AllAccepted E s ops' := by
  obtain ⟨l, h1, rfl⟩ := perm_of_map hp rfl
  exact h l (h1.nodup_iff.mp (Finset.nodup_toList _)) fun i => h1.mem_iff.mp (Finset.mem_toList.mpr (Finset.mem_univ i))

theorem deal_amounts {d : Deal} {op : Op} (h : d.op = some op) : d.Paying ∧ Op.Adding op ∧ d.spends = opSpends op ∧
    d.gains = opGains op ∧ d.burns = opBurns op ∧ d.fills = opFills op := by
  cases d with
  | send tx => cases h; exact ⟨trivial, trivial, rfl, rfl, rfl, rfl⟩
  | brief x => cases x <;> cases h <;> exact ⟨trivial, trivial, rfl, rfl, rfl, rfl⟩
  | _ => cases h

omit [DecidableEq ι] in
theorem covered_list {call : ι → Deal} {op : ι → Op} (ho : ∀ i, (call i).op = some (op i)) (f g : Spec.Accounts) (fee : Nat) :
    CoveredList (Finset.univ.toList.map op) f g fee ↔ Covered call f g fee := by
  have e : ∀ q : Op → Nat, ((Finset.univ.toList.map op).map q).sum = ∑ i, q (op i) := fun q => by
    rw [List.map_map]
    exact Finset.sum_map_toList _ _
  have e1 : ∀ k, ∑ i, (call i).spends k = ∑ i, opSpends (op i) k :=
    fun k => Finset.sum_congr rfl fun i _ => by rw [(deal_amounts (ho i)).2.2.1]
  have e2 : ∀ k, ∑ i, (call i).gains k = ∑ i, opGains (op i) k :=
    fun k => Finset.sum_congr rfl fun i _ => by rw [(deal_amounts (ho i)).2.2.2.1]
  have e3 : ∀ k, ∑ i, (call i).burns k = ∑ i, opBurns (op i) k :=
    fun k => Finset.sum_congr rfl fun i _ => by rw [(deal_amounts (ho i)).2.2.2.2.1]
  have e4 : ∀ k, ∑ i, (call i).fills k = ∑ i, opFills (op i) k :=
    fun k => Finset.sum_congr rfl fun i _ => by rw [(deal_amounts (ho i)).2.2.2.2.2]
  have sends : ∀ i tx, call i = .send tx ↔ op i = .sendTransaction tx := by
    intro i tx
    have h := ho i
    constructor
    · intro hc
      rw [hc] at h
      exact (Option.some.inj h).symm
    · intro hc
      rw [hc] at h
      cases hd : call i with
      | send t => rw [hd] at h; cases h; rfl
      | brief x => rw [hd] at h; cases x <;> cases h
      | _ => rw [hd] at h; cases h
  constructor
  · intro h
    refine ⟨fun k => ?_, fun k => ?_, fun k => ?_, fun k => ?_, fun i tx hc => ?_⟩
    · rw [e1, ← e (opSpends · k)]; exact h.coins k
    · rw [e2, ← e (opGains · k)]; exact h.room k
    · rw [e3, ← e (opBurns · k)]; exact h.gas k
    · rw [e4, ← e (opFills · k)]; exact h.tank k
    · rw [e1, ← e (opSpends · tx.sender.val)]
      exact h.fee tx (List.mem_map.mpr ⟨i, Finset.mem_toList.mpr (Finset.mem_univ i), (sends i tx).mp hc⟩)
  · intro h
    refine ⟨fun k => ?_, fun k => ?_, fun k => ?_, fun k => ?_, fun tx ht => ?_⟩
    · rw [e (opSpends · k), ← e1]; exact h.coins k
    · rw [e (opGains · k), ← e2]; exact h.room k
    · rw [e (opBurns · k), ← e3]; exact h.gas k
    · rw [e (opFills · k), ← e4]; exact h.tank k
    · rw [e (opSpends · tx.sender.val), ← e1]
      obtain ⟨i, _, hi⟩ := List.mem_map.mp ht
      exact h.fee i tx ((sends i tx).mpr hi)

/-! ## One thread after the other -/

theorem solo_replied {p : Prog Node Unit} {x : Act Tree Unit} {t : Tree} (h : Node.ImplAt p x t) :
    ∃ o, (p >>= fun _ => (pure .nothing : Prog Node Reply)).solo ⟨t, false⟩ = some (o, ⟨(x t).final, false⟩) ∧
      ((∃ r, o = .ok r) → (x t).out = .ok ()) := by
  rw [Prog.solo_bind, h]
  cases (x t).out with
  | ok a => exact ⟨_, rfl, fun _ => rfl⟩
  | err e => exact ⟨_, rfl, fun ⟨r, hr⟩ => by cases hr⟩
  | panic e => exact ⟨_, rfl, fun ⟨r, hr⟩ => by cases hr⟩
  | ub => exact ⟨_, rfl, fun ⟨r, hr⟩ => by cases hr⟩

/-- Made alone in a thread, the call is the sequential one. -/
theorem deal_solo {d : Deal} {op : Op} (h : d.op = some op) (t : Tree) :
    ∃ o, (d.prog E).solo ⟨t, false⟩ = some (o, ⟨(op.run E t).final, false⟩) ∧ ((∃ r, o = .ok r) → (op.run E t).out = .ok ()) := by
  cases d with
  | send tx =>
    cases h
    rw [send_op]
    exact solo_replied (Node.sendTransaction_impl E tx t)
  | brief x =>
    cases x <;> cases h
    · exact solo_replied (Node.implAt_onTree (Tree.addAmount _ _) t)
    · exact solo_replied (Node.implAt_onTree (Tree.subAmount _ _) t)
    · exact solo_replied (Node.implAt_onTree (Tree.sendAmount _ _ _) t)
    · exact solo_replied (Node.implAt_onTree (Tree.addGas _ _) t)
    · exact solo_replied (Node.implAt_onTree (Tree.subGas _ _) t)
    · exact solo_replied (Node.implAt_onTree (Tree.sendGas _ _ _) t)
  | _ => cases h

omit [Fintype ι] in
theorem one_by_one {s : Tree} {call : ι → Deal} {op : ι → Op} (ho : ∀ i, (call i).op = some (op i))
    (hs : SafeSchedules E s call) : ∀ (order : List ι), order.Nodup → ∀ (t : Tree) (th : ι → Prog Node Reply)
    (log : List (Event ι Node)), Exec ⟨⟨s, false⟩, fun i => (call i).prog E⟩ log ⟨⟨t, false⟩, th⟩ →
    (∀ i ∈ order, th i = (call i).prog E) → AllAccepted E t (order.map op) := by
  intro order
  induction order with
  | nil => intros; exact trivial
  | cons i order ih =>
    intro hn t th log hx hth
    obtain ⟨hn1, hn2⟩ := List.nodup_cons.mp hn
    obtain ⟨o, h1, h2⟩ := deal_solo (E := E) (ho i) t
    obtain ⟨log', hx'⟩ := hx.go i (hth i List.mem_cons_self) (Prog.runs_of_solo h1)
    obtain ⟨r, hr⟩ := hs _ _ hx' i ⟨o, Function.update_self _ _ _⟩
    have e : o = .ok r := by
      have := (Function.update_self i (.done o : Prog Node Reply) th).symm.trans hr
      injection this
    refine ⟨h2 ⟨r, e⟩, ih hn2 _ _ _ hx' fun j hj => ?_⟩
    have hne : j ≠ i := fun h => hn1 (h ▸ hj)
    exact (Function.update_of_ne hne _ _).trans (hth j (List.mem_cons_of_mem _ hj))

/-! ## Property -/

omit [Fintype ι] in
/-- C181. What no schedule refuses, no order refuses. -/
theorem C181_orders (E : Env) (s : Tree) (call : ι → Deal) (op : ι → Op) (ho : ∀ i, (call i).op = some (op i))
    (h : SafeSchedules E s call) : SafeOrders E s op :=
  fun order hn _ => one_by_one ho h order hn s _ [] .refl fun _ _ => rfl

/-- C181. Calls between different accounts: what no order refuses, no schedule refuses, and it is what is covered. -/
theorem C181_exact (E : Env) (s : Tree) (hr : Run E s) (f g : Spec.Accounts) (hf : Shows s.summary f) (hg : Shows s.gas g)
    (last : Block) (fee : U256) (hl : s.main.getLastBlock = .ok (some last)) (hfee : recalculateFee last.info.difficulty = .ok fee)
    (call : ι → Deal) (op : ι → Op) (ho : ∀ i, (call i).op = some (op i)) (hn : ∀ i, NotToSelf (op i)) :
    (SafeSchedules E s call ↔ SafeOrders E s op) ∧ (SafeSchedules E s call ↔ Covered call f g fee.val) := by
  have cov : SafeOrders E s op → Covered call f g fee.val := fun h =>
    (covered_list ho f g fee.val).mp ((C180_exact E s (run_life hr) (Finset.univ.toList.map op)
      (fun o h => by obtain ⟨i, _, rfl⟩ := List.mem_map.mp h; exact (deal_amounts (ho i)).2.1)
      (fun o h => by obtain ⟨i, _, rfl⟩ := List.mem_map.mp h; exact hn i) f g hf hg last fee hl hfee).mp (orders_perms h))
  have safe : Covered call f g fee.val → SafeSchedules E s call := fun h log c hx =>
    C179_accepted E s hr f g hf hg last fee hl hfee call (fun i => (deal_amounts (ho i)).1) h log c hx
  have ord := C181_orders E s call op ho
  exact ⟨⟨ord, fun h => safe (cov h)⟩, ⟨fun h => cov (ord h), safe⟩⟩

end

/-! ## Instances -/

/-- The hypotheses of `C181_orders` and `C181_exact` are met, and the calls are safe, by a transaction and a gift of gas to its sender. -/
example (E : Env) : ∃ s f g last fee, ∃ op : Bool → Op, Run E s ∧ Shows s.summary f ∧ Shows s.gas g ∧ s.main.getLastBlock = .ok (some last) ∧
    recalculateFee last.info.difficulty = .ok fee ∧ (∀ b, (payAndFuel b).op = some (op b)) ∧ (∀ b, NotToSelf (op b)) ∧
    SafeSchedules E s payAndFuel := by
  obtain ⟨s, l, log, c, h1, h2, h3, h5, h6, h7, h8⟩ := payAndFuel_run E
  have hsize : exTx.getDumpSize = 145 := by decide +kernel
  have ha : exTx.amount.val = 1000 := rfl
  have hz : U256.zero.val = 0 := rfl
  have one : U256.one.val = 1 := rfl
  have hfee : (U256.ofNat 62500).val = 62500 := rfl
  have ho : ∀ b, (payAndFuel b).op = some (bif b then .sendTransaction exTx else .addGas exTx.sender.val U256.one) := by
    intro b; cases b <;> rfl
  have hn : ∀ b, NotToSelf (bif b then .sendTransaction exTx else .addGas exTx.sender.val U256.one) := by
    intro b
    cases b
    · trivial
    · exact exTx_ne
  refine ⟨s, _, _, l, _, _, h1, h2, h3, h5, h6, ho, hn, ?_⟩
  refine (C181_exact E s h1 _ _ h2 h3 l _ h5 h6 payAndFuel _ ho hn).2.mpr ?_
  have et : payAndFuel true = .send exTx := rfl
  have ef : payAndFuel false = .brief (.addGas exTx.sender.val U256.one) := rfl
  refine ⟨fun k => ?_, fun k => ?_, fun k => ?_, fun k => ?_, fun i tx htx => ?_⟩ <;> rw [Fintype.sum_bool, et, ef]
  · simp only [Deal.spends]
    by_cases hk : k = exTx.sender.val
    · subst hk; rw [if_pos rfl, funded_sender, ha]; decide
    · rw [if_neg hk]; omega
  · simp only [Deal.gains]
    by_cases hk : k = exTx.receiver.val
    · subst hk; rw [if_pos rfl, funded_receiver, ha, hz]; decide
    · rw [if_neg hk]
      obtain ⟨a, _, a2⟩ := h2 k
      rw [← a2]
      exact a.lt
  · simp only [Deal.burns]
    by_cases hk : k = exTx.sender.val
    · subst hk; rw [if_pos rfl, funded_gas, hsize]; decide
    · rw [if_neg hk]; omega
  · simp only [Deal.fills]
    by_cases hk : k = exTx.sender.val
    · subst hk; rw [if_pos rfl, funded_gas, one]; decide
    · rw [if_neg hk]
      obtain ⟨a, _, a2⟩ := h3 k
      rw [← a2]
      exact a.lt
  · cases i
    · cases htx
    · cases htx
      simp only [Deal.spends, if_true]
      rw [funded_sender, ha, hfee]; decide

/-- And not all calls are safe: of two withdrawals of all an account has, some schedule refuses one. -/
example (E : Env) : ∃ s, Run E s ∧ ((Op.subAmount exTx.sender.val (U256.ofNat 1000000000)).run E s).out = .ok () ∧
    ¬ SafeSchedules E s fun _ : Bool => .brief (.subAmount exTx.sender.val (U256.ofNat 1000000000)) := by
  obtain ⟨s, h1, h2, h3, h4, l, h5, h6⟩ := funded E U256.zero
  have hv : (U256.ofNat 1000000000).val = 1000000000 := by decide
  refine ⟨s, h1, ?_, fun h => ?_⟩
  · refine sub_fits (run_storeInv h1).summary.1 ?_
    have := congrFun (shows_eq h2) exTx.sender.val
    rw [funded_sender] at this
    rw [hv, ← this]
  · have c := ((C181_exact E s h1 _ _ h2 h3 l _ h5 h6 _ (fun _ => .subAmount exTx.sender.val (U256.ofNat 1000000000))
      (fun _ => rfl) fun _ => trivial).2.mp h).coins exTx.sender.val
    rw [Fintype.sum_bool] at c
    simp only [Deal.spends, if_true] at c
    rw [funded_sender, hv] at c
    omega

end BCT.Props
