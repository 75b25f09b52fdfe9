import Verif.Props.ThreadsCovered
/-!
# C180: which calls are accepted in every order
-/

namespace BCT.Props
open BCT

/-! ## Statement -/

/-- The coins the call takes from an account. -/
def opSpends : Op → Bytes → Nat
  | .sendTransaction tx, k => if k = tx.sender.val then tx.amount.val else 0
  | .subAmount o n, k => if k = o then n.val else 0
  | .sendAmount a _ n, k => if k = a then n.val else 0
  | _, _ => 0

/-- The coins the call gives to an account. -/
def opGains : Op → Bytes → Nat
  | .sendTransaction tx, k => if k = tx.receiver.val then tx.amount.val else 0
  | .addAmount o n, k => if k = o then n.val else 0
  | .sendAmount _ b n, k => if k = b then n.val else 0
  | _, _ => 0

/-- The gas the call takes from an account. -/
def opBurns : Op → Bytes → Nat
  | .sendTransaction tx, k => if k = tx.sender.val then 625000000000 * tx.getDumpSize else 0
  | .subGas o n, k => if k = o then n.val else 0
  | .sendGas a _ n, k => if k = a then n.val else 0
  | _, _ => 0

/-- The gas the call gives to an account. -/
def opFills : Op → Bytes → Nat
  | .addGas o n, k => if k = o then n.val else 0
  | .sendGas _ b n, k => if k = b then n.val else 0
  | _, _ => 0

/-- Each account has what all calls together take from it, and room for what all calls together give to it; a sender has the fee
besides. -/
structure CoveredList (ops : List Op) (f g : Spec.Accounts) (fee : Nat) : Prop where
  coins : ∀ k, (ops.map (opSpends · k)).sum ≤ f k
  room : ∀ k, f k + (ops.map (opGains · k)).sum < 2 ^ 256
  gas : ∀ k, (ops.map (opBurns · k)).sum ≤ g k
  tank : ∀ k, g k + (ops.map (opFills · k)).sum < 2 ^ 256
  fee : ∀ tx, .sendTransaction tx ∈ ops → fee + (ops.map (opSpends · tx.sender.val)).sum ≤ f tx.sender.val

/-- The call does not move coins or gas from an account to itself. -/
def NotToSelf : Op → Prop
  | .sendTransaction tx => tx.sender ≠ tx.receiver
  | .sendAmount a b _ => a ≠ b
  | .sendGas a b _ => a ≠ b
  | _ => True

/-! ## One call -/

theorem op_coins (op : Op) (k : Bytes) : -(opSpends op k : Int) ≤ coinDelta op k ∧ coinDelta op k ≤ opGains op k := by
  have nil : -((0 : Nat) : Int) ≤ 0 ∧ (0 : Int) ≤ (0 : Nat) := by simp
  cases op with
  | sendTransaction tx => exact coins_within (.send tx) k
  | addAmount o n => exact coins_within (.brief (.addAmount o n)) k
  | subAmount o n => exact coins_within (.brief (.subAmount o n)) k
  | sendAmount a b n => exact coins_within (.brief (.sendAmount a b n)) k
  | _ => exact nil

theorem op_gas (op : Op) (k : Bytes) : -(opBurns op k : Int) ≤ gasDelta op k ∧ gasDelta op k ≤ opFills op k := by
  have nil : -((0 : Nat) : Int) ≤ 0 ∧ (0 : Int) ≤ (0 : Nat) := by simp
  cases op with
  | sendTransaction tx => exact gas_within (.send tx) k
  | addGas o n => exact gas_within (.brief (.addGas o n)) k
  | subGas o n => exact gas_within (.brief (.subGas o n)) k
  | sendGas a b n => exact gas_within (.brief (.sendGas a b n)) k
  | _ => exact nil

theorem move_exact {a b : Bytes} (h : a ≠ b) (n : Nat) (k : Bytes) :
    moveDelta a b n k = ((if k = b then n else 0 : Nat) : Int) - (if k = a then n else 0 : Nat) := by
  unfold moveDelta
  rw [if_neg h]
  by_cases h1 : k = a
  · subst h1
    simp [h]
  · by_cases h2 : k = b
    · subst h2
      simp [h1]
    · simp [h1, h2]

/-- What a call between different accounts adds is what it gives less what it takes. -/
theorem coins_exact {op : Op} (h : NotToSelf op) (k : Bytes) : coinDelta op k = (opGains op k : Int) - opSpends op k := by
  cases op with
  | sendTransaction tx => exact move_exact (fun e => h (Subtype.ext e)) _ _
  | sendAmount a b n => exact move_exact h _ _
  | addAmount o n =>
    change (if k = o then (n.val : Int) else 0) = ((if k = o then n.val else 0 : Nat) : Int) - (0 : Nat)
    split_ifs <;> simp
  | subAmount o n =>
    change (if k = o then -(n.val : Int) else 0) = ((0 : Nat) : Int) - (if k = o then n.val else 0 : Nat)
    split_ifs <;> simp
  | _ => rfl

theorem gas_exact {op : Op} (h : NotToSelf op) (k : Bytes) : gasDelta op k = (opFills op k : Int) - opBurns op k := by
  cases op with
  | sendTransaction tx =>
    change (if k = tx.sender.val then -((625000000000 * tx.getDumpSize : Nat) : Int) else 0) =
      ((0 : Nat) : Int) - (if k = tx.sender.val then 625000000000 * tx.getDumpSize else 0 : Nat)
    split_ifs
    · exact (Int.zero_sub _).symm
    · rfl
  | sendGas a b n => exact (if_neg h).trans (move_exact h _ _)
  | addGas o n =>
    change (if k = o then (n.val : Int) else 0) = ((if k = o then n.val else 0 : Nat) : Int) - (0 : Nat)
    split_ifs <;> simp
  | subGas o n =>
    change (if k = o then -(n.val : Int) else 0) = ((0 : Nat) : Int) - (if k = o then n.val else 0 : Nat)
    split_ifs <;> simp
  | _ => rfl

/-- No call between different accounts both takes from and gives to one. -/
theorem not_both {op : Op} (h : NotToSelf op) (k : Bytes) : (opSpends op k = 0 ∨ opGains op k = 0) ∧
    (opBurns op k = 0 ∨ opFills op k = 0) := by
  have move : ∀ {a b : Bytes} (_ : a ≠ b) (n : Nat), (if k = a then n else 0) = 0 ∨ (if k = b then n else 0) = 0 := by
    intro a b hab n
    by_cases h1 : k = a
    · subst h1; exact .inr (if_neg hab)
    · exact .inl (if_neg h1)
  cases op with
  | sendTransaction tx => exact ⟨move (fun e => h (Subtype.ext e)) _, .inr rfl⟩
  | sendAmount a b n => exact ⟨move h _, .inl rfl⟩
  | sendGas a b n => exact ⟨.inl rfl, move h _⟩
  | addAmount o n => exact ⟨.inl rfl, .inl rfl⟩
  | subAmount o n => exact ⟨.inr rfl, .inl rfl⟩
  | addGas o n => exact ⟨.inl rfl, .inl rfl⟩
  | subGas o n => exact ⟨.inl rfl, .inr rfl⟩
  | _ => exact ⟨.inl rfl, .inl rfl⟩

/-- The last block stays. -/
theorem last_stays (E : Env) {op : Op} (h : Op.Adding op) (s : Tree) :
    (op.run E s).final.main.getLastBlock = s.main.getLastBlock := by
  have h1 : (op.run E s).final.main.chain.blocks.cur = s.main.chain.blocks.cur :=
    (C104_frame E op .blocks (by cases op <;> first | exact h.elim | simp [mayChange]) s).1
  have h2 : (op.run E s).final.main.chain.height = s.main.chain.height :=
    (C104_frame E op .height (by cases op <;> first | exact h.elim | simp [mayChange]) s).1
  unfold MainChain.getLastBlock MainChain.getLastRawBlock MainChain.findRawByHeight Chain.findRawByHeight Db.get
  rw [h1, h2]

theorem op_accepted {E : Env} {s : Tree} (hi : StoreInv E s) {last : Block} {fee : U256} (hl : s.main.getLastBlock = .ok (some last))
    (hfee : recalculateFee last.info.difficulty = .ok fee) {op : Op} (ha : Op.Adding op)
    (hc : ∀ k, opSpends op k ≤ (s.summary.cur.amt k).val ∧ (s.summary.cur.amt k).val + opGains op k < U256.size)
    (hg : ∀ k, opBurns op k ≤ (s.gas.cur.amt k).val ∧ (s.gas.cur.amt k).val + opFills op k < U256.size)
    (hf : ∀ tx, op = .sendTransaction tx → fee.val + tx.amount.val ≤ (s.summary.cur.amt tx.sender.val).val) :
    (op.run E s).out = .ok () := by
  cases op with
  | addAmount o n =>
    have := (hc o).2
    rw [show opGains (.addAmount o n) o = n.val from if_pos rfl] at this
    exact add_fits hi.summary.1 this
  | subAmount o n =>
    have := (hc o).1
    rw [show opSpends (.subAmount o n) o = n.val from if_pos rfl] at this
    exact sub_fits hi.summary.1 this
  | sendAmount a b n =>
    have h1 := (hc a).1
    have h2 := (hc b).2
    rw [show opSpends (.sendAmount a b n) a = n.val from if_pos rfl] at h1
    rw [show opGains (.sendAmount a b n) b = n.val from if_pos rfl] at h2
    exact sendAmount_fits hi.summary.1 h1 h2
  | addGas o n =>
    have := (hg o).2
    rw [show opFills (.addGas o n) o = n.val from if_pos rfl] at this
    exact add_fits hi.gas.1 this
  | subGas o n =>
    have := (hg o).1
    rw [show opBurns (.subGas o n) o = n.val from if_pos rfl] at this
    exact sub_fits hi.gas.1 this
  | sendGas a b n =>
    have h1 := (hg a).1
    have h2 := (hg b).2
    rw [show opBurns (.sendGas a b n) a = n.val from if_pos rfl] at h1
    rw [show opFills (.sendGas a b n) b = n.val from if_pos rfl] at h2
    exact transfer_fits hi.gas.1 h1 h2
  | sendTransaction tx =>
    have h1 := (hg tx.sender.val).1
    have h2 := (hc tx.receiver.val).2
    rw [show opBurns (.sendTransaction tx) tx.sender.val = 625000000000 * tx.getDumpSize from if_pos rfl] at h1
    rw [show opGains (.sendTransaction tx) tx.receiver.val = tx.amount.val from if_pos rfl] at h2
    rw [send_op]
    have had : ∃ last fee, Admitted s tx last fee := (affordable_iff (shows_amt hi.summary.1) (shows_amt hi.gas.1)).mp
      ⟨last, fee, hl, hfee, h1, by have := hf tx rfl; show _ ≤ (s.summary.cur.amt tx.sender.val).val; omega⟩
    rcases sendTransaction_cases E s tx hi.summary.1 hi.gas.1 with ⟨l, fee, h, ha, h1, _⟩ | ⟨_, _, _, g1, g2, e⟩ | ⟨hn, o, ho, e⟩
    · exact h1
    · exact absurd h2 g2
    · exact absurd had hn
  | addTransaction t => rfl
  | addTransactions ts => exact addTransactions_ok E ts s
  | _ => exact ha.elim

/-! ## All calls -/

theorem covered_perm {ops ops' : List Op} (hp : ops.Perm ops') {f g : Spec.Accounts} {fee : Nat} (h : CoveredList ops f g fee) :
    CoveredList ops' f g fee := by
  have e : ∀ (q : Op → Bytes → Nat) (k : Bytes), (ops'.map (q · k)).sum = (ops.map (q · k)).sum :=
    fun q k => ((hp.map (q · k)).sum_nat).symm
  refine ⟨fun k => ?_, fun k => ?_, fun k => ?_, fun k => ?_, fun tx ht => ?_⟩
  · rw [e opSpends]; exact h.coins k
  · rw [e opGains]; exact h.room k
  · rw [e opBurns]; exact h.gas k
  · rw [e opFills]; exact h.tank k
  · rw [e opSpends]; exact h.fee tx (hp.mem_iff.mpr ht)

theorem covered_accepted {E : Env} {last : Block} {fee : U256} (hfee : recalculateFee last.info.difficulty = .ok fee) :
    ∀ {ops : List Op}, (∀ op ∈ ops, Op.Adding op) → ∀ {s : Tree}, StoreInv E s → s.main.getLastBlock = .ok (some last) →
    CoveredList ops (fun k => (s.summary.cur.amt k).val) (fun k => (s.gas.cur.amt k).val) fee.val → AllAccepted E s ops := by
  intro ops
  induction ops with
  | nil => intros; exact trivial
  | cons op ops ih =>
    intro ha s hi hl hc
    have ha1 := ha op List.mem_cons_self
    have c1 := hc.coins
    have c2 := hc.room
    have c3 := hc.gas
    have c4 := hc.tank
    have c5 := hc.fee
    simp only [List.map_cons, List.sum_cons] at c1 c2 c3 c4 c5
    have acc : (op.run E s).out = .ok () := by
      refine op_accepted hi hl hfee ha1 (fun k => ⟨?_, ?_⟩) (fun k => ⟨?_, ?_⟩) fun tx e => ?_
      · have := c1 k; omega
      · have := c2 k
        show _ < 2 ^ 256
        omega
      · have := c3 k; omega
      · have := c4 k
        show _ < 2 ^ 256
        omega
      · have := c5 tx (e ▸ List.mem_cons_self)
        rw [e, show opSpends (.sendTransaction tx) tx.sender.val = tx.amount.val from if_pos rfl] at this
        omega
    refine ⟨acc, ih (fun o ho => ha o (List.mem_cons_of_mem _ ho)) ((Op.storeInv E op s).1 hi) ((last_stays E ha1 s).trans hl) ?_⟩
    have d1 := (coins_shift hi ha1 acc).amt
    have d2 := (gas_shift hi ha1 acc).amt
    refine ⟨fun k => ?_, fun k => ?_, fun k => ?_, fun k => ?_, fun tx ht => ?_⟩
    · have := c1 k; have := d1 k; have := op_coins op k; omega
    · have := c2 k; have := d1 k; have := op_coins op k; omega
    · have := c3 k; have := d2 k; have := op_gas op k; omega
    · have := c4 k; have := d2 k; have := op_gas op k; omega
    · have := c5 tx (List.mem_cons_of_mem _ ht)
      have := d1 tx.sender.val; have := op_coins op tx.sender.val; omega

theorem accepted_append {E : Env} {l l' : List Op} : ∀ {s : Tree}, AllAccepted E s (l ++ l') →
    AllAccepted E s l ∧ AllAccepted E (runAll E s l) l' := by
  induction l with
  | nil => exact fun h => ⟨trivial, h⟩
  | cons op l ih => exact fun ⟨h1, h2⟩ => ⟨⟨h1, (ih h2).1⟩, (ih h2).2⟩

theorem runAll_storeInv {E : Env} (l : List Op) : ∀ {s : Tree}, StoreInv E s → StoreInv E (runAll E s l) := by
  induction l with
  | nil => exact fun h => h
  | cons op l ih => exact fun h => ih ((Op.storeInv E op _).1 h)

theorem runAll_last {E : Env} {l : List Op} (ha : ∀ op ∈ l, Op.Adding op) : ∀ (s : Tree),
    (runAll E s l).main.getLastBlock = s.main.getLastBlock := by
  induction l with
  | nil => exact fun _ => rfl
  | cons op l ih =>
    exact fun s => (ih (fun o ho => ha o (List.mem_cons_of_mem _ ho)) _).trans (last_stays E (ha op List.mem_cons_self) s)

/-- The sum of `d` over the calls with `q ≠ 0`, when `d` is `q` there. -/
theorem sum_pos (q : Op → Nat) (d : Op → Int) (l : List Op) (h : ∀ op ∈ l, q op ≠ 0 → d op = q op) :
    ((l.filter fun op => q op ≠ 0).map d).sum = ((l.map q).sum : Nat) := by
  induction l with
  | nil => rfl
  | cons op l ih =>
    have ih := ih fun o ho => h o (List.mem_cons_of_mem _ ho)
    by_cases h0 : q op = 0
    · rw [List.filter_cons_of_neg (by simpa using h0), ih, List.map_cons, List.sum_cons, h0, Nat.zero_add]
    · rw [List.filter_cons_of_pos (by simpa using h0), List.map_cons, List.sum_cons, ih, List.map_cons, List.sum_cons,
        h op List.mem_cons_self h0]
      omega

theorem sum_neg (q : Op → Nat) (d : Op → Int) (l : List Op) (h : ∀ op ∈ l, q op ≠ 0 → d op = -(q op : Int)) :
    ((l.filter fun op => q op ≠ 0).map d).sum = -((l.map q).sum : Nat) := by
  induction l with
  | nil => rfl
  | cons op l ih =>
    have ih := ih fun o ho => h o (List.mem_cons_of_mem _ ho)
    by_cases h0 : q op = 0
    · rw [List.filter_cons_of_neg (by simpa using h0), ih, List.map_cons, List.sum_cons, h0, Nat.zero_add]
    · rw [List.filter_cons_of_pos (by simpa using h0), List.map_cons, List.sum_cons, ih, List.map_cons, List.sum_cons,
        h op List.mem_cons_self h0]
      omega

/-- The calls with `q ≠ 0` first. -/
theorem first_perm (q : Op → Nat) (l : List Op) :
    l.Perm ((l.filter fun op => q op ≠ 0) ++ l.filter fun op => !decide (q op ≠ 0)) :=
  (List.filter_append_perm (fun op => decide (q op ≠ 0)) l).symm

theorem send_needs {E : Env} {s : Tree} (hi : StoreInv E s) {last : Block} {fee : U256} (hl : s.main.getLastBlock = .ok (some last))
    (hfee : recalculateFee last.info.difficulty = .ok fee) {tx : Transaction} (h : ((Op.sendTransaction tx).run E s).out = .ok ()) :
    fee.val + tx.amount.val ≤ (s.summary.cur.amt tx.sender.val).val := by
  rw [send_op] at h
  rcases sendTransaction_cases E s tx hi.summary.1 hi.gas.1 with ⟨l, fee', _, ha, _⟩ | ⟨_, _, _, _, _, e⟩ | ⟨_, o, ho, e⟩
  · have := (affordable_iff (shows_amt hi.summary.1) (shows_amt hi.gas.1)).mpr ⟨l, fee', ha⟩
    obtain ⟨l', fee', a1, a2, a3, a4⟩ := this
    rw [hl] at a1
    injection a1 with a1
    injection a1 with a1
    subst a1
    rw [hfee] at a2
    injection a2 with a2
    subst a2
    have a4 : _ ≤ (s.summary.cur.amt tx.sender.val).val := a4
    omega
  · rw [e] at h; cases h
  · rw [e] at h; exact absurd h (ho _)

theorem accepted_covered {E : Env} {s : Tree} (hi : StoreInv E s) {last : Block} {fee : U256}
    (hl : s.main.getLastBlock = .ok (some last)) (hfee : recalculateFee last.info.difficulty = .ok fee) {ops : List Op}
    (ha : ∀ op ∈ ops, Op.Adding op) (hn : ∀ op ∈ ops, NotToSelf op) (h : ∀ ops', ops.Perm ops' → AllAccepted E s ops') :
    CoveredList ops (fun k => (s.summary.cur.amt k).val) (fun k => (s.gas.cur.amt k).val) fee.val := by
  have first : ∀ q : Op → Nat, AllAccepted E s (ops.filter fun op => q op ≠ 0) :=
    fun q => (accepted_append (h _ (first_perm q ops))).1
  have steps := fun q : Op → Nat => history_steps (fun op ho => ha op (List.mem_of_mem_filter ho)) hi (first q)
  refine ⟨fun k => ?_, fun k => ?_, fun k => ?_, fun k => ?_, fun tx ht => ?_⟩
  · have e := (steps (opSpends · k)).1.amt k
    rw [sum_neg (opSpends · k) (coinDelta · k) ops fun op ho h0 => by
      rw [coins_exact (hn op ho), ((not_both (hn op ho) k).1.resolve_left h0)]; omega] at e
    omega
  · have e := (steps (opGains · k)).1.amt k
    rw [sum_pos (opGains · k) (coinDelta · k) ops fun op ho h0 => by
      rw [coins_exact (hn op ho), ((not_both (hn op ho) k).1.resolve_right h0)]; omega] at e
    have := ((runAll E s (ops.filter fun op => opGains op k ≠ 0)).summary.cur.amt k).lt
    have : _ < 2 ^ 256 := this
    omega
  · have e := (steps (opBurns · k)).2.1.amt k
    rw [sum_neg (opBurns · k) (gasDelta · k) ops fun op ho h0 => by
      rw [gas_exact (hn op ho), ((not_both (hn op ho) k).2.resolve_left h0)]; omega] at e
    omega
  · have e := (steps (opFills · k)).2.1.amt k
    rw [sum_pos (opFills · k) (gasDelta · k) ops fun op ho h0 => by
      rw [gas_exact (hn op ho), ((not_both (hn op ho) k).2.resolve_right h0)]; omega] at e
    have := ((runAll E s (ops.filter fun op => opFills op k ≠ 0)).gas.cur.amt k).lt
    have : _ < 2 ^ 256 := this
    omega
  · obtain ⟨l1, l2, rfl⟩ := List.append_of_mem ht
    generalize hk : tx.sender.val = k
    have hmem : ∀ op ∈ l1 ++ l2, op ∈ l1 ++ .sendTransaction tx :: l2 := by
      intro op ho
      rcases List.mem_append.mp ho with h | h
      · exact List.mem_append_left _ h
      · exact List.mem_append_right _ (List.mem_cons_of_mem _ h)
    have hp : (l1 ++ .sendTransaction tx :: l2).Perm (((l1 ++ l2).filter fun op => opSpends op k ≠ 0) ++
        .sendTransaction tx :: (l1 ++ l2).filter fun op => !decide (opSpends op k ≠ 0)) :=
      List.perm_middle.trans (((first_perm (opSpends · k) (l1 ++ l2)).cons _).trans List.perm_middle.symm)
    obtain ⟨b1, b2, _⟩ := accepted_append (h _ hp)
    have ha' : ∀ op ∈ (l1 ++ l2).filter fun op => opSpends op k ≠ 0, Op.Adding op :=
      fun op ho => ha op (hmem op (List.mem_of_mem_filter ho))
    have e := (history_steps ha' hi b1).1.amt k
    rw [sum_neg (opSpends · k) (coinDelta · k) (l1 ++ l2) fun op ho h0 => by
      rw [coins_exact (hn op (hmem op ho)), ((not_both (hn op (hmem op ho)) k).1.resolve_left h0)]; omega] at e
    have n := send_needs (runAll_storeInv _ hi) ((runAll_last ha' s).trans hl) hfee b2
    rw [hk] at n
    have t : opSpends (.sendTransaction tx) k = tx.amount.val := if_pos hk.symm
    simp only [List.map_append, List.map_cons, List.sum_append, List.sum_cons, t] at e ⊢
    omega

/-! ## Property -/

/-- C180. Calls that are covered together are accepted in every order. -/
theorem C180_enough (E : Env) (s : Tree) (hs : Life E (.idle s)) (ops : List Op) (ha : ∀ op ∈ ops, Op.Adding op)
    (f g : Spec.Accounts) (hf : Shows s.summary f) (hg : Shows s.gas g) (last : Block) (fee : U256)
    (hl : s.main.getLastBlock = .ok (some last)) (hfee : recalculateFee last.info.difficulty = .ok fee)
    (hc : CoveredList ops f g fee.val) (ops' : List Op) (hp : ops.Perm ops') : AllAccepted E s ops' := by
  rw [shows_eq hf, shows_eq hg] at hc
  exact covered_accepted hfee (fun op ho => ha op (hp.mem_iff.mpr ho)) (life_storeInv hs) hl (covered_perm hp hc)

/-- C180. Only those: calls between different accounts that are accepted in every order are covered together. -/
theorem C180_exact (E : Env) (s : Tree) (hs : Life E (.idle s)) (ops : List Op) (ha : ∀ op ∈ ops, Op.Adding op)
    (hn : ∀ op ∈ ops, NotToSelf op) (f g : Spec.Accounts) (hf : Shows s.summary f) (hg : Shows s.gas g) (last : Block) (fee : U256)
    (hl : s.main.getLastBlock = .ok (some last)) (hfee : recalculateFee last.info.difficulty = .ok fee) :
    (∀ ops', ops.Perm ops' → AllAccepted E s ops') ↔ CoveredList ops f g fee.val := by
  refine ⟨fun h => ?_, fun h ops' hp => C180_enough E s hs ops ha f g hf hg last fee hl hfee h ops' hp⟩
  rw [shows_eq hf, shows_eq hg]
  exact accepted_covered (life_storeInv hs) hl hfee ha hn h

/-- C180. What covered calls leave does not depend on their order. -/
theorem C180_same (E : Env) (s : Tree) (hs : Life E (.idle s)) (ops : List Op) (ha : ∀ op ∈ ops, Op.Adding op)
    (f g : Spec.Accounts) (hf : Shows s.summary f) (hg : Shows s.gas g) (last : Block) (fee : U256)
    (hl : s.main.getLastBlock = .ok (some last)) (hfee : recalculateFee last.info.difficulty = .ok fee)
    (hc : CoveredList ops f g fee.val)
    (hd : ∀ tx ∈ ops.flatMap Op.stores, ∀ tx' ∈ ops.flatMap Op.stores,
      E.sha256 tx.dump = E.sha256 tx'.dump → tx.dump = tx'.dump) (ops' : List Op) (hp : ops.Perm ops') (p : Part) :
    p.Same (runAll E s ops) (runAll E s ops') :=
  have acc := C180_enough E s hs ops ha f g hf hg last fee hl hfee hc
  C177_order E s hs ops ops' hp ha (acc ops (.refl _)) (acc ops' hp) hd p

/-- C180. Calls to oneself are an exception: `send_amount` from an account to itself is accepted though it is not covered. -/
theorem C180_self (E : Env) (s : Tree) (a : Bytes) (n : U256) (f g : Spec.Accounts) (fee : Nat) (hn : f a < n.val) :
    (∀ ops', [Op.sendAmount a a n].Perm ops' → AllAccepted E s ops') ∧ ¬ CoveredList [.sendAmount a a n] f g fee := by
  refine ⟨fun ops' hp => ?_, fun h => ?_⟩
  · rw [← List.singleton_perm.mp hp]
    refine ⟨?_, trivial⟩
    show (Tree.sendAmount a a n s).out = .ok ()
    unfold Tree.sendAmount
    rw [if_pos rfl]
    rfl
  · have := h.coins a
    rw [show ([Op.sendAmount a a n].map (opSpends · a)).sum = (if a = a then n.val else 0) + 0 from rfl, if_pos rfl] at this
    omega

/-! ## Instances -/

/-- The hypotheses of `C180_enough`, `C180_exact` and `C180_same` are met, and in another order too, by a transaction, a gift of
gas to its sender and a deposit for its receiver. -/
example : ∃ s ops ops' f g last fee, Life idEnv (.idle s) ∧ (∀ op ∈ ops, Op.Adding op) ∧ (∀ op ∈ ops, NotToSelf op) ∧
    Shows s.summary f ∧ Shows s.gas g ∧ s.main.getLastBlock = .ok (some last) ∧
    recalculateFee last.info.difficulty = .ok fee ∧ CoveredList ops f g fee.val ∧ ops.Perm ops' ∧ ops ≠ ops' ∧
    (∀ tx ∈ ops.flatMap Op.stores, ∀ tx' ∈ ops.flatMap Op.stores,
      idEnv.sha256 tx.dump = idEnv.sha256 tx'.dump → tx.dump = tx'.dump) ∧
    (ops.map (opSpends · exTx.sender.val)).sum = 1000 ∧ (ops.map (opGains · exTx.receiver.val)).sum = 1001 := by
  obtain ⟨s, h1, h2, h3, h4, l, h5, h6⟩ := funded idEnv U256.zero
  have hsize : exTx.getDumpSize = 145 := by decide +kernel
  have ha : exTx.amount.val = 1000 := rfl
  have hz : U256.zero.val = 0 := rfl
  have one : U256.one.val = 1 := rfl
  have hfee : (U256.ofNat 62500).val = 62500 := rfl
  refine ⟨s, [.sendTransaction exTx, .addGas exTx.sender.val U256.one, .addAmount exTx.receiver.val U256.one],
    [.addGas exTx.sender.val U256.one, .sendTransaction exTx, .addAmount exTx.receiver.val U256.one], _, _, l, _, run_life h1,
    ?_, ?_, h2, h3, h5, h6, ?_, List.Perm.swap _ _ _, ?_, ?_, ?_, ?_⟩
  · intro op ho
    simp only [List.mem_cons, List.not_mem_nil, or_false] at ho
    rcases ho with rfl | rfl | rfl <;> trivial
  · intro op ho
    simp only [List.mem_cons, List.not_mem_nil, or_false] at ho
    rcases ho with rfl | rfl | rfl
    · exact exTx_ne
    · trivial
    · trivial
  · refine ⟨fun k => ?_, fun k => ?_, fun k => ?_, fun k => ?_, fun tx ht => ?_⟩ <;>
      simp only [List.map_cons, List.map_nil, List.sum_cons, List.sum_nil, opSpends, opGains, opBurns, opFills]
    · by_cases hk : k = exTx.sender.val
      · subst hk; rw [if_pos rfl, funded_sender, ha]; decide
      · rw [if_neg hk]; omega
    · by_cases hk : k = exTx.receiver.val
      · subst hk; rw [if_pos rfl, if_pos rfl, funded_receiver, ha, hz, one]; decide
      · rw [if_neg hk, if_neg hk]
        obtain ⟨a, _, a2⟩ := h2 k
        rw [← a2]
        exact a.lt
    · by_cases hk : k = exTx.sender.val
      · subst hk; rw [if_pos rfl, funded_gas, hsize]; decide
      · rw [if_neg hk]; omega
    · by_cases hk : k = exTx.sender.val
      · subst hk; rw [if_pos rfl, funded_gas, one]; decide
      · rw [if_neg hk]
        obtain ⟨a, _, a2⟩ := h3 k
        rw [← a2]
        exact a.lt
    · have e : tx = exTx := by simpa using ht
      subst e
      rw [if_pos rfl, funded_sender, ha, hfee]; decide
  · intro e
    injection e with e _
    cases e
  · intro tx ht tx' ht' _
    have e : tx = exTx := by simpa [Op.stores] using ht
    have e' : tx' = exTx := by simpa [Op.stores] using ht'
    rw [e, e']
  · simp only [List.map_cons, List.map_nil, List.sum_cons, List.sum_nil, opSpends, if_true, ha]; rfl
  · simp only [List.map_cons, List.map_nil, List.sum_cons, List.sum_nil, opGains, if_true, ha, one]; rfl

end BCT.Props
