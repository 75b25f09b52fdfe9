import Verif.Props.Threads
import Verif.Props.Send
/-!
# C72 and C73: concurrent `send_transaction` (blockchaintree.rs)
-/

namespace BCT.Props
open BCT

/-! ## C72 -/

/-- A step that keeps the coin supply. -/
def KeepsSupply (n : Nat) (s s' : Node) : Prop :=
  (s.data.summary.cur.Dec ∧ s.data.summary.cur.supply = n) → (s'.data.summary.cur.Dec ∧ s'.data.summary.cur.supply = n)

theorem keepsSupply_main (n : Nat) : Node.MainStep (KeepsSupply n) := ⟨fun _ h => h, fun _ _ h => h, fun _ _ h => h⟩

theorem keepsSupply_sendAmount (n : Nat) (a b : Bytes) (v : U256) :
    Prog.Guar (KeepsSupply n) (Node.onTree (Tree.sendAmount a b v)) := by
  refine Node.guar_onTree fun s h => ?_
  unfold Tree.sendAmount
  split
  · exact h
  · rename_i hne
    change (Ledger.transfer a b v s.data.summary).final.cur.Dec ∧ (Ledger.transfer a b v s.data.summary).final.cur.supply = n
    rcases Ledger.transfer_run h.1 a b v with ⟨ha, hlt, e⟩ | ⟨_, e⟩ | ⟨_, _, e⟩
    · rw [e]
      exact ⟨Ledger.moved_dec h.1 _ _ _ _, (Ledger.moved_supply _ hne v hlt ha).trans h.2⟩
    · rw [e]; exact h
    · rw [e]; exact h

theorem keepsSupply_send (n : Nat) (E : Env) (tx : Transaction) :
    Prog.Guar (KeepsSupply n) (Node.sendTransaction E tx) := by
  have hm := keepsSupply_main n
  unfold Node.sendTransaction
  refine .bind (Node.guar_read hm.refl _) fun _ => .bind (Node.guar_read hm.refl _) fun _ =>
    .bind (Prog.guar_lift _) fun g => ?_
  split
  · exact Prog.guar_lift _
  · refine .bind (Node.guar_getLastBlock hm.refl) fun _ => .bind (Prog.guar_lift _) fun _ =>
      .bind (Prog.guar_lift _) fun _ => .bind (Prog.guar_lift _) fun _ => ?_
    split
    · exact Prog.guar_lift _
    · exact .bind (Node.guar_addTransaction hm E tx) fun _ => .bind (keepsSupply_sendAmount n _ _ _) fun _ =>
        Node.guar_onTree fun _ h => h

theorem keepsSupply_call (n : Nat) (E : Env) (k : Node.SharedCall) : Prog.Guar (KeepsSupply n) (k.prog E) := by
  cases k with
  | send tx => exact keepsSupply_send n E tx
  | flush => exact Node.guar_flush (keepsSupply_main n) (fun _ h => h) (fun _ h => h) (fun _ h => h) (fun _ h => h)
  | handle h => exact Node.guar_handle (keepsSupply_main n) E h

/-- C72. Any number of threads send transactions, flush the node and use main chain handles. Under every schedule, at
every moment, also inside the calls, the sum of all coin balances is what it was. -/
theorem C72_conserved {ι : Type} [DecidableEq ι] (E : Env) (s : Tree) (hr : Run E s) (call : ι → Node.SharedCall)
    (log : List (Event ι Node)) (c : Config ι Node Unit) (h : Exec ⟨⟨s, false⟩, fun i => (call i).prog E⟩ log c)
    (f : Spec.Accounts) (n : Nat) (hf : Shows s.summary f) (hn : Spec.Total f n) :
    (∃ f', Shows c.shared.data.summary f' ∧ Spec.Total f' n) ∧
    ∀ e ∈ log, ∃ f', Shows e.after.data.summary f' ∧ Spec.Total f' n := by
  have hd := (run_storeInv hr).summary.1
  have hs := (total_iff hd hf).mp hn
  obtain ⟨h1, h2⟩ := h.always (J := fun s => s.data.summary.cur.Dec ∧ s.data.summary.cur.supply = n) ⟨hd, hs.symm⟩
    (fun i => keepsSupply_call n E (call i))
  refine ⟨⟨_, shows_amt h1.1, (total_iff h1.1 (shows_amt h1.1)).mpr h1.2.symm⟩, fun e he => ?_⟩
  have h3 := (h2 e he).2
  exact ⟨_, shows_amt h3.1, (total_iff h3.1 (shows_amt h3.1)).mpr h3.2.symm⟩

/-! ## C73 -/

section
variable {ι : Type}

/-- The step changed some coin balance. -/
def MovedCoins (e : Event ι Node) : Prop :=
  ∃ (q : Bytes) (a b : U256), Ledger.balance (e.before.data.summary.get q) = .ok a ∧
    Ledger.balance (e.after.data.summary.get q) = .ok b ∧ a ≠ b

/-- The step took the gas of the transaction from its sender. -/
def Charged (tx : Transaction) (e : Event ι Node) : Prop :=
  ∃ a b : U256, Ledger.balance (e.before.data.gas.get tx.sender.val) = .ok a ∧
    Ledger.balance (e.after.data.gas.get tx.sender.val) = .ok b ∧ a.val = b.val + 625000000000 * tx.getDumpSize

/-- The gas a call costs an address when it succeeds. -/
def gasOf (k : Node.SharedCall) (q : Bytes) : Nat :=
  match k with
  | .send tx => if tx.sender.val = q then 625000000000 * tx.getDumpSize else 0
  | _ => 0

/-- Coins and gas readable. -/
def Readable (n : Node) : Prop := n.data.gas.cur.Dec ∧ n.data.summary.cur.Dec

/-- Coins and gas unchanged. -/
def NoMoney (n n' : Node) : Prop :=
  n'.data.gas.cur = n.data.gas.cur ∧ n'.data.summary.cur = n.data.summary.cur

theorem noMoney_main : Node.MainStep NoMoney := ⟨fun _ => ⟨rfl, rfl⟩, fun _ _ => ⟨rfl, rfl⟩, fun _ _ => ⟨rfl, rfl⟩⟩

/-- What is left of the call when only the gas is to be paid. -/
def payStep (tx : Transaction) (g : U256) : Prog Node Unit := Node.onTree (Tree.subGas tx.sender.val g)

/-- The step after which only the gas is to be paid. -/
def ToPay (k : Node.SharedCall) (n n' : Node) (p : Prog Node Unit) : Prop :=
  ∃ tx g, k = .send tx ∧ g.val = 625000000000 * tx.getDumpSize ∧ p = payStep tx g ∧ Readable n' ∧
    n'.data.gas.cur = n.data.gas.cur

/-- Only other calls succeed without paying. -/
def EndsEarly (k : Node.SharedCall) (o : Outcome Unit) : Prop := ∀ tx, k = .send tx → ∀ a, o ≠ .ok a

theorem call_until (E : Env) (k : Node.SharedCall) :
    Prog.Until Readable NoMoney (ToPay k) (EndsEarly k) (k.prog E) := by
  have hm := noMoney_main
  cases k with
  | flush =>
    exact Prog.Guar.until_end (fun o tx h => (by cases h))
      (Node.guar_flush hm (fun _ => ⟨rfl, rfl⟩) (fun _ => ⟨rfl, rfl⟩) (fun _ => ⟨rfl, rfl⟩) (fun _ => ⟨rfl, rfl⟩))
  | handle h => exact Prog.Guar.until_end (fun o tx h => (by cases h)) (Node.guar_handle hm E h)
  | send tx =>
    have he : ∀ e, EndsEarly (.send tx) (.err e) := fun e _ _ a => by simp
    have hp : ∀ e, EndsEarly (.send tx) (.panic e) := fun e _ _ a => by simp
    have hu : EndsEarly (.send tx) .ub := fun _ _ a => by simp
    change Prog.Until _ _ _ _ (Node.sendTransaction E tx)
    unfold Node.sendTransaction
    refine Prog.Guar.until he hp hu (Node.guar_read hm.refl _) fun _ =>
      Prog.Guar.until he hp hu (Node.guar_read hm.refl _) fun _ => ?_
    cases hg : BYTE_GAS_PRICE.mulNat tx.getDumpSize with
    | err e => exact he e
    | panic e => exact hp e
    | ub => exact hu
    | ok g =>
    have hgv : g.val = 625000000000 * tx.getDumpSize := by
      unfold U256.mulNat at hg
      split at hg
      · have := Outcome.ok.inj hg
        rw [← this]; rfl
      · cases hg
    change Prog.Until _ _ _ _ (if _ then _ else _)
    split
    · exact he _
    refine Prog.Guar.until he hp hu (Node.guar_getLastBlock hm.refl) fun _ =>
      Prog.Guar.until he hp hu (Prog.guar_lift _) fun _ => Prog.Guar.until he hp hu (Prog.guar_lift _) fun _ =>
      Prog.Guar.until he hp hu (Prog.guar_lift _) fun _ => ?_
    split
    · exact he _
    refine Prog.Guar.until he hp hu (Node.guar_addTransaction hm E tx) fun _ => ?_
    intro n n' hn hstep
    cases hstep
    change (_ ∧ Prog.Until _ _ _ _ (Prog.bind (.done ((Tree.sendAmount tx.sender.val tx.receiver.val tx.amount n.data).out)) _)) ∨
      ToPay _ _ _ (Prog.bind (.done ((Tree.sendAmount tx.sender.val tx.receiver.val tx.amount n.data).out)) _)
    unfold Tree.sendAmount
    split
    · exact .inr ⟨tx, g, rfl, hgv, rfl, hn, rfl⟩
    · rcases Ledger.transfer_run hn.2 tx.sender.val tx.receiver.val tx.amount with ⟨_, hlt, e⟩ | ⟨_, e⟩ | ⟨_, _, e⟩
      · right
        simp only [Tree.onSummary, Act.zoom, e]
        exact ⟨tx, g, rfl, hgv, rfl, ⟨hn.1, Ledger.moved_dec hn.2 _ _ _ _⟩, rfl⟩
      · left
        simp only [Tree.onSummary, Act.zoom, e]
        exact ⟨⟨rfl, rfl⟩, hp _⟩
      · left
        simp only [Tree.onSummary, Act.zoom, e]
        exact ⟨⟨rfl, rfl⟩, hp _⟩

variable [Fintype ι]

/-- Where a thread is. -/
inductive Stage (call : ι → Node.SharedCall) (g : Spec.Accounts) (log : List (Event ι Node)) (i : ι) :
    Prog Node Unit → Prop where
  | early {p} : Prog.Until Readable NoMoney (ToPay (call i)) (EndsEarly (call i)) p →
      (∀ e ∈ log, e.thread = i → NoMoney e.before e.after) → Stage call g log i p
  | toPay {tx v} : call i = .send tx → v.val = 625000000000 * tx.getDumpSize →
      (∀ e ∈ log, e.thread = i → e.after.data.gas.cur = e.before.data.gas.cur) → Stage call g log i (payStep tx v)
  | paid {tx} : call i = .send tx → (∃ e ∈ log, e.thread = i ∧ Charged tx e) → Stage call g log i (.done (.ok ()))
  | unpaid {tx} : call i = .send tx → g tx.sender.val < ∑ j, gasOf (call j) tx.sender.val →
      (∀ e ∈ log, e.thread = i → e.after.data.gas.cur = e.before.data.gas.cur) →
      Stage call g log i (.done (.panic .unwrap))

theorem Stage.other {call : ι → Node.SharedCall} {g : Spec.Accounts} {log : List (Event ι Node)} {i : ι}
    {p : Prog Node Unit} (h : Stage call g log i p) (ev : Event ι Node) (hne : ev.thread ≠ i) :
    Stage call g (log ++ [ev]) i p := by
  have key : ∀ {P : Event ι Node → Prop}, (∀ e ∈ log, e.thread = i → P e) → ∀ e ∈ log ++ [ev], e.thread = i → P e := by
    intro P h e he hi
    rcases List.mem_append.mp he with he | he
    · exact h e he hi
    · rw [List.mem_singleton.mp he] at hi; exact absurd hi hne
  cases h with
  | early h1 h2 => exact .early h1 (key h2)
  | toPay h1 h2 h3 => exact .toPay h1 h2 (key h3)
  | paid h1 h2 =>
    obtain ⟨e, he, h3⟩ := h2
    exact .paid h1 ⟨e, List.mem_append_left _ he, h3⟩
  | unpaid h1 h2 h3 => exact .unpaid h1 h2 (key h3)

/-- The gas the successful calls have cost. -/
def spentGas (call : ι → Node.SharedCall) (th : ι → Prog Node Unit) (q : Bytes) : Nat :=
  ∑ i, if succeeded (th i) then gasOf (call i) q else 0

variable [DecidableEq ι]

theorem spentGas_update (call : ι → Node.SharedCall) (th : ι → Prog Node Unit) (q : Bytes) (i : ι)
    (p : Prog Node Unit) (hi : succeeded (th i) = false) :
    spentGas call (Function.update th i p) q = spentGas call th q + if succeeded p then gasOf (call i) q else 0 := by
  unfold spentGas
  rw [show (if succeeded p then gasOf (call i) q else 0) =
    ∑ j, if j = i then (if succeeded p then gasOf (call i) q else 0) else 0 by simp, ← Finset.sum_add_distrib]
  refine Finset.sum_congr rfl fun j _ => ?_
  by_cases hj : j = i
  · subst hj; simp [hi]
  · simp [hj]

theorem spentGas_lt (call : ι → Node.SharedCall) (th : ι → Prog Node Unit) (q : Bytes) (i : ι)
    (hi : succeeded (th i) = false) : spentGas call th q + gasOf (call i) q ≤ ∑ j, gasOf (call j) q := by
  unfold spentGas
  rw [show gasOf (call i) q = ∑ j, if j = i then gasOf (call i) q else 0 by simp, ← Finset.sum_add_distrib]
  refine Finset.sum_le_sum fun j _ => ?_
  by_cases hj : j = i
  · subst hj; simp [hi]
  · simp only [hj, if_false]; split <;> omega

/-- The invariant of the executions. -/
theorem send_stages {E : Env} {s : Tree} (hs : Readable ⟨s, false⟩) {call : ι → Node.SharedCall}
    {log : List (Event ι Node)} {c : Config ι Node Unit} (h : Exec ⟨⟨s, false⟩, fun i => (call i).prog E⟩ log c)
    {g : Spec.Accounts} (hg : Shows s.gas g) :
    Readable c.shared ∧ (∀ q, (c.shared.data.gas.cur.amt q).val + spentGas call c.threads q = g q) ∧
    ∀ i, Stage call g log i (c.threads i) := by
  have hge := shows_eq hg
  induction h with
  | refl =>
    refine ⟨hs, fun q => ?_, fun i => .early (call_until E _) fun e he => absurd he (by simp)⟩
    have : spentGas call (fun i => (call i).prog E) q = 0 := by
      refine Finset.sum_eq_zero fun i _ => ?_
      cases hc : call i with
      | send tx => simp only [hc]; rfl
      | flush => simp [gasOf]
      | handle k => simp [gasOf]
    simp only [this, hge, Nat.add_zero]
  | @step log c i next rest s' _ hi hn ih =>
    obtain ⟨hK, hacc, hst⟩ := ih
    have hnot : succeeded (c.threads i) = false := by rw [hi]; rfl
    have hst_i := hst i
    have others : ∀ (ev : Event ι Node), ev.thread = i → ∀ p, Stage call g (log ++ [ev]) i p →
        ∀ j, Stage call g (log ++ [ev]) j (Function.update c.threads i p j) := by
      intro ev hev p hp j
      by_cases hj : j = i
      · subst hj; rw [Function.update_self]; exact hp
      · rw [Function.update_of_ne hj]
        exact (hst j).other ev (by rw [hev]; exact fun e => hj e.symm)
    have ext : ∀ {P : Event ι Node → Prop} (ev : Event ι Node), (∀ e ∈ log, e.thread = i → P e) → P ev →
        ∀ e ∈ log ++ [ev], e.thread = i → P e := by
      intro P ev h1 h2 e he hi
      rcases List.mem_append.mp he with he | he
      · exact h1 e he hi
      · rw [List.mem_singleton.mp he]; exact h2
    rw [hi] at hst_i
    generalize hp : Prog.step next rest = p at hst_i
    cases hst_i with
    | early h1 h2 =>
      subst hp
      rcases h1 c.shared s' hK hn with ⟨hR, hU⟩ | hM
      · refine ⟨⟨by rw [hR.1]; exact hK.1, by rw [hR.2]; exact hK.2⟩, fun q => ?_,
          others ⟨i, c.shared, s'⟩ rfl _ (.early hU (ext ⟨i, c.shared, s'⟩ h2 hR))⟩
        rw [spentGas_update _ _ _ _ _ hnot]
        have : (if succeeded (rest c.shared) = true then gasOf (call i) q else 0) = 0 := by
          cases hc : call i with
          | flush => simp [gasOf]
          | handle k => simp [gasOf]
          | send tx =>
            cases hr : rest c.shared with
            | step n r => rfl
            | done o =>
              rw [hr] at hU
              cases o with
              | ok a => exact absurd rfl (hU tx hc a)
              | err e => rfl
              | panic e => rfl
              | ub => rfl
        rw [this]
        simp only [hR.1]
        exact hacc q
      · obtain ⟨tx, v, e1, e2, e3, e4, e5⟩ := hM
        refine ⟨e4, fun q => ?_, others ⟨i, c.shared, s'⟩ rfl _ ?_⟩
        · rw [spentGas_update _ _ _ _ _ hnot]
          simp only [e5]
          rw [e3]
          exact hacc q
        · rw [e3]
          exact .toPay e1 e2 (ext ⟨i, c.shared, s'⟩ (fun e he hi => (h2 e he hi).1) e5)
    | @toPay tx v h1 h2 h3 =>
      unfold payStep Node.onTree Prog.atomic at hp
      injection hp with hp1 hp2
      subst hp1 hp2
      cases hn
      have hgas : ∀ q, gasOf (call i) q = if tx.sender.val = q then 625000000000 * tx.getDumpSize else 0 := by
        intro q; rw [h1]; rfl
      rcases Ledger.sub_run hK.1 tx.sender.val v with ⟨hle, e⟩ | ⟨hlt, e⟩
      · simp only [Act.zoom, Tree.subGas, Tree.onGas, e]
        have hamt : ∀ q, ((c.shared.data.gas.insert tx.sender.val (Ledger.encode
            ⟨(c.shared.data.gas.cur.amt tx.sender.val).val - v.val, Ledger.sub_lt⟩)).cur.amt q) =
            if tx.sender.val = q then ⟨(c.shared.data.gas.cur.amt tx.sender.val).val - v.val, Ledger.sub_lt⟩
            else c.shared.data.gas.cur.amt q := fun q => KV.amt_insert _ _ _ _
        refine ⟨⟨hK.1.insert _ _, hK.2⟩, fun q => ?_, others ⟨i, c.shared, _⟩ rfl _ (.paid h1
          ⟨_, List.mem_append_right _ (List.mem_singleton.mpr rfl), rfl, ?_⟩)⟩
        · rw [spentGas_update _ _ _ _ _ hnot, hamt, hgas]
          have := hacc q
          simp only [succeeded, if_true]
          by_cases hq : tx.sender.val = q
          · subst hq; simp only [if_true]; omega
          · simp only [if_neg hq]; omega
        · refine ⟨_, _, hK.1.balance _, (hK.1.insert _ _).balance _, ?_⟩
          have := congrArg U256.val (hamt tx.sender.val)
          simp only [if_true] at this
          rw [show (c.shared.data.gas.cur.insert tx.sender.val (Ledger.encode
            ⟨(c.shared.data.gas.cur.amt tx.sender.val).val - v.val, Ledger.sub_lt⟩)).amt tx.sender.val =
            (c.shared.data.gas.insert tx.sender.val (Ledger.encode
            ⟨(c.shared.data.gas.cur.amt tx.sender.val).val - v.val, Ledger.sub_lt⟩)).cur.amt tx.sender.val from rfl, this]
          omega
      · simp only [Act.zoom, Tree.subGas, Tree.onGas, e]
        refine ⟨hK, fun q => ?_, others ⟨i, c.shared, _⟩ rfl _ (.unpaid h1 ?_ (ext ⟨i, c.shared, _⟩ h3 rfl))⟩
        · rw [spentGas_update _ _ _ _ _ hnot]
          exact hacc q
        · have k1 := hacc tx.sender.val
          have k2 := spentGas_lt call c.threads tx.sender.val i hnot
          rw [hgas, if_pos rfl] at k2
          omega
    | paid h1 h2 => cases hp
    | unpaid h1 h2 h3 => cases hp

/-- C73 at full strength. -/
def C73_full : Prop := ∀ (ι : Type) [DecidableEq ι] [Fintype ι] (E : Env) (s : Tree) (call : ι → Node.SharedCall)
  (log : List (Event ι Node)) (c : Config ι Node Unit), Run E s →
  Exec ⟨⟨s, false⟩, fun i => (call i).prog E⟩ log c → ∀ i tx, call i = .send tx → hasEnded (c.threads i) →
  (∃ e ∈ log, e.thread = i ∧ MovedCoins e) → ∃ e ∈ log, e.thread = i ∧ Charged tx e

omit [Fintype ι] [DecidableEq ι] in
theorem noMoney_not_moved {e : Event ι Node} (h : NoMoney e.before e.after) : ¬ MovedCoins e := by
  rintro ⟨q, a, b, h1, h2, h3⟩
  rw [show e.after.data.summary.get q = e.before.data.summary.get q from congrArg (fun m => KV.get m q) h.2, h1] at h2
  exact h3 (Outcome.ok.inj h2)

/-- C73, what holds, under every schedule and at every moment.
The gas balances are the initial ones less exactly the cost of the calls that returned `Ok`; every call that returned
`Ok` has charged its sender in one of its steps; calls that did not have charged nobody; and if the senders' gas covers
all their calls, every call that has ended and moved coins has charged its sender.
Missing: senders whose gas covers each of their calls but not all of them (`C73_refuted`). -/
theorem C73_charged_partial (E : Env) (s : Tree) (hr : Run E s) (call : ι → Node.SharedCall)
    (log : List (Event ι Node)) (c : Config ι Node Unit) (h : Exec ⟨⟨s, false⟩, fun i => (call i).prog E⟩ log c)
    (g : Spec.Accounts) (hg : Shows s.gas g) :
    (∃ g', Shows c.shared.data.gas g' ∧
      ∀ q, g' q + ∑ i, (if succeeded (c.threads i) then gasOf (call i) q else 0) = g q) ∧
    (∀ i tx, call i = .send tx → c.threads i = .done (.ok ()) → ∃ e ∈ log, e.thread = i ∧ Charged tx e) ∧
    (∀ i tx, call i = .send tx → c.threads i ≠ .done (.ok ()) →
      ∀ e ∈ log, e.thread = i → ∀ q, e.after.data.gas.get q = e.before.data.gas.get q) ∧
    (∀ i tx, call i = .send tx → ∑ j, gasOf (call j) tx.sender.val ≤ g tx.sender.val → hasEnded (c.threads i) →
      (∃ e ∈ log, e.thread = i ∧ MovedCoins e) → ∃ e ∈ log, e.thread = i ∧ Charged tx e) := by
  have hi := run_storeInv hr
  obtain ⟨h1, h2, h3⟩ := send_stages (E := E) (s := s) ⟨hi.gas.1, hi.summary.1⟩ h hg
  refine ⟨⟨_, shows_amt h1.1, h2⟩, fun i tx hc hok => ?_, fun i tx hc hok => ?_, fun i tx hc hcov hend hmv => ?_⟩
  · have := h3 i
    rw [hok] at this
    generalize hp : (Prog.done (.ok ()) : Prog Node Unit) = p at this
    cases this with
    | early k1 k2 => subst hp; exact absurd rfl (k1 tx hc ())
    | toPay k1 k2 k3 => cases hp
    | @paid tx' k1 k2 => rw [hc] at k1; cases k1; exact k2
    | unpaid k1 k2 k3 => cases hp
  · have := h3 i
    generalize c.threads i = p at this hok
    have key : (∀ e ∈ log, e.thread = i → e.after.data.gas.cur = e.before.data.gas.cur) →
        ∀ e ∈ log, e.thread = i → ∀ q, e.after.data.gas.get q = e.before.data.gas.get q :=
      fun k e he hi q => congrArg (fun m => KV.get m q) (k e he hi)
    cases this with
    | early k1 k2 => exact key fun e he hi => (k2 e he hi).1
    | toPay k1 k2 k3 => exact key k3
    | paid k1 k2 => exact absurd rfl hok
    | unpaid k1 k2 k3 => exact key k3
  · have := h3 i
    obtain ⟨o, ho⟩ := hend
    generalize hp : c.threads i = p at this
    cases this with
    | early k1 k2 =>
      obtain ⟨e, he, hei, hm⟩ := hmv
      exact absurd hm (noMoney_not_moved (k2 e he hei))
    | toPay k1 k2 k3 => rw [ho] at hp; cases hp
    | @paid tx' k1 k2 => rw [hc] at k1; cases k1; exact k2
    | @unpaid tx' k1 k2 k3 => rw [hc] at k1; cases k1; omega

end

/-- What is left of `send_transaction` after its checks. -/
def sendRest (E : Env) (tx : Transaction) (g : U256) : Prog Node Unit := do
  Node.addTransaction E tx
  Node.onTree (Tree.sendAmount tx.sender.val tx.receiver.val tx.amount)
  payStep tx g

/-- An affordable transaction passes the checks. -/
theorem send_checks_run (E : Env) (s : Tree) (tx : Transaction) (f g : Spec.Accounts) (hf : Shows s.summary f)
    (hg : Shows s.gas g) (ha : Affordable s f g tx) (v : U256) (hv : v.val = 625000000000 * tx.getDumpSize) :
    Prog.Runs (Node.sendTransaction E tx) ⟨s, false⟩ (sendRest E tx v) ⟨s, false⟩ := by
  obtain ⟨last, fee, h1, h2, h3, h4⟩ := ha
  obtain ⟨a, a1, a2⟩ := hg tx.sender.val
  obtain ⟨b, b1, b2⟩ := hf tx.sender.val
  have hmul : BYTE_GAS_PRICE.mulNat tx.getDumpSize = .ok v := by
    unfold U256.mulNat
    have e : BYTE_GAS_PRICE.val * tx.getDumpSize = v.val := hv.symm
    rw [dif_pos (e ▸ v.lt)]
    exact congrArg Outcome.ok (U256.ext e)
  unfold Node.sendTransaction
  refine (Prog.runs_bind_ok (a := a) (t := ⟨s, false⟩) (by
    simp only [Node.read, Prog.solo]
    rw [show s.getGas tx.sender = .ok a from a1]) _).trans ?_
  refine (Prog.runs_bind_ok (a := b) (t := ⟨s, false⟩) (by
    simp only [Node.read, Prog.solo]
    rw [show s.getAmount tx.sender = .ok b from b1]) _).trans ?_
  rw [hmul]
  change Prog.Runs (if _ then _ else _) _ _ _
  rw [if_neg (by omega)]
  refine (Prog.runs_bind_ok (a := some last) (t := ⟨s, false⟩) ?_ _).trans ?_
  · rw [Node.getLastBlock_impl s]
    simp only [h1, Act.lift]
  change Prog.Runs (Prog.lift (recalculateFee last.info.difficulty) >>= _) _ _ _
  rw [h2]
  change Prog.Runs (Prog.lift (fee.add tx.amount) >>= _) _ _ _
  have hlt : fee.val + tx.amount.val < U256.size := by have := b.lt; omega
  rw [show fee.add tx.amount = .ok ⟨_, hlt⟩ by unfold U256.add; rw [dif_pos hlt]]
  change Prog.Runs (if _ then _ else _) _ _ _
  rw [if_neg (by simp only; omega)]
  exact .refl

theorem sendAmount_ok {n : Tree} (hd : n.summary.cur.Dec) {tx : Transaction} (hne : tx.sender ≠ tx.receiver)
    (h1 : tx.amount.val ≤ (n.summary.cur.amt tx.sender.val).val)
    (h2 : (n.summary.cur.amt tx.receiver.val).val + tx.amount.val < U256.size) :
    (Tree.sendAmount tx.sender.val tx.receiver.val tx.amount n).out = .ok () ∧
    (Tree.sendAmount tx.sender.val tx.receiver.val tx.amount n).final =
      { n with summary := n.summary.commit (fun _ => Ledger.moved n.summary.cur tx.sender.val tx.receiver.val tx.amount h2) } := by
  unfold Tree.sendAmount
  rw [if_neg (fun e => hne (Subtype.ext e))]
  rcases Ledger.transfer_run hd tx.sender.val tx.receiver.val tx.amount with ⟨_, hlt, e⟩ | ⟨h, e⟩ | ⟨_, h, e⟩
  · simp only [Tree.onSummary, Act.zoom, e]; exact ⟨trivial, trivial⟩
  · omega
  · exact absurd h2 h

/-- Two calls by one sender, both checked before either pays. -/
theorem double_send (E : Env) (s : Tree) (tx : Bool → Transaction) (f g : Spec.Accounts) (hr : Run E s)
    (hf : Shows s.summary f) (hg : Shows s.gas g) (ha : ∀ b, Affordable s f g (tx b))
    (hs : (tx true).sender = (tx false).sender) (hne : ∀ b, (tx b).sender ≠ (tx b).receiver)
    (hpos : ∀ b, 0 < (tx b).amount.val)
    (hcoins : (tx true).amount.val + (tx false).amount.val ≤ f (tx true).sender.val)
    (hfit : ∀ b, f (tx b).receiver.val + (tx true).amount.val + (tx false).amount.val < 2 ^ 256)
    (hgas : g (tx true).sender.val < 625000000000 * (tx true).getDumpSize + 625000000000 * (tx false).getDumpSize) :
    ∃ log c, Exec ⟨⟨s, false⟩, fun b => (Node.SharedCall.send (tx b)).prog E⟩ log c ∧
      c.threads true = .done (.ok ()) ∧ c.threads false = .done (.panic .unwrap) ∧
      ∃ e ∈ log, e.thread = false ∧ MovedCoins e := by
  have hi := run_storeInv hr
  have ef := shows_eq hf
  have eg := shows_eq hg
  have hval : ∀ b, ∃ v : U256, v.val = 625000000000 * (tx b).getDumpSize := by
    intro b
    obtain ⟨_, _, _, _, h3, _⟩ := ha b
    obtain ⟨a, _, a2⟩ := hg (tx b).sender.val
    exact ⟨⟨625000000000 * (tx b).getDumpSize, by have := a.lt; omega⟩, rfl⟩
  obtain ⟨v1, hv1⟩ := hval true
  obtain ⟨v0, hv0⟩ := hval false
  have hsz : (2 : Nat) ^ 256 = U256.size := rfl
  have hv : ∀ b, (tx b).sender.val ≠ (tx b).receiver.val := fun b e => hne b (Subtype.ext e)
  -- both check
  have x0 : Exec ⟨⟨s, false⟩, fun b => (Node.SharedCall.send (tx b)).prog E⟩ []
    ⟨⟨s, false⟩, fun b => (Node.SharedCall.send (tx b)).prog E⟩ := .refl
  obtain ⟨l1, x1⟩ := x0.go true rfl (send_checks_run E s (tx true) f g hf hg (ha true) v1 hv1)
  obtain ⟨l2, x2⟩ := x1.go false (by rw [Function.update_of_ne (by decide)]; rfl)
    (send_checks_run E s (tx false) f g hf hg (ha false) v0 hv0)
  -- the first stores and moves
  obtain ⟨t1, ht1⟩ : ∃ t1, t1 = s.withTx E (tx true) := ⟨_, rfl⟩
  have ht1s : t1.summary = s.summary := by rw [ht1]; rfl
  have ht1g : t1.gas = s.gas := by rw [ht1]; rfl
  have h1a : (tx true).amount.val ≤ (t1.summary.cur.amt (tx true).sender.val).val := by
    rw [ht1s]; rw [ef] at hcoins; simp only at hcoins; omega
  have h1b : (t1.summary.cur.amt (tx true).receiver.val).val + (tx true).amount.val < U256.size := by
    rw [ht1s]; have := hfit true; rw [ef] at this; simp only at this; omega
  have hd1 : t1.summary.cur.Dec := by rw [ht1s]; exact hi.summary.1
  obtain ⟨k1, k2⟩ := sendAmount_ok hd1 (hne true) h1a h1b
  obtain ⟨l3, x3⟩ := x2.go true (by rw [Function.update_of_ne (by decide), Function.update_self]) (q := payStep (tx true) v1)
    (t := ⟨(Tree.sendAmount (tx true).sender.val (tx true).receiver.val (tx true).amount t1).final, false⟩) (by
    refine (Prog.runs_bind_ok (a := ()) (t := ⟨t1, false⟩) (by rw [ht1]; rfl) _).trans ?_
    refine (Prog.runs_bind_ok (a := ()) (t := ⟨_, false⟩) ?_ _).trans .refl
    rw [← k1]
    exact Node.implAt_onTree _ t1)
  rw [k2] at x3
  obtain ⟨t2, ht2⟩ : ∃ t2, t2 = { t1 with summary := t1.summary.commit (fun _ => Ledger.moved t1.summary.cur
    (tx true).sender.val (tx true).receiver.val (tx true).amount h1b) } := ⟨_, rfl⟩
  have ht2s : t2.summary.cur = Ledger.moved t1.summary.cur (tx true).sender.val (tx true).receiver.val
    (tx true).amount h1b := by rw [ht2]; rfl
  have ht2g : t2.gas = s.gas := by rw [ht2]; exact ht1g
  rw [← ht2] at x3
  -- the second stores
  obtain ⟨t3, ht3⟩ : ∃ t3, t3 = t2.withTx E (tx false) := ⟨_, rfl⟩
  have ht3s : t3.summary.cur = t2.summary.cur := by rw [ht3]; rfl
  have ht3g : t3.gas = s.gas := by rw [ht3]; exact ht2g
  obtain ⟨l4, x4⟩ := x3.go false (by rw [Function.update_of_ne (by decide), Function.update_self]) (q := Node.onTree (Tree.sendAmount (tx false).sender.val (tx false).receiver.val
      (tx false).amount) >>= fun _ => payStep (tx false) v0) (t := ⟨t3, false⟩) (by
    exact (Prog.runs_bind_ok (a := ()) (t := ⟨t3, false⟩) (by rw [ht3]; rfl) _).trans .refl)
  -- and moves
  have hd3 : t3.summary.cur.Dec := by rw [ht3s, ht2s]; exact Ledger.moved_dec hd1 _ _ _ _
  have hsend : (t3.summary.cur.amt (tx false).sender.val).val = f (tx true).sender.val - (tx true).amount.val := by
    rw [ht3s, ht2s, Ledger.moved_amt _ (hv true), if_pos (by rw [hs]), ht1s, ef]
  have hrecv : (t3.summary.cur.amt (tx false).receiver.val).val ≤ f (tx false).receiver.val + (tx true).amount.val := by
    rw [ht3s, ht2s, Ledger.moved_amt _ (hv true), if_neg (by rw [hs]; exact fun e => hv false e.symm)]
    split
    · rename_i e; rw [ht1s, ef, e]
    · rw [ht1s, ef]; exact Nat.le_add_right _ _
  have h3a : (tx false).amount.val ≤ (t3.summary.cur.amt (tx false).sender.val).val := by rw [hsend]; omega
  have h3b : (t3.summary.cur.amt (tx false).receiver.val).val + (tx false).amount.val < U256.size := by
    have := hfit false; omega
  obtain ⟨m1, m2⟩ := sendAmount_ok hd3 (hne false) h3a h3b
  have x5 := x4.act false (Function.update_self _ _ _) m1
  simp only [m2] at x5
  obtain ⟨t4, ht4⟩ : ∃ t4, t4 = { t3 with summary := t3.summary.commit (fun _ => Ledger.moved t3.summary.cur
    (tx false).sender.val (tx false).receiver.val (tx false).amount h3b) } := ⟨_, rfl⟩
  have ht4s : t4.summary.cur = Ledger.moved t3.summary.cur (tx false).sender.val (tx false).receiver.val
    (tx false).amount h3b := by rw [ht4]; rfl
  have ht4g : t4.gas = s.gas := by rw [ht4]; exact ht3g
  rw [← ht4] at x5
  -- the first pays
  have hg4 : t4.gas.cur.Dec := by rw [ht4g]; exact hi.gas.1
  have hamt : (t4.gas.cur.amt (tx true).sender.val).val = g (tx true).sender.val := by rw [ht4g, eg]
  rcases Ledger.sub_run hg4 (tx true).sender.val v1 with ⟨hle, e1⟩ | ⟨hlt, e1⟩
  swap
  · obtain ⟨_, _, _, _, h3, _⟩ := ha true; omega
  obtain ⟨l6, x6⟩ := x5.go true (by
    rw [Function.update_of_ne (by decide), Function.update_of_ne (by decide), Function.update_self]) (q := .done (.ok ())) (t := ⟨(Tree.subGas (tx true).sender.val v1 t4).final, false⟩) (by
    refine Prog.runs_of_solo ?_
    have := Node.implAt_onTree (Tree.subGas (tx true).sender.val v1) t4
    unfold Node.ImplAt at this
    rw [payStep, this]
    simp only [Tree.subGas, Tree.onGas, Act.zoom, e1])
  have hfin : (Tree.subGas (tx true).sender.val v1 t4).final.gas = t4.gas.insert (tx true).sender.val (Ledger.encode
      ⟨(t4.gas.cur.amt (tx true).sender.val).val - v1.val, Ledger.sub_lt⟩) := by
    simp only [Tree.subGas, Tree.onGas, Act.zoom, e1]
  obtain ⟨t5, ht5⟩ : ∃ t5, t5 = (Tree.subGas (tx true).sender.val v1 t4).final := ⟨_, rfl⟩
  rw [← ht5] at hfin x6
  -- the second cannot
  have hg5 : t5.gas.cur.Dec := by rw [hfin]; exact hg4.insert _ _
  have hamt5 : (t5.gas.cur.amt (tx false).sender.val).val = g (tx true).sender.val - v1.val := by
    rw [hfin, show (t4.gas.insert (tx true).sender.val (Ledger.encode
      ⟨(t4.gas.cur.amt (tx true).sender.val).val - v1.val, Ledger.sub_lt⟩)).cur.amt (tx false).sender.val = _ from
      KV.amt_insert _ _ _ _, if_pos (by rw [hs])]
    simp only [hamt]
  rcases Ledger.sub_run hg5 (tx false).sender.val v0 with ⟨hle, e2⟩ | ⟨hlt, e2⟩
  · omega
  obtain ⟨l7, x7⟩ := x6.go false (p := payStep (tx false) v0) (by
    rw [Function.update_of_ne (by decide), Function.update_self]) (q := .done (.panic .unwrap)) (t := ⟨(Tree.subGas (tx false).sender.val v0 t5).final, false⟩) (by
    refine Prog.runs_of_solo ?_
    have := Node.implAt_onTree (Tree.subGas (tx false).sender.val v0) t5
    unfold Node.ImplAt at this
    rw [payStep, this]
    simp only [Tree.subGas, Tree.onGas, Act.zoom, e2])
  refine ⟨_, _, x7, ?_, ?_, _, List.mem_append_left _ (List.mem_append_left _ (List.mem_append_right _
    (List.mem_singleton.mpr rfl))), rfl, ?_⟩
  · simp
  · simp
  · have hd4 : t4.summary.cur.Dec := by rw [ht4s]; exact Ledger.moved_dec hd3 _ _ _ _
    refine ⟨(tx false).sender.val, _, _, hd3.balance _, hd4.balance _, fun e => ?_⟩
    have e' := congrArg U256.val e
    rw [ht4s, Ledger.moved_amt _ (hv false), if_pos rfl] at e'
    have := hpos false
    omega

theorem dumpSize_pos (tx : Transaction) : 0 < tx.getDumpSize := by
  unfold Transaction.getDumpSize; omega

/-- C73 is false of the code: whenever a sender can afford each of two transactions, and both amounts, but not the gas of
both, there is a schedule in which both move their coins and only one pays gas; the other call panics. -/
theorem C73_refuted :
    (∀ (E : Env) (s : Tree) (tx : Bool → Transaction) (f g : Spec.Accounts), Run E s → Shows s.summary f →
      Shows s.gas g → (∀ b, Affordable s f g (tx b)) → (tx true).sender = (tx false).sender →
      (∀ b, (tx b).sender ≠ (tx b).receiver) → (∀ b, 0 < (tx b).amount.val) →
      (tx true).amount.val + (tx false).amount.val ≤ f (tx true).sender.val →
      (∀ b, f (tx b).receiver.val + (tx true).amount.val + (tx false).amount.val < 2 ^ 256) →
      g (tx true).sender.val < 625000000000 * (tx true).getDumpSize + 625000000000 * (tx false).getDumpSize →
      ∃ log c, Exec ⟨⟨s, false⟩, fun b => (Node.SharedCall.send (tx b)).prog E⟩ log c ∧
        c.threads true = .done (.ok ()) ∧ c.threads false = .done (.panic .unwrap) ∧
        (∃ e ∈ log, e.thread = false ∧ MovedCoins e) ∧ ¬ ∃ e ∈ log, e.thread = false ∧ Charged (tx false) e) ∧
    ¬ C73_full := by
  have key : ∀ (E : Env) (s : Tree) (tx : Bool → Transaction) (f g : Spec.Accounts), Run E s → Shows s.summary f →
      Shows s.gas g → (∀ b, Affordable s f g (tx b)) → (tx true).sender = (tx false).sender →
      (∀ b, (tx b).sender ≠ (tx b).receiver) → (∀ b, 0 < (tx b).amount.val) →
      (tx true).amount.val + (tx false).amount.val ≤ f (tx true).sender.val →
      (∀ b, f (tx b).receiver.val + (tx true).amount.val + (tx false).amount.val < 2 ^ 256) →
      g (tx true).sender.val < 625000000000 * (tx true).getDumpSize + 625000000000 * (tx false).getDumpSize →
      ∃ log c, Exec ⟨⟨s, false⟩, fun b => (Node.SharedCall.send (tx b)).prog E⟩ log c ∧
        c.threads true = .done (.ok ()) ∧ c.threads false = .done (.panic .unwrap) ∧
        (∃ e ∈ log, e.thread = false ∧ MovedCoins e) ∧ ¬ ∃ e ∈ log, e.thread = false ∧ Charged (tx false) e := by
    intro E s tx f g hr hf hg h1 h2 h3 h4 h5 h6 h7
    obtain ⟨log, c, k1, k2, k3, k4⟩ := double_send E s tx f g hr hf hg h1 h2 h3 h4 h5 h6 h7
    refine ⟨log, c, k1, k2, k3, k4, ?_⟩
    rintro ⟨e, he, hth, a, b, ha, hb, hab⟩
    have := (C73_charged_partial E s hr (fun b => .send (tx b)) log c k1 g hg).2.2.1 false (tx false) rfl
      (by rw [k3]; simp) e he hth (tx false).sender.val
    rw [this, ha] at hb
    have := Outcome.ok.inj hb
    subst this
    have := dumpSize_pos (tx false)
    omega
  refine ⟨key, fun hfull => ?_⟩
  obtain ⟨s, h1, h2, h3, _, l, h5, h6⟩ := funded idEnv U256.zero
  obtain ⟨r1, r2, r3, r4⟩ := C47_history idEnv s _ _ [.subGas exTx.sender.val (U256.ofNat 999850000000000000)] h1 h2 h3
    (by simp [coinCall, gasCall])
  generalize runAll idEnv s [.subGas exTx.sender.val (U256.ofNat 999850000000000000)] = s' at r1 r2 r3 r4
  have hg : Shows s'.gas (fundedGas.update exTx.sender.val 150000000000000) := by
    have he : [Op.subGas exTx.sender.val (U256.ofNat 999850000000000000)].filterMap gasCall =
      [.sub exTx.sender.val 999850000000000000] := rfl
    rw [he] at r3
    simp only [List.foldl_cons, List.foldl_nil, Spec.LedgerCall.run, Spec.LedgerCall.apply_sub, funded_gas] at r3
    exact r3
  have hval : ∀ q, q = exTx.sender.val → (fundedGas.update exTx.sender.val 150000000000000) q = 150000000000000 := by
    rintro q rfl
    unfold Spec.Accounts.update
    rw [if_pos rfl]
  have hc : Shows s'.summary (fundedCoins U256.zero) := r2
  have hz : U256.zero.val = 0 := rfl
  have ha : exTx.amount.val = 1000 := rfl
  have hsize : exTx.getDumpSize = 145 := by decide +kernel
  obtain ⟨log, c, k1, k2, k3, k4, k5⟩ := key idEnv s' (fun _ => exTx) _ _ r1 hc hg
    (fun _ => ⟨l, _, by rw [r4]; exact h5, h6, by rw [hval _ rfl, hsize]; decide, by
      rw [funded_sender, ha]; decide⟩) rfl (fun _ => exTx_ne) (fun _ => by rw [ha]; decide)
    (by rw [funded_sender, ha]; decide) (fun _ => by rw [funded_receiver, ha, hz]; decide)
    (by rw [hval _ rfl, hsize]; decide)
  exact k5 (hfull Bool idEnv s' (fun _ => .send exTx) log c r1 k1 false exTx rfl ⟨_, k3⟩ k4)

/-- The hypotheses of `C73_charged_partial` with gas for all calls: two transactions at once on the funded node. -/
example (E : Env) : ∃ s g, Run E s ∧ Shows s.gas g ∧
    ∑ j : Bool, gasOf ((fun _ => .send exTx) j) exTx.sender.val ≤ g exTx.sender.val ∧
    ∃ log c, Exec ⟨⟨s, false⟩, fun b : Bool => ((fun _ => .send exTx : Bool → Node.SharedCall) b).prog E⟩ log c ∧
      c.threads true = .done (.ok ()) := by
  obtain ⟨s, h1, h2, h3, h4, l, h5, h6⟩ := funded E U256.zero
  refine ⟨s, _, h1, h3, ?_, ?_⟩
  · rw [funded_gas, Fintype.sum_bool]
    have hsize : exTx.getDumpSize = 145 := by decide +kernel
    simp only [gasOf, if_pos, hsize]
    decide
  · have x0 : Exec ⟨⟨s, false⟩, fun b : Bool => ((fun _ => .send exTx : Bool → Node.SharedCall) b).prog E⟩ []
      ⟨⟨s, false⟩, fun b : Bool => ((fun _ => .send exTx : Bool → Node.SharedCall) b).prog E⟩ := .refl
    have ok : (Tree.sendTransaction E exTx s).out = .ok () :=
      (C53_admission E s exTx _ _ h1 h2 h3).mpr ⟨funded_affordable _ h5 h6 exTx rfl rfl (by decide), .inr (by
        rw [funded_receiver]; decide)⟩
    obtain ⟨log, hx⟩ := x0.go true rfl (Prog.runs_of_solo (Node.sendTransaction_impl E exTx s))
    exact ⟨_, _, hx, by simp [ok]⟩

end BCT.Props
