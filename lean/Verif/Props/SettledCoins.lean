import Verif.Props.TellingCoins
import Verif.Props.Settled
/-!
# C189: with coins for all calls, coins are what the calls that returned `Ok` and the payments that panicked add up to
-/

namespace BCT.Props
open BCT

/-! ## Statement -/

/-- The coins of the call have been moved, given how it ended: it returned `Ok`, or it is a `send_transaction` that panicked, and neither the
price of its gas nor the fee with its amount overflows. -/
def Deal.paid (fee : Nat) (d : Deal) : Outcome Reply → Bool
  | .ok _ => true
  | .err _ => false
  | _ => match d with
    | .send tx => decide (625000000000 * tx.getDumpSize < 2 ^ 256 ∧ fee + tx.amount.val < 2 ^ 256)
    | _ => false

/-! ## One call -/

theorem net_steps {d : Deal} (h : d.Calm) (k : Bytes) :
    (tally givesCoins d.steps k : Int) - tally takesCoins d.steps k = d.coins k := by
  have one : ∀ op, (tally givesCoins [op] k : Int) - tally takesCoins [op] k = coinDelta op k := fun op => by
    rw [coins_net]
    simp [tally]
  cases d with
  | send tx =>
    have e := coins_net (.sendAmount tx.sender.val tx.receiver.val tx.amount) k
    change _ = coinDelta (.sendAmount tx.sender.val tx.receiver.val tx.amount) k
    rw [e]
    simp [tally, Deal.steps, takesCoins, givesCoins]
  | brief x =>
    cases x with
    | setAmount o n => exact h.elim
    | addTransaction t => rfl
    | addAmount o n => exact one (.addAmount o n)
    | subAmount o n => exact one (.subAmount o n)
    | sendAmount a b n => exact one (.sendAmount a b n)
    | addGas o n => exact one (.addGas o n)
    | subGas o n => exact one (.subGas o n)
    | sendGas a b n => exact one (.sendGas a b n)
    | _ => rfl
  | lookup l => rfl
  | add b => rfl
  | flush => rfl

theorem net_remnant (d : Deal) (fee : Nat) (k : Bytes) :
    (tally givesCoins (d.remnant fee) k : Int) - tally takesCoins (d.remnant fee) k = if d.paid fee .ub = true then d.coins k else 0 := by
  cases d with
  | send tx =>
    by_cases hf : 625000000000 * tx.getDumpSize < 2 ^ 256 ∧ fee + tx.amount.val < 2 ^ 256
    · have e := coins_net (.sendAmount tx.sender.val tx.receiver.val tx.amount) k
      rw [if_pos (show Deal.paid fee (.send tx) .ub = true from decide_eq_true hf)]
      change _ = coinDelta (.sendAmount tx.sender.val tx.receiver.val tx.amount) k
      rw [e]
      rw [show Deal.remnant fee (.send tx) = [.addTransaction tx, .sendAmount tx.sender.val tx.receiver.val tx.amount] from if_pos hf]
      simp [tally, takesCoins, givesCoins]
    · rw [if_neg (fun h : Deal.paid fee (.send tx) .ub = true => hf (of_decide_eq_true h))]
      rw [show Deal.remnant fee (.send tx) = [] from if_neg hf]
      rfl
  | _ => rfl

theorem net_leaves {d : Deal} (h : d.Calm) {fee : Nat} {o : Outcome Reply} {made : List Op} (hl : Leaves d.steps (d.remnant fee) o made) (k : Bytes) :
    (tally givesCoins made k : Int) - tally takesCoins made k = if d.paid fee o = true then d.coins k else 0 := by
  cases o with
  | ok a =>
    rw [hl.1 a rfl]
    exact net_steps h k
  | err e =>
    rw [hl.2.1 e rfl]
    rfl
  | panic p =>
    rw [hl.2.2 (fun _ e => by cases e) (fun _ e => by cases e)]
    exact net_remnant d fee k
  | ub =>
    rw [hl.2.2 (fun _ e => by cases e) (fun _ e => by cases e)]
    exact net_remnant d fee k

/-! ## Property -/

section
variable {ι : Type} [DecidableEq ι] [Fintype ι]

/-- C189. When all calls have ended and there were coins, and room for coins, for all of them together, the coins of every account are what they
were and what is added by the calls that returned `Ok` and by the payments that panicked; the gas, what only those that returned `Ok` add. -/
theorem C189_settled (E : Env) (s : Tree) (hs : Run E s) (f g : Spec.Accounts) (hf : Shows s.summary f) (hg : Shows s.gas g) (last : Block) (fee : U256)
    (hl : s.main.getLastBlock = .ok (some last)) (hfee : recalculateFee last.info.difficulty = .ok fee)
    (call : ι → Deal) (hc : ∀ i, (call i).Calm) (hcoins : ∀ k, ∑ i, (call i).spends k ≤ f k)
    (hroom : ∀ k, f k + ∑ i, (call i).gains k < 2 ^ 256) (log : List (Event ι Node))
    (c : Config ι Node Reply) (h : Exec ⟨⟨s, false⟩, fun i => (call i).prog E⟩ log c) (o : ι → Outcome Reply)
    (hend : ∀ i, c.threads i = .done (o i)) :
    ∃ f' g', Shows c.shared.data.summary f' ∧ Shows c.shared.data.gas g' ∧
      (∀ k, (f' k : Int) = f k + ∑ i, if (call i).paid fee.val (o i) = true then (call i).coins k else 0) ∧
      ∀ k, (g' k : Int) = g k + ∑ i, if cameThrough (c.threads i) = true then (call i).gas k else 0 := by
  obtain ⟨f', g', a1, a2, a3, -⟩ := C178_sum E s hs f g hf hg call (fun i => calm_adds (hc i)) log c h
  have hi := run_storeInv hs
  obtain ⟨trace, made, h1, h2, _, h3, h5, h4⟩ := exec_coins hi hf hl hfee hc hcoins hroom h
  refine ⟨f', g', a1, a2, fun k => ?_, a3⟩
  have k1 := coins_tally trace k hi (made_adding h5 h4) h1
  rw [tally_sum _ h4, tally_sum _ h4, ← h2] at k1
  have e1 : f' k = (c.shared.data.summary.cur.amt k).val := congrFun (shows_eq a1) k
  have e2 : f k = (s.summary.cur.amt k).val := congrFun (shows_eq hf) k
  have e3 : ∑ i, (if (call i).paid fee.val (o i) = true then (call i).coins k else 0) =
      ∑ i, ((tally givesCoins (made i) k : Int) - tally takesCoins (made i) k) := Finset.sum_congr rfl fun i _ => by
    have := h3 i
    rw [hend i] at this
    exact (net_leaves (hc i) this k).symm
  rw [e3, Finset.sum_sub_distrib, ← Nat.cast_sum, ← Nat.cast_sum]
  omega

end

/-! ## Instances -/

theorem paid_of_left {fee : Nat} {tx : Transaction} (h : Deal.remnant fee (.send tx) ≠ []) (p : Panic) :
    Deal.paid fee (.send tx) (.panic p) = true := by
  by_cases hf : 625000000000 * tx.getDumpSize < 2 ^ 256 ∧ fee + tx.amount.val < 2 ^ 256
  · exact decide_eq_true hf
  · exact absurd (if_neg hf) h

/-- The hypotheses can be met by a schedule under which `send_transaction` panics and has moved its coins, with every hash function. -/
example (E : Env) : ∃ s f g last fee log c f' k, Run E s ∧ Shows s.summary f ∧ Shows s.gas g ∧ s.main.getLastBlock = .ok (some last) ∧
    recalculateFee last.info.difficulty = .ok fee ∧ (∀ i, (payAndDrain i).Calm) ∧ (∀ k, ∑ i, (payAndDrain i).spends k ≤ f k) ∧
    (∀ k, f k + ∑ i, (payAndDrain i).gains k < 2 ^ 256) ∧ Exec ⟨⟨s, false⟩, fun i => (payAndDrain i).prog E⟩ log c ∧
    (∀ i, c.threads i = .done (emptyEnd i)) ∧ Shows c.shared.data.summary f' ∧ (f' k : Int) = f k - 1000 := by
  obtain ⟨s, last, fee, log, c, h1, h2, h3, h4, h5, h6, h7, -, h8, h9, h10⟩ := pay_and_drain E
  have hg := shows_amt (run_storeInv h1).gas.1
  obtain ⟨f', -, a1, -, a3, -⟩ := C189_settled E s h1 _ _ h2 hg last fee h3 h4 payAndDrain h5 h6 h7 log c h8 emptyEnd h9
  refine ⟨s, _, _, last, fee, log, c, f', exTx.sender.val, h1, h2, hg, h3, h4, h5, h6, h7, h8, h9, a1, ?_⟩
  have hp : (payAndDrain 0).paid fee.val (emptyEnd 0) = true := paid_of_left (tx := exTx) (fun e => by cases h10.symm.trans e) .unwrap
  have hne : exTx.sender.val ≠ exTx.receiver.val := fun e => exTx_ne (Subtype.ext e)
  rw [a3, fin_two_sum, if_pos hp]
  have e1 : (payAndDrain 0).coins exTx.sender.val = -1000 := by
    change moveDelta exTx.sender.val exTx.receiver.val exTx.amount.val exTx.sender.val = -1000
    simp [moveDelta, hne]
    rfl
  have e2 : (payAndDrain 1).coins exTx.sender.val = 0 := rfl
  rw [e1, e2]
  simp
  omega

end BCT.Props
