import Verif.Props.Telling
/-!
# C187: with gas for all calls, accounts are what the calls that returned `Ok` add up to
-/

namespace BCT.Props
open BCT

/-! ## One call -/

/-- The call finds the gas it takes. -/
def Deal.Fed (d : Deal) (n : Node) : Prop := ∀ k, d.burns k ≤ (n.data.gas.cur.amt k).val

/-- The call still to be made, finding its gas, adds `dC` to the coins at once, unless it has (`took`); if it has, it returns `Ok`. -/
def Honest {α : Type} (G : Node → Prop) (dC : Bytes → Int) (S : Prop) : Prog Node α → Bool → Prop
  | .done o, took => took = cameThrough (Prog.done (σ := Node) o)
  | .step next rest, took => (took = true → S) ∧ ∀ n n', Readable n → G n → next n = some n' →
      ∃ took', (took = true → took' = true) ∧
      (∀ k, ((n'.data.summary.cur.amt k).val : Int) = (n.data.summary.cur.amt k).val + if took = false ∧ took' = true then dC k else 0) ∧
      Honest G dC S (rest n) took'

section
variable {α β : Type} {G : Node → Prop} {dC : Bytes → Int} {S : Prop}

theorem honest_quiet {p : Prog Node α} {f : α → Prog Node β} (hp : p.Guar NoMoney) (hf : ∀ a, Honest G dC S (f a) false) :
    Honest G dC S (p >>= f) false := by
  change Honest G dC S (Prog.bind p f) false
  induction p with
  | done o =>
    cases o with
    | ok a => exact hf a
    | err e => rfl
    | panic e => rfl
    | ub => rfl
  | step next rest ih =>
    refine ⟨fun h => (by cases h), fun n n' hn _ hs => ?_⟩
    obtain ⟨h1, h2⟩ := hp n n' hs
    refine ⟨false, fun h => h, fun k => ?_, ih n h2⟩
    rw [h1.2]; simp

theorem honest_idle {p : Prog Node α} (hp : p.Guar NoMoney) : Honest G (fun _ => 0) S p (cameThrough p) := by
  induction p with
  | done o => rfl
  | step next rest ih =>
    refine ⟨fun h => (by cases h), fun n n' hn _ hs => ?_⟩
    obtain ⟨h1, h2⟩ := hp n n' hs
    refine ⟨cameThrough (rest n), fun h => (by cases h), fun k => ?_, ih n h2⟩
    rw [h1.2]; simp

theorem honest_map {p : Prog Node α} {t : Bool} (h : α → β) (hp : Honest G dC S p t) : Honest G dC S (p >>= fun a => pure (h a)) t := by
  change Honest G dC S (Prog.bind p fun a => .done (.ok (h a))) t
  induction p generalizing t with
  | done o => cases o <;> exact hp
  | step next rest ih =>
    refine ⟨hp.1, fun n n' hn hG hs => ?_⟩
    obtain ⟨t', h2, h3, h5⟩ := hp.2 n n' hn hG hs
    exact ⟨t', h2, h3, ih n h5⟩

theorem honest_act {x : Act Tree Unit} {dG : Bytes → Int} (h : AllOrNothing x dC dG) : Honest G dC S (Node.onTree x) false := by
  refine ⟨fun h => (by cases h), fun n n' hn _ hs => ?_⟩
  cases hs
  change ∃ t', _ ∧ _ ∧ t' = cameThrough (Prog.done (σ := Node) ((x n.data).out))
  rcases h n.data hn.1 hn.2 with ⟨h1, h2, h3, h4, h5⟩ | ⟨⟨e, h1⟩, h2⟩
  · rw [h1]
    refine ⟨true, fun h => (by cases h), fun k => ?_, rfl⟩
    rw [if_pos ⟨rfl, rfl⟩]; exact h4 k
  · rw [h1]
    have h3 : (x.zoom (·.data) (fun t (n : Node) => { n with data := t }) n).final.data = n.data := h2
    refine ⟨false, fun h => h, fun k => ?_, rfl⟩
    rw [h3]; simp

/-- The coins of the transaction, then its gas, which is there. -/
theorem honest_pay {dG : Bytes → Int} {x y : Act Tree Unit} (hS : S) (hx : AllOrNothing x dC fun _ => 0) (hy : AllOrNothing y (fun _ => 0) dG)
    (hG : ∀ n : Node, Readable n → G n → (y n.data).out = .ok ()) :
    Honest G dC S (Node.onTree x >>= fun _ => Node.onTree y) false := by
  refine ⟨fun h => (by cases h), fun n n' hn _ hs => ?_⟩
  cases hs
  change ∃ t', _ ∧ _ ∧ Honest G dC S (Prog.bind (Prog.done (σ := Node) ((x n.data).out)) fun _ => Node.onTree y) t'
  rcases hx n.data hn.1 hn.2 with ⟨h1, h2, h3, h4, h5⟩ | ⟨⟨e, h1⟩, h2⟩
  · rw [h1]
    refine ⟨true, fun h => (by cases h), fun k => ?_, fun _ => hS, fun m m' hm hGm hs => ?_⟩
    · rw [if_pos ⟨rfl, rfl⟩]; exact h4 k
    cases hs
    change ∃ t', _ ∧ _ ∧ t' = cameThrough (Prog.done (σ := Node) ((y m.data).out))
    rcases hy m.data hm.1 hm.2 with ⟨g1, g2, g3, g4, g5⟩ | ⟨⟨e, g1⟩, g2⟩
    · rw [g1]
      refine ⟨true, fun h => h, fun k => ?_, rfl⟩
      rw [if_neg (by simp)]; exact g4 k
    · rw [hG m hm hGm] at g1; cases g1
  · rw [h1]
    have h3 : (x.zoom (·.data) (fun t (n : Node) => { n with data := t }) n).final.data = n.data := h2
    refine ⟨false, fun h => h, fun k => ?_, rfl⟩
    rw [h3]; simp

end

theorem honest_send (E : Env) (tx : Transaction) :
    Honest (Deal.send tx).Fed (coinDelta (.sendTransaction tx)) (∃ tx', Deal.send tx = .send tx') (Node.sendTransaction E tx) false := by
  have hm := noMoney_main
  unfold Node.sendTransaction
  refine honest_quiet (Node.guar_read hm.refl _) fun _ => honest_quiet (Node.guar_read hm.refl _) fun _ => ?_
  cases hg : BYTE_GAS_PRICE.mulNat tx.getDumpSize with
  | err e => rfl
  | panic e => rfl
  | ub => rfl
  | ok g =>
  have hgv : g.val = 625000000000 * tx.getDumpSize := by
    unfold U256.mulNat at hg
    split at hg
    · have := Outcome.ok.inj hg
      rw [← this]; rfl
    · cases hg
  change Honest _ _ _ (if _ then _ else _) _
  split
  · rfl
  refine honest_quiet (Node.guar_getLastBlock hm.refl) fun _ => honest_quiet (Prog.guar_lift _) fun _ =>
    honest_quiet (Prog.guar_lift _) fun _ => honest_quiet (Prog.guar_lift _) fun _ => ?_
  split
  · rfl
  refine honest_quiet (Node.guar_addTransaction hm E tx) fun _ => honest_pay ⟨tx, rfl⟩ (whole_sendAmount _ _ _) (whole_subGas _ _)
    fun n hn hG => sub_fits hn.1 ?_
  have := hG tx.sender.val
  rw [show (Deal.send tx).burns tx.sender.val = 625000000000 * tx.getDumpSize from if_pos rfl] at this
  omega

theorem honest_deal (E : Env) (d : Deal) (h : d.Adds) : Honest d.Fed d.coins (∃ tx, d = .send tx) (d.prog E) false := by
  have hm := noMoney_main
  cases d with
  | send tx => exact honest_map _ (honest_send E tx)
  | lookup l =>
    have hc : cameThrough l.prog = false := by cases l <;> rfl
    have := honest_idle (G := (Deal.lookup l).Fed) (S := ∃ tx, Deal.lookup l = .send tx) (noMoney_lookup l)
    rw [hc] at this
    exact honest_map _ this
  | add b => exact honest_map _ (honest_idle (p := Node.addBlock E b) (Node.guar_addBlock hm E b))
  | flush =>
    exact honest_map _ (honest_idle (p := Node.flush)
      (Node.guar_flush hm (fun _ => ⟨rfl, rfl⟩) (fun _ => ⟨rfl, rfl⟩) (fun _ => ⟨rfl, rfl⟩) (fun _ => ⟨rfl, rfl⟩)))
  | brief x =>
    cases x with
    | addTransaction t => exact honest_map _ (honest_idle (p := Node.addTransaction E t) (Node.guar_addTransaction hm E t))
    | addAmount o n => exact honest_map _ (honest_act (whole_addAmount o n))
    | subAmount o n => exact honest_map _ (honest_act (whole_subAmount o n))
    | setAmount o n => exact h.elim
    | sendAmount a b n => exact honest_map _ (honest_act (whole_sendAmount a b n))
    | getAmount o => exact honest_map _ (honest_idle (p := Node.read fun t => t.getAmount o) (Node.guar_read hm.refl _))
    | addGas o n => exact honest_map _ (honest_act (whole_addGas o n))
    | subGas o n => exact honest_map _ (honest_act (whole_subGas o n))
    | sendGas a b n => exact honest_map _ (honest_act (whole_sendGas a b n))
    | getGas o => exact honest_map _ (honest_idle (p := Node.read fun t => t.getGas o) (Node.guar_read hm.refl _))

theorem gas_at_least (d : Deal) (k : Bytes) : -(d.burns k : Int) ≤ d.gas k := by
  cases d with
  | send tx =>
    have e : (Deal.send tx).gas k = gasDelta (.sendTransaction tx) k := rfl
    rw [e, gas_net]
    have : takesGas (.sendTransaction tx) k = (Deal.send tx).burns k := rfl
    omega
  | brief x =>
    cases x with
    | sendGas a b n =>
      have e : (Deal.brief (.sendGas a b n)).gas k = gasDelta (.sendGas a b n) k := rfl
      have l := burnt_steps (.brief (.sendGas a b n)) k
      have e' : burnt (Deal.steps (.brief (.sendGas a b n))) k = takesGas (.sendGas a b n) k := by simp [burnt, Deal.steps]
      rw [e, gas_net]
      omega
    | subGas o n =>
      have e : (Deal.brief (.subGas o n)).gas k = gasDelta (.subGas o n) k := rfl
      have e' : takesGas (.subGas o n) k = (Deal.brief (.subGas o n)).burns k := rfl
      rw [e, gas_net]
      omega
    | addGas o n =>
      have e : (Deal.brief (.addGas o n)).gas k = gasDelta (.addGas o n) k := rfl
      have e' : takesGas (.addGas o n) k = 0 := rfl
      rw [e, gas_net]
      omega
    | _ => exact Int.le_refl 0
  | _ => exact Int.le_refl 0

/-! ## All threads -/

section
variable {ι : Type} [DecidableEq ι] [Fintype ι]

/-- A call that has not returned `Ok` finds its gas. -/
theorem still_fed {E : Env} {s : Tree} (hs : Readable ⟨s, false⟩) {g : Spec.Accounts} (hg : Shows s.gas g) {call : ι → Deal}
    (hc : ∀ i, (call i).Adds) (hgas : ∀ k, ∑ i, (call i).burns k ≤ g k) {log : List (Event ι Node)} {c : Config ι Node Reply}
    (h : Exec ⟨⟨s, false⟩, fun i => (call i).prog E⟩ log c) {i : ι} (hi : cameThrough (c.threads i) = false) :
    (call i).Fed c.shared := by
  intro k
  obtain ⟨_, _, _, h2, _⟩ := exec_booked hs hc h
  have k1 := h2 k
  have k2 : (s.gas.cur.amt k).val = g k := by rw [shows_eq hg]
  have k3 := hgas k
  rw [← Finset.add_sum_erase Finset.univ (fun j => (call j).burns k) (Finset.mem_univ i)] at k3
  rw [← Finset.add_sum_erase Finset.univ (fun j => if cameThrough (c.threads j) = true then (call j).gas k else 0) (Finset.mem_univ i),
    if_neg (by rw [hi]; simp)] at k1
  have k4 : -((∑ j ∈ Finset.univ.erase i, (call j).burns k : Nat) : Int) ≤
      ∑ j ∈ Finset.univ.erase i, if cameThrough (c.threads j) = true then (call j).gas k else 0 := by
    rw [Nat.cast_sum, ← Finset.sum_neg_distrib]
    refine Finset.sum_le_sum fun j _ => ?_
    split
    · exact gas_at_least _ k
    · omega
  omega

theorem exec_honest {E : Env} {s : Tree} (hs : Readable ⟨s, false⟩) {g : Spec.Accounts} (hg : Shows s.gas g) {call : ι → Deal}
    (hc : ∀ i, (call i).Adds) (hgas : ∀ k, ∑ i, (call i).burns k ≤ g k) {log : List (Event ι Node)} {c : Config ι Node Reply}
    (h : Exec ⟨⟨s, false⟩, fun i => (call i).prog E⟩ log c) : ∃ took : ι → Bool,
      (∀ k, ((c.shared.data.summary.cur.amt k).val : Int) = (s.summary.cur.amt k).val + ∑ i, if took i = true then (call i).coins k else 0) ∧
      ∀ i, Honest (call i).Fed (call i).coins (∃ tx, call i = .send tx) (c.threads i) (took i) := by
  induction h with
  | refl => exact ⟨fun _ => false, fun k => by simp, fun i => honest_deal E (call i) (hc i)⟩
  | @step log c i next rest s' hx hi hn ih =>
    obtain ⟨took, h1, h3⟩ := ih
    have h4 := h3 i
    rw [hi] at h4
    obtain ⟨t', g2, g3, g5⟩ := h4.2 _ _ (exec_booked hs hc hx).1 (still_fed hs hg hc hgas hx (by rw [hi]; rfl)) hn
    refine ⟨Function.update took i t', fun k => ?_, fun j => ?_⟩
    · rw [sum_gain took _ (fun j => (call j).coins k) i (by rw [Function.update_self]; exact g2)
        (fun j hj => Function.update_of_ne hj _ _), Function.update_self]
      have := g3 k
      have := h1 k
      simp only at *
      omega
    · by_cases hj : j = i
      · subst hj
        simp only [Function.update_self]
        exact g5
      · simp only [Function.update_of_ne hj]
        exact h3 j

/-! ## Property -/

/-- C187. With gas for all calls together, at every moment the gas of every account is what it was and what the calls that have returned
`Ok` add; its coins are what they were, what these calls add, and what some calls of `send_transaction` add that are still under way. -/
theorem C187_moment (E : Env) (s : Tree) (hs : Run E s) (f g : Spec.Accounts) (hf : Shows s.summary f) (hg : Shows s.gas g)
    (call : ι → Deal) (hc : ∀ i, (call i).Adds) (hgas : ∀ k, ∑ i, (call i).burns k ≤ g k) (log : List (Event ι Node))
    (c : Config ι Node Reply) (h : Exec ⟨⟨s, false⟩, fun i => (call i).prog E⟩ log c) :
    ∃ f' g', Shows c.shared.data.summary f' ∧ Shows c.shared.data.gas g' ∧
      (∀ k, (g' k : Int) = g k + ∑ i, if cameThrough (c.threads i) = true then (call i).gas k else 0) ∧
      ∃ took : ι → Bool, (∀ k, (f' k : Int) = f k + ∑ i, if took i = true then (call i).coins k else 0) ∧
        ∀ i, (hasEnded (c.threads i) → took i = cameThrough (c.threads i)) ∧ (took i = true → ¬ hasEnded (c.threads i) → ∃ tx, call i = .send tx) := by
  have hi := run_storeInv hs
  obtain ⟨f', g', a1, a2, a3, -⟩ := C178_sum E s hs f g hf hg call hc log c h
  obtain ⟨took, h1, h2⟩ := exec_honest (E := E) ⟨hi.gas.1, hi.summary.1⟩ hg hc hgas h
  refine ⟨f', g', a1, a2, a3, took, fun k => ?_, fun i => ⟨fun ⟨o, ho⟩ => ?_, fun ht hn => ?_⟩⟩
  · rw [shows_eq a1, shows_eq hf]
    exact h1 k
  · have := h2 i
    rw [ho] at this ⊢
    exact this
  · have := h2 i
    cases hp : c.threads i with
    | done o => exact absurd ⟨o, hp⟩ hn
    | step next rest =>
      rw [hp] at this
      exact this.1 ht

/-- C187. When all calls have ended and there was gas for all of them together, the coins and the gas of every account are what they were
and what the calls that returned `Ok` add: calls that were refused or panicked have moved nothing. -/
theorem C187_settled (E : Env) (s : Tree) (hs : Run E s) (f g : Spec.Accounts) (hf : Shows s.summary f) (hg : Shows s.gas g)
    (call : ι → Deal) (hc : ∀ i, (call i).Adds) (hgas : ∀ k, ∑ i, (call i).burns k ≤ g k) (log : List (Event ι Node))
    (c : Config ι Node Reply) (h : Exec ⟨⟨s, false⟩, fun i => (call i).prog E⟩ log c) (hend : ∀ i, hasEnded (c.threads i)) :
    ∃ f' g', Shows c.shared.data.summary f' ∧ Shows c.shared.data.gas g' ∧
      (∀ k, (f' k : Int) = f k + ∑ i, if cameThrough (c.threads i) = true then (call i).coins k else 0) ∧
      ∀ k, (g' k : Int) = g k + ∑ i, if cameThrough (c.threads i) = true then (call i).gas k else 0 := by
  obtain ⟨f', g', a1, a2, a3, took, a4, a5⟩ := C187_moment E s hs f g hf hg call hc hgas log c h
  refine ⟨f', g', a1, a2, fun k => ?_, a3⟩
  rw [a4]
  exact congrArg _ (Finset.sum_congr rfl fun i _ => by rw [(a5 i).1 (hend i)])

end

theorem calm_adds {d : Deal} (h : d.Calm) : d.Adds := by
  cases d with
  | brief x =>
    cases x with
    | setAmount o n => exact h.elim
    | _ => trivial
  | _ => trivial

/-- Without gas for all calls the coins need not be what the calls that returned `Ok` add, whatever the hash function: a transaction that has
panicked may have moved its coins. -/
theorem C187_gas_needed (E : Env) : ∃ s log c f f', Run E s ∧ Shows s.summary f ∧
    Exec ⟨⟨s, false⟩, fun i => (tornCalls i).prog E⟩ log c ∧ (∀ i, c.threads i = .done (tornEnd i)) ∧ Shows c.shared.data.summary f' ∧
    ∃ k, (f' k : Int) ≠ f k + ∑ i, if cameThrough (c.threads i) = true then (tornCalls i).coins k else 0 := by
  obtain ⟨s, log, log', c, c', h1, y, z, e1, e2, a1, a2⟩ := C184_refuted_any E
  have hf := shows_amt (run_storeInv h1).summary.1
  have hg := shows_amt (run_storeInv h1).gas.1
  have ha : ∀ i, (tornCalls i).Adds := fun i => calm_adds (torn_calm i)
  obtain ⟨f1, _, b1, -⟩ := C178_sum E s h1 _ _ hf hg tornCalls ha log c y
  obtain ⟨f2, _, b2, -⟩ := C178_sum E s h1 _ _ hf hg tornCalls ha log' c' z
  have v1 : f1 exTx.sender.val = 1000 := by rw [shows_eq b1]; exact a1
  have v2 : f2 exTx.sender.val = 0 := by rw [shows_eq b2]; exact a2
  by_cases h : (f1 exTx.sender.val : Int) = (s.summary.cur.amt exTx.sender.val).val +
      ∑ i, if cameThrough (c.threads i) = true then (tornCalls i).coins exTx.sender.val else 0
  · refine ⟨s, log', c', _, f2, h1, hf, z, e2, b2, exTx.sender.val, fun h' => ?_⟩
    have : (∑ i, if cameThrough (c'.threads i) = true then (tornCalls i).coins exTx.sender.val else 0) =
        ∑ i, if cameThrough (c.threads i) = true then (tornCalls i).coins exTx.sender.val else 0 :=
      Finset.sum_congr rfl fun i _ => by rw [e1, e2]
    rw [this, ← h, v1, v2] at h'
    cases h'
  · exact ⟨s, log, c, _, f1, h1, hf, y, e1, b1, exTx.sender.val, h⟩

/-! ## Instances -/

/-- The hypotheses can be met by a schedule under which `send_transaction` panics, with every hash function; only the withdrawal has
counted. -/
example (E : Env) : ∃ s log c f', Run E s ∧ Shows s.summary (fundedCoins U256.zero) ∧ Shows s.gas fundedGas ∧
    (∀ i, (payAndEmpty i).Adds) ∧
    (∀ k, ∑ i, (payAndEmpty i).burns k ≤ fundedGas k) ∧ Exec ⟨⟨s, false⟩, fun i => (payAndEmpty i).prog E⟩ log c ∧
    (∀ i, c.threads i = .done (emptyEnd i)) ∧ Shows c.shared.data.summary f' ∧ f' exTx.sender.val = 0 ∧ f' exTx.receiver.val = 0 := by
  obtain ⟨s, last, fee, log, c, h1, h2, h3, h4, h5, h6, h7, -, h8, h9, -⟩ := pay_and_empty E
  obtain ⟨f', g', a1, -, a2, -⟩ := C187_settled E s h1 _ _ h2 h3 payAndEmpty (fun i => calm_adds (h6 i)) h7 log c h8 fun i => ⟨_, h9 i⟩
  have hne : exTx.receiver.val ≠ exTx.sender.val := fun e => exTx_ne (Subtype.ext e.symm)
  have v1 : (U256.ofNat 1000000000).val = 1000000000 := by decide
  have key : ∀ k, (f' k : Int) = fundedCoins U256.zero k + if k = exTx.sender.val then -1000000000 else 0 := fun k => by
    rw [a2, fin_two_sum, h9, h9, if_neg (by simp [emptyEnd, cameThrough]), if_pos (show cameThrough (Prog.done (σ := Node) (emptyEnd 1)) = true from rfl), zero_add]
    refine congrArg _ (show (if k = exTx.sender.val then -((U256.ofNat 1000000000).val : Int) else 0) = _ from ?_)
    rw [v1]
    rfl
  refine ⟨s, log, c, f', h1, h2, h3, fun i => calm_adds (h6 i), h7, h8, h9, a1, ?_, ?_⟩
  · have := key exTx.sender.val
    rw [if_pos rfl, funded_sender] at this
    omega
  · have := key exTx.receiver.val
    rw [if_neg hne, funded_receiver, show U256.zero.val = 0 from rfl] at this
    omega

end BCT.Props
