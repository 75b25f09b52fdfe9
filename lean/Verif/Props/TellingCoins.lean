import Verif.Props.Telling
/-!
# C188: with coins for all calls, the replies tell what the calls have left behind
-/

namespace BCT.Props
open BCT

/-! ## Statement -/

/-- What is left by a call that panics if there are coins for all: `send_transaction` has stored the transaction and moved the coins, unless
a sum it works out first overflows; all others nothing. -/
def Deal.remnant (fee : Nat) : Deal → List Op
  | .send tx => if 625000000000 * tx.getDumpSize < 2 ^ 256 ∧ fee + tx.amount.val < 2 ^ 256 then
      [.addTransaction tx, .sendAmount tx.sender.val tx.receiver.val tx.amount] else []
  | _ => []

/-! ## One call -/

/-- The sum over the accesses. -/
def tally (w : Op → Bytes → Nat) (l : List Op) (k : Bytes) : Nat := (l.map (w · k)).sum

/-- What a call finds while it is under way, having made `made`: the chain unchanged, the coins it has still to take, and room for those it
has still to give. -/
def HasCoins (ch : Chain) (all : List Op) (t : Tree) (made : List Op) : Prop :=
  t.gas.cur.Dec ∧ t.summary.cur.Dec ∧ t.main.chain = ch ∧
    ∀ k, tally takesCoins all k ≤ (t.summary.cur.amt k).val + tally takesCoins made k ∧
      (t.summary.cur.amt k).val + tally givesCoins all k < U256.size + tally givesCoins made k

theorem move_covered {t : Tree} {ch : Chain} {tx : Transaction} (h : HasCoins ch (Deal.steps (.send tx)) t [.addTransaction tx]) :
    (Tree.sendAmount tx.sender.val tx.receiver.val tx.amount t).out = .ok () := by
  by_cases he : tx.sender.val = tx.receiver.val
  · unfold Tree.sendAmount
    rw [if_pos he]
    rfl
  have h1 := (h.2.2.2 tx.sender.val).1
  have h2 := (h.2.2.2 tx.receiver.val).2
  refine sendAmount_fits h.2.1 ?_ ?_
  · simpa [tally, Deal.steps, takesCoins, he] using h1
  · simpa [tally, Deal.steps, givesCoins, he] using h2

theorem trail_coins (E : Env) {d : Deal} (h : d.Calm) {m : MainChain} {last : Block} {fee : U256}
    (hl : m.getLastBlock = .ok (some last)) (hfee : recalculateFee last.info.difficulty = .ok fee) :
    Trail E (HasCoins m.chain d.steps) d.steps (d.remnant fee.val) (d.prog E) [] := by
  cases d with
  | send tx =>
    exact trail_map _ (trail_send E tx hl hfee (fun t made h => ⟨h.1, h.2.1, h.2.2.1⟩) (fun h => if_neg h)
      (fun _ t hK => .inl (move_covered hK)) fun h t _ => .inr (if_pos h).symm)
  | lookup l => exact trail_other E (d := .lookup l) h (fun tx e => by cases e) _
  | add b => exact h.elim
  | flush => exact h.elim
  | brief x => exact trail_other E (d := .brief x) h (fun tx e => by cases e) _

/-! ## All threads -/

theorem spent_steps (d : Deal) (k : Bytes) : tally takesCoins d.steps k ≤ d.spends k ∧ tally givesCoins d.steps k ≤ d.gains k := by
  have move : ∀ (a b : Bytes) (n : Nat), (if a ≠ b ∧ k = a then n else 0) ≤ (if k = a then n else 0) ∧
      (if a ≠ b ∧ k = b then n else 0) ≤ (if k = b then n else 0) := by
    intro a b n
    by_cases h1 : a = b <;> by_cases h2 : k = a <;> by_cases h3 : k = b <;> simp [h1, h2, h3]
  cases d with
  | send tx =>
    have e1 : tally takesCoins (Deal.steps (.send tx)) k = if tx.sender.val ≠ tx.receiver.val ∧ k = tx.sender.val then tx.amount.val else 0 := by
      simp [tally, Deal.steps, takesCoins]
    have e2 : tally givesCoins (Deal.steps (.send tx)) k = if tx.sender.val ≠ tx.receiver.val ∧ k = tx.receiver.val then tx.amount.val else 0 := by
      simp [tally, Deal.steps, givesCoins]
    rw [e1, e2]
    exact move _ _ _
  | brief x =>
    cases x with
    | sendAmount a b n =>
      have e1 : tally takesCoins (Deal.steps (.brief (.sendAmount a b n))) k = if a ≠ b ∧ k = a then n.val else 0 := by
        simp [tally, Deal.steps, takesCoins]
      have e2 : tally givesCoins (Deal.steps (.brief (.sendAmount a b n))) k = if a ≠ b ∧ k = b then n.val else 0 := by
        simp [tally, Deal.steps, givesCoins]
      rw [e1, e2]
      exact move _ _ _
    | _ => simp [tally, Deal.steps, takesCoins, givesCoins, Deal.spends, Deal.gains]
  | _ => simp [tally, Deal.steps]

theorem coins_tally {E : Env} (l : List Op) (k : Bytes) : ∀ {s : Tree}, StoreInv E s → (∀ op ∈ l, Op.Adding op) → AllAccepted E s l →
    ((runAll E s l).summary.cur.amt k).val + tally takesCoins l k = (s.summary.cur.amt k).val + tally givesCoins l k := by
  induction l with
  | nil => exact fun _ _ _ => rfl
  | cons op l ih =>
    intro s hi ha h
    have h1 := ih ((Op.storeInv E op _).1 hi) (fun o ho => ha o (List.mem_cons_of_mem _ ho)) h.2
    have h2 := coins_shift hi (ha op List.mem_cons_self) h.1 k
    have h3 : (((op.run E s).final.summary.cur.amt k).val : Int) = (s.summary.cur.amt k).val + coinDelta op k := by
      split at h2
      · obtain ⟨n, g1, g2⟩ := h2
        rw [amt_encoded g1]; exact g2
      · rw [amt_congr h2.1, h2.2]; simp
    rw [coins_net] at h3
    have h4 : tally takesCoins (op :: l) k = takesCoins op k + tally takesCoins l k := by simp [tally]
    have h5 : tally givesCoins (op :: l) k = givesCoins op k + tally givesCoins l k := by simp [tally]
    change ((runAll E (op.run E s).final l).summary.cur.amt k).val + _ = _
    omega

theorem tally_prefix (w : Op → Bytes → Nat) {l l' : List Op} (h : l <+: l') (k : Bytes) : tally w l k ≤ tally w l' k := by
  obtain ⟨r, rfl⟩ := h
  simp [tally]

section
variable {ι : Type} [DecidableEq ι] [Fintype ι]

omit [DecidableEq ι] in
theorem tally_sum (w : Op → Bytes → Nat) {trace : List Op} {made : ι → List Op} (h : (trace : Multiset Op) = ∑ i, (made i : Multiset Op))
    (k : Bytes) : tally w trace k = ∑ i, tally w (made i) k := by
  have := congrArg (Multiset.sumAddMonoidHom.comp (Multiset.mapAddMonoidHom (w · k))) h
  rw [map_sum] at this
  simpa [tally] using this

theorem exec_coins {E : Env} {s : Tree} (hi : StoreInv E s) {f : Spec.Accounts} (hf : Shows s.summary f) {last : Block} {fee : U256}
    (hl : s.main.getLastBlock = .ok (some last)) (hfee : recalculateFee last.info.difficulty = .ok fee)
    {call : ι → Deal} (hc : ∀ i, (call i).Calm) (hcoins : ∀ k, ∑ i, (call i).spends k ≤ f k)
    (hroom : ∀ k, f k + ∑ i, (call i).gains k < 2 ^ 256) {log : List (Event ι Node)}
    {c : Config ι Node Reply} (h : Exec ⟨⟨s, false⟩, fun i => (call i).prog E⟩ log c) :
    ∃ (trace : List Op) (made : ι → List Op), AllAccepted E s trace ∧ c.shared.data = runAll E s trace ∧
      c.shared.data.main.chain = s.main.chain ∧
      (∀ i, Trail E (HasCoins s.main.chain (call i).steps) (call i).steps ((call i).remnant fee.val) (c.threads i) (made i)) ∧
      (∀ i, made i <+: (call i).steps) ∧ (trace : Multiset Op) = ∑ i, (made i : Multiset Op) := by
  have hfe := shows_eq hf
  refine exec_trails (K := fun i => HasCoins s.main.chain (call i).steps) (fun i => trail_coins E (hc i) hl hfee) (fun trace made h1 h7 h6 h4 i => ?_) h
  have hinv := runAll_storeInv trace hi
  refine ⟨hinv.gas.1, hinv.summary.1, h7, fun k => ?_⟩
  have k1 := coins_tally trace k hi (made_adding h6 h4) h1
  rw [tally_sum _ h4, tally_sum _ h4] at k1
  have k2 := hcoins k
  have k2' := hroom k
  have k3 : ∑ j, tally takesCoins (call j).steps k ≤ ∑ j, (call j).spends k := Finset.sum_le_sum fun j _ => (spent_steps _ k).1
  have k3' : ∑ j, tally givesCoins (call j).steps k ≤ ∑ j, (call j).gains k := Finset.sum_le_sum fun j _ => (spent_steps _ k).2
  have k4 : ∀ w, ∑ j ∈ Finset.univ.erase i, tally w (made j) k ≤ ∑ j ∈ Finset.univ.erase i, tally w (call j).steps k := fun w =>
    Finset.sum_le_sum fun j _ => tally_prefix w (h6 j) k
  have k5 := fun w => Finset.add_sum_erase Finset.univ (fun j => tally w (made j) k) (Finset.mem_univ i)
  have k6 := fun w => Finset.add_sum_erase Finset.univ (fun j => tally w (call j).steps k) (Finset.mem_univ i)
  have k7 : (s.summary.cur.amt k).val = f k := by rw [hfe]
  have a4 := k4 takesCoins
  have a5 := k5 takesCoins
  have a6 := k6 takesCoins
  have b4 := k4 givesCoins
  have b5 := k5 givesCoins
  have b6 := k6 givesCoins
  have size : U256.size = 2 ^ 256 := rfl
  rw [size]
  constructor <;> omega

/-! ## Property -/

/-- C188. When all calls have ended and there were coins, and room for coins, for all of them together, the node is what it would be if, one
after the other, each call that returned `Ok` had done everything, each that returned an error nothing, and each that panicked its remnant:
of `send_transaction`, storing the transaction and moving the coins. -/
theorem C188_left (E : Env) (s : Tree) (hs : Life E (.idle s)) (f : Spec.Accounts) (hf : Shows s.summary f) (last : Block) (fee : U256)
    (hl : s.main.getLastBlock = .ok (some last)) (hfee : recalculateFee last.info.difficulty = .ok fee)
    (call : ι → Deal) (hc : ∀ i, (call i).Calm) (hcoins : ∀ k, ∑ i, (call i).spends k ≤ f k)
    (hroom : ∀ k, f k + ∑ i, (call i).gains k < 2 ^ 256) (log : List (Event ι Node))
    (c : Config ι Node Reply) (h : Exec ⟨⟨s, false⟩, fun i => (call i).prog E⟩ log c) (o : ι → Outcome Reply)
    (hend : ∀ i, c.threads i = .done (o i)) :
    ∃ (made : ι → List Op) (l : List Op), (∀ i, Leaves (call i).steps ((call i).remnant fee.val) (o i) (made i)) ∧
      (l : Multiset Op) = ∑ i, (made i : Multiset Op) ∧ AllAccepted E s l ∧ c.shared.data = runAll E s l := by
  obtain ⟨trace, made, h1, h2, _, h3, _, h4⟩ := exec_coins (life_storeInv hs) hf hl hfee hc hcoins hroom h
  refine ⟨made, trace, fun i => ?_, h4, h1, h2⟩
  have := h3 i
  rw [hend i] at this
  exact this

/-- C188. If there are coins, and room for coins, for all calls together, and under two schedules every call ends alike, then the node is
left the same in every part, panics of `send_transaction` included. -/
theorem C188_replies (E : Env) (s : Tree) (hs : Life E (.idle s)) (f : Spec.Accounts) (hf : Shows s.summary f) (last : Block) (fee : U256)
    (hl : s.main.getLastBlock = .ok (some last)) (hfee : recalculateFee last.info.difficulty = .ok fee)
    (call : ι → Deal) (hc : ∀ i, (call i).Calm) (hcoins : ∀ k, ∑ i, (call i).spends k ≤ f k)
    (hroom : ∀ k, f k + ∑ i, (call i).gains k < 2 ^ 256)
    (hd : ∀ i, ∀ tx ∈ (call i).stores, ∀ j, ∀ tx' ∈ (call j).stores, E.sha256 tx.dump = E.sha256 tx'.dump → tx.dump = tx'.dump)
    (log log' : List (Event ι Node)) (c c' : Config ι Node Reply) (h : Exec ⟨⟨s, false⟩, fun i => (call i).prog E⟩ log c)
    (h' : Exec ⟨⟨s, false⟩, fun i => (call i).prog E⟩ log' c')
    (hsame : ∀ i, ∃ o o', c.threads i = .done o ∧ c'.threads i = .done o' ∧ EndAlike o o') (p : Part) :
    p.Same c.shared.data c'.shared.data := by
  obtain ⟨l, made, a1, a2, _, a3, a5, a4⟩ := exec_coins (life_storeInv hs) hf hl hfee hc hcoins hroom h
  obtain ⟨l', made', b1, b2, _, b3, _, b4⟩ := exec_coins (life_storeInv hs) hf hl hfee hc hcoins hroom h'
  have he : made = made' := funext fun i => by
    obtain ⟨o, o', e, e', ha⟩ := hsame i
    have x := a3 i
    have y := b3 i
    rw [e] at x
    rw [e'] at y
    exact leaves_alike ha x y
  subst he
  have mem : ∀ o ∈ l, ∃ i, o ∈ (call i).steps := fun o ho => by
    have : o ∈ (l : Multiset Op) := ho
    rw [a4] at this
    obtain ⟨i, _, hi⟩ := Multiset.mem_sum.mp this
    exact ⟨i, (a5 i).subset hi⟩
  have txs : ∀ tx ∈ l.flatMap Op.stores, ∃ i, tx ∈ (call i).stores := fun tx ht => by
    obtain ⟨o, ho, ht⟩ := List.mem_flatMap.mp ht
    obtain ⟨i, hi⟩ := mem o ho
    exact ⟨i, by rw [← steps_stores]; exact List.mem_flatMap.mpr ⟨o, hi, ht⟩⟩
  rw [a2, b2]
  refine C177_order E s hs l l' (Multiset.coe_eq_coe.mp (a4.trans b4.symm)) (fun o ho => ?_) a1 b1 (fun tx ht tx' ht' he => ?_) p
  · obtain ⟨i, hi⟩ := mem o ho
    exact steps_adding _ o hi
  · obtain ⟨i, hi⟩ := txs tx ht
    obtain ⟨j, hj⟩ := txs tx' ht'
    exact hd i tx hi j tx' hj he

end

/-! ## Instances -/

/-- A transaction, and a withdrawal of all gas of its sender. -/
def payAndDrain : Fin 2 → Deal
  | 0 => .send exTx
  | 1 => .brief (.subGas exTx.sender.val (U256.ofNat 1000000000000000000))

/-- The hypotheses can be met by a schedule under which `send_transaction` panics, with every hash function; it leaves the transaction stored and
the coins moved. -/
theorem pay_and_drain (E : Env) : ∃ s last fee log c, Run E s ∧ Shows s.summary (fundedCoins U256.zero) ∧ s.main.getLastBlock = .ok (some last) ∧
    recalculateFee last.info.difficulty = .ok fee ∧ (∀ i, (payAndDrain i).Calm) ∧
    (∀ k, ∑ i, (payAndDrain i).spends k ≤ fundedCoins U256.zero k) ∧ (∀ k, fundedCoins U256.zero k + ∑ i, (payAndDrain i).gains k < 2 ^ 256) ∧
    (∀ i, ∀ tx ∈ (payAndDrain i).stores, ∀ j, ∀ tx' ∈ (payAndDrain j).stores, E.sha256 tx.dump = E.sha256 tx'.dump → tx.dump = tx'.dump) ∧
    Exec ⟨⟨s, false⟩, fun i => (payAndDrain i).prog E⟩ log c ∧ (∀ i, c.threads i = .done (emptyEnd i)) ∧
    (payAndDrain 0).remnant fee.val = [.addTransaction exTx, .sendAmount exTx.sender.val exTx.receiver.val exTx.amount] := by
  obtain ⟨s, h1, h2, h3, -, last, h5, h6⟩ := funded E U256.zero
  have hi := run_storeInv h1
  have ef := shows_eq h2
  have eg := shows_eq h3
  have hne : exTx.sender.val ≠ exTx.receiver.val := fun e => exTx_ne (Subtype.ext e)
  have hsize : exTx.getDumpSize = 145 := by decide +kernel
  have v2 : (U256.ofNat 1000000000000000000).val = 1000000000000000000 := by decide
  have va : exTx.amount.val = 1000 := rfl
  have vz : U256.zero.val = 0 := rfl
  have big : (2000 : Nat) < U256.size := by decide
  obtain ⟨v, hv⟩ : ∃ v : U256, v.val = 625000000000 * exTx.getDumpSize := ⟨⟨625000000000 * 145, by decide⟩, by rw [hsize]⟩
  have c0 : (s.summary.cur.amt exTx.sender.val).val = 1000000000 := by rw [← funded_sender U256.zero, ef]
  have r0 : (s.summary.cur.amt exTx.receiver.val).val = 0 := by rw [← vz, ← funded_receiver U256.zero, ef]
  have g0 : (s.gas.cur.amt exTx.sender.val).val = 1000000000000000000 := by rw [← funded_gas, eg]
  obtain ⟨b1, b2, b3, b4⟩ := sub_gas (t := s) hi.gas.1 (o := exTx.sender.val) (a := U256.ofNat 1000000000000000000) (by omega)
  obtain ⟨t2, ht2⟩ : ∃ t, t = (Tree.subGas exTx.sender.val (U256.ofNat 1000000000000000000) s).final := ⟨_, rfl⟩
  rw [← ht2] at b2 b3 b4
  have x0 : Exec ⟨⟨s, false⟩, fun i => (payAndDrain i).prog E⟩ [] ⟨⟨s, false⟩, fun i => (payAndDrain i).prog E⟩ := .refl
  obtain ⟨_, x1⟩ := x0.go 0 rfl ((send_checks_run E s exTx _ _ h2 h3
    (funded_affordable U256.zero h5 h6 exTx rfl rfl (by omega)) v hv).bind fun _ => (pure .nothing : Prog Node Reply))
  obtain ⟨_, x2⟩ := x1.go 1 (Function.update_of_ne (by decide) _ _) (runs_brief b1)
  rw [← ht2] at x2
  obtain ⟨w1, hw1⟩ : ∃ t, t = t2.withTx E exTx := ⟨_, rfl⟩
  have s2 : w1.summary = s.summary := by rw [hw1]; exact b2
  have s3 : w1.gas = t2.gas := by rw [hw1]; rfl
  have room : (w1.summary.cur.amt exTx.receiver.val).val + exTx.amount.val < U256.size := by rw [s2]; omega
  obtain ⟨k1, k2⟩ := sendAmount_ok (n := w1) (by rw [s2]; exact hi.summary.1) exTx_ne (by rw [s2]; omega) room
  obtain ⟨w2, hw2⟩ : ∃ t, t = (Tree.sendAmount exTx.sender.val exTx.receiver.val exTx.amount w1).final := ⟨_, rfl⟩
  have s4 : w2.gas = t2.gas := by rw [hw2, k2]; exact s3
  obtain ⟨m1, m2⟩ := sub_gas_short (t := w2) (by rw [s4]; exact b3) (o := exTx.sender.val) (a := v) (by rw [s4]; omega)
  obtain ⟨_, z5⟩ := x2.go 0 ((Function.update_of_ne (by decide) _ _).trans (Function.update_self _ _ _))
    (q := .done (.panic .unwrap)) (t := ⟨w2, false⟩) (by
      refine Prog.Runs.bind (q := .done (.panic .unwrap)) (f := fun _ => (pure .nothing : Prog Node Reply)) ?_
      refine (Prog.runs_bind_ok (a := ()) (t := ⟨w1, false⟩) (by rw [hw1]; rfl) _).trans ?_
      refine (Prog.runs_bind_ok (a := ()) (t := ⟨w2, false⟩) (by rw [hw2, ← k1]; exact Node.implAt_onTree _ w1) _).trans ?_
      refine Prog.runs_of_solo ?_
      have := Node.implAt_onTree (Tree.subGas exTx.sender.val v) w2
      unfold Node.ImplAt at this
      rw [payStep, this, m1, m2])
  have hst : ∀ i, ∀ tx ∈ (payAndDrain i).stores, tx = exTx := fun i tx h => by
    match i with
    | 0 => exact List.mem_singleton.mp h
    | 1 => cases h
  refine ⟨s, last, _, _, _, h1, h2, h5, h6, fun i => ?_, fun k => ?_, fun k => ?_, fun i tx h j tx' h' _ => by rw [hst i tx h, hst j tx' h'],
    z5, fun i => ?_, ?_⟩
  · match i with
    | 0 => trivial
    | 1 => trivial
  · rw [fin_two_sum]
    change (if k = exTx.sender.val then exTx.amount.val else 0) + 0 ≤ _
    split
    · rename_i hk
      rw [hk, funded_sender, va]
      omega
    · exact Nat.zero_le _
  · rw [fin_two_sum]
    change fundedCoins U256.zero k + ((if k = exTx.receiver.val then exTx.amount.val else 0) + 0) < U256.size
    split
    · rename_i hk
      rw [hk, funded_receiver, va, vz]
      omega
    · rw [ef]
      exact (s.summary.cur.amt k).lt
  · match i with
    | 0 => simp [emptyEnd]
    | 1 => simp; rfl
  · change (Deal.send exTx).remnant _ = _
    unfold Deal.remnant
    exact if_pos ⟨by rw [hsize]; decide, by decide +kernel⟩

theorem fin_three_sum (g : Fin 3 → Nat) : ∑ i, g i = g 0 + g 1 + g 2 := by
  change Multiset.sum (Multiset.map g _) = _
  rw [show (Finset.univ : Finset (Fin 3)).val = ((0 : Fin 3) ::ₘ (1 : Fin 3) ::ₘ {(2 : Fin 3)}) by decide]
  rw [Multiset.map_cons, Multiset.map_cons, Multiset.map_singleton, Multiset.sum_cons, Multiset.sum_cons, Multiset.sum_singleton, Nat.add_assoc]

theorem move_full {t : Tree} (hd : t.summary.cur.Dec) {a b : Bytes} {n : U256} (hne : a ≠ b) (h1 : n.val ≤ (t.summary.cur.amt a).val)
    (h : ¬ (t.summary.cur.amt b).val + n.val < U256.size) :
    (Tree.sendAmount a b n t).out = .panic .overflow ∧ (Tree.sendAmount a b n t).final = t := by
  unfold Tree.sendAmount
  rw [if_neg hne]
  rcases Ledger.transfer_run hd a b n with ⟨_, h', _⟩ | ⟨h', _⟩ | ⟨_, _, e⟩
  · exact absurd h' h
  · omega
  · simp only [Tree.onSummary, Act.zoom, e]
    exact ⟨trivial, trivial⟩

/-- A transaction, a withdrawal of all gas of its sender, and a withdrawal by its receiver. -/
def payAndMakeRoom : Fin 3 → Deal
  | 0 => .send exTx
  | 1 => .brief (.subGas exTx.sender.val (U256.ofNat 1000000000000000000))
  | 2 => .brief (.subAmount exTx.receiver.val (U256.ofNat 1000))

/-- The most coins an account can have. -/
def mostCoins : U256 := ⟨2 ^ 256 - 1, by decide⟩

/-- C188. Coins for all calls are not enough, there must be room for them too, whatever the hash function: `send_transaction` panics when the
receiver has no room, and when the gas has gone; in the first case it has moved no coins. -/
theorem C188_room_needed (E : Env) : ∃ s last fee log log' c c', Run E s ∧ Shows s.summary (fundedCoins mostCoins) ∧
    s.main.getLastBlock = .ok (some last) ∧ recalculateFee last.info.difficulty = .ok fee ∧ (∀ i, (payAndMakeRoom i).Calm) ∧
    (∀ k, ∑ i, (payAndMakeRoom i).spends k ≤ fundedCoins mostCoins k) ∧
    (∀ i, ∀ tx ∈ (payAndMakeRoom i).stores, ∀ j, ∀ tx' ∈ (payAndMakeRoom j).stores, E.sha256 tx.dump = E.sha256 tx'.dump → tx.dump = tx'.dump) ∧
    Exec ⟨⟨s, false⟩, fun i => (payAndMakeRoom i).prog E⟩ log c ∧ Exec ⟨⟨s, false⟩, fun i => (payAndMakeRoom i).prog E⟩ log' c' ∧
    (∀ i, ∃ o o', c.threads i = .done o ∧ c'.threads i = .done o' ∧ EndAlike o o') ∧
    ¬ Part.coins.Same c.shared.data c'.shared.data := by
  obtain ⟨s, h1, h2, h3, -, last, h5, h6⟩ := funded E mostCoins
  have hi := run_storeInv h1
  have ef := shows_eq h2
  have eg := shows_eq h3
  have hne : exTx.sender.val ≠ exTx.receiver.val := fun e => exTx_ne (Subtype.ext e)
  have hsize : exTx.getDumpSize = 145 := by decide +kernel
  have v2 : (U256.ofNat 1000000000000000000).val = 1000000000000000000 := by decide
  have v3 : (U256.ofNat 1000).val = 1000 := by decide
  have va : exTx.amount.val = 1000 := rfl
  have vm : mostCoins.val = 2 ^ 256 - 1 := rfl
  have size : U256.size = 2 ^ 256 := rfl
  obtain ⟨v, hv⟩ : ∃ v : U256, v.val = 625000000000 * exTx.getDumpSize := ⟨⟨625000000000 * 145, by decide⟩, by rw [hsize]⟩
  have c0 : (s.summary.cur.amt exTx.sender.val).val = 1000000000 := by rw [← funded_sender mostCoins, ef]
  have r0 : (s.summary.cur.amt exTx.receiver.val).val = 2 ^ 256 - 1 := by rw [← vm, ← funded_receiver mostCoins, ef]
  have g0 : (s.gas.cur.amt exTx.sender.val).val = 1000000000000000000 := by rw [← funded_gas, eg]
  obtain ⟨b1, b2, b3, b4⟩ := sub_gas (t := s) hi.gas.1 (o := exTx.sender.val) (a := U256.ofNat 1000000000000000000) (by omega)
  obtain ⟨t2, ht2⟩ : ∃ t, t = (Tree.subGas exTx.sender.val (U256.ofNat 1000000000000000000) s).final := ⟨_, rfl⟩
  rw [← ht2] at b2 b3 b4
  have a3 : t2.summary.cur.Dec := by rw [b2]; exact hi.summary.1
  rw [← b2] at c0 r0
  have x0 : Exec ⟨⟨s, false⟩, fun i => (payAndMakeRoom i).prog E⟩ [] ⟨⟨s, false⟩, fun i => (payAndMakeRoom i).prog E⟩ := .refl
  obtain ⟨_, x1⟩ := x0.go 0 rfl ((send_checks_run E s exTx _ _ h2 h3
    (funded_affordable mostCoins h5 h6 exTx rfl rfl (by omega)) v hv).bind fun _ => (pure .nothing : Prog Node Reply))
  obtain ⟨_, x2⟩ := x1.go 1 (Function.update_of_ne (by decide) _ _) (runs_brief b1)
  rw [← ht2] at x2
  -- the transaction, then the withdrawal
  obtain ⟨u1, hu1⟩ : ∃ t, t = t2.withTx E exTx := ⟨_, rfl⟩
  have s1 : u1.summary = t2.summary := by rw [hu1]; rfl
  obtain ⟨d1, d2⟩ := move_full (t := u1) (by rw [s1]; exact a3) hne (n := exTx.amount) (by rw [s1]; omega) (by rw [s1]; omega)
  obtain ⟨_, y4⟩ := x2.go 0 ((Function.update_of_ne (by decide) _ _).trans (Function.update_self _ _ _))
    (q := .done (.panic .overflow)) (t := ⟨u1, false⟩) (by
      refine Prog.Runs.bind (q := .done (.panic .overflow)) (f := fun _ => (pure .nothing : Prog Node Reply)) ?_
      refine (Prog.runs_bind_ok (a := ()) (t := ⟨u1, false⟩) (by rw [hu1]; rfl) _).trans ?_
      refine Prog.Runs.bind (q := .done (.panic .overflow)) (f := fun _ => payStep exTx v) (Prog.runs_of_solo ?_)
      have := Node.implAt_onTree (Tree.sendAmount exTx.sender.val exTx.receiver.val exTx.amount) u1
      unfold Node.ImplAt at this
      rw [this, d1, d2])
  obtain ⟨e1, e2, e3, e4⟩ := sub_coins (t := u1) (by rw [s1]; exact a3) (o := exTx.receiver.val) (a := U256.ofNat 1000) (by rw [s1]; omega)
  have e5 := e4 exTx.sender.val
  rw [if_neg hne.symm, s1] at e5
  obtain ⟨_, y5⟩ := y4.go 2 ((Function.update_of_ne (by decide) _ _).trans ((Function.update_of_ne (by decide) _ _).trans
    (Function.update_of_ne (by decide) _ _))) (runs_brief e1)
  -- the withdrawal, then the transaction
  obtain ⟨f1, f2, f3, f4⟩ := sub_coins (t := t2) a3 (o := exTx.receiver.val) (a := U256.ofNat 1000) (by omega)
  have f5 := f4 exTx.sender.val
  have f6 := f4 exTx.receiver.val
  rw [if_neg hne.symm] at f5
  rw [if_pos rfl] at f6
  obtain ⟨_, z4⟩ := x2.go 2 ((Function.update_of_ne (by decide) _ _).trans (Function.update_of_ne (by decide) _ _)) (runs_brief f1)
  obtain ⟨t3, ht3⟩ : ∃ t, t = (Tree.subAmount exTx.receiver.val (U256.ofNat 1000) t2).final := ⟨_, rfl⟩
  rw [← ht3] at f2 f3 f5 f6 z4
  obtain ⟨w1, hw1⟩ : ∃ t, t = t3.withTx E exTx := ⟨_, rfl⟩
  have s2 : w1.summary = t3.summary := by rw [hw1]; rfl
  have s3 : w1.gas = t2.gas := by rw [hw1]; exact f2
  have room : (w1.summary.cur.amt exTx.receiver.val).val + exTx.amount.val < U256.size := by rw [s2]; omega
  obtain ⟨k1, k2⟩ := sendAmount_ok (n := w1) (by rw [s2]; exact f3) exTx_ne (by rw [s2]; omega) room
  obtain ⟨w2, hw2⟩ : ∃ t, t = (Tree.sendAmount exTx.sender.val exTx.receiver.val exTx.amount w1).final := ⟨_, rfl⟩
  have s4 : w2.gas = t2.gas := by rw [hw2, k2]; exact s3
  have s5 : (w2.summary.cur.amt exTx.sender.val).val = 1000000000 - 1000 := by
    rw [hw2, k2]
    refine (Ledger.moved_amt w1.summary.cur hne exTx.amount room exTx.sender.val).trans ?_
    rw [if_pos rfl, s2]
    omega
  obtain ⟨m1, m2⟩ := sub_gas_short (t := w2) (by rw [s4]; exact b3) (o := exTx.sender.val) (a := v) (by rw [s4]; omega)
  obtain ⟨_, z5⟩ := z4.go 0 ((Function.update_of_ne (by decide) _ _).trans ((Function.update_of_ne (by decide) _ _).trans
    (Function.update_self _ _ _)))
    (q := .done (.panic .unwrap)) (t := ⟨w2, false⟩) (by
      refine Prog.Runs.bind (q := .done (.panic .unwrap)) (f := fun _ => (pure .nothing : Prog Node Reply)) ?_
      refine (Prog.runs_bind_ok (a := ()) (t := ⟨w1, false⟩) (by rw [hw1]; rfl) _).trans ?_
      refine (Prog.runs_bind_ok (a := ()) (t := ⟨w2, false⟩) (by rw [hw2, ← k1]; exact Node.implAt_onTree _ w1) _).trans ?_
      refine Prog.runs_of_solo ?_
      have := Node.implAt_onTree (Tree.subGas exTx.sender.val v) w2
      unfold Node.ImplAt at this
      rw [payStep, this, m1, m2])
  have hst : ∀ i, ∀ tx ∈ (payAndMakeRoom i).stores, tx = exTx := fun i tx h => by
    match i with
    | 0 => exact List.mem_singleton.mp h
    | 1 => cases h
    | 2 => cases h
  refine ⟨s, last, _, _, _, _, _, h1, h2, h5, h6, fun i => ?_, fun k => ?_, fun i tx h j tx' h' _ => by rw [hst i tx h, hst j tx' h'],
    y5, z5, fun i => ?_, fun same => ?_⟩
  · match i with
    | 0 => trivial
    | 1 => trivial
    | 2 => trivial
  · rw [fin_three_sum]
    change (if k = exTx.sender.val then exTx.amount.val else 0) + 0 + (if k = exTx.receiver.val then (U256.ofNat 1000).val else 0) ≤ _
    by_cases hk : k = exTx.sender.val
    · rw [if_pos hk, if_neg (fun e => hne (hk.symm.trans e)), hk, funded_sender, va]
      omega
    rw [if_neg hk]
    split
    · rename_i hk
      rw [hk, funded_receiver, vm, v3]
      omega
    · exact Nat.zero_le _
  · match i with
    | 0 => exact ⟨.panic .overflow, .panic .unwrap, by simp, by simp, by simp [EndAlike]⟩
    | 1 => exact ⟨.ok .nothing, .ok .nothing, by simp; rfl, by simp; rfl, by simp [EndAlike]⟩
    | 2 => exact ⟨.ok .nothing, .ok .nothing, by simp; rfl, by simp; rfl, by simp [EndAlike]⟩
  · have same : w2.summary.cur = (Tree.subAmount exTx.receiver.val (U256.ofNat 1000) u1).final.summary.cur := same
    rw [← same] at e5
    omega

end BCT.Props
