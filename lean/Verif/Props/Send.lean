import Verif.Props.Ledger
/-!
# C52 – C57: `send_transaction` (blockchaintree.rs)
-/

namespace BCT.Props
open BCT

/-- The conditions `send_transaction` states: gas for every announced byte, coins for amount and fee. -/
def Affordable (s : Tree) (f g : Spec.Accounts) (tx : Transaction) : Prop :=
  ∃ last fee, s.main.getLastBlock = .ok (some last) ∧ recalculateFee last.info.difficulty = .ok fee ∧
    625000000000 * tx.getDumpSize ≤ g tx.sender.val ∧ tx.amount.val + fee.val ≤ f tx.sender.val

theorem affordable_iff {s : Tree} {f g : Spec.Accounts} {tx : Transaction} (hf : Shows s.summary f) (hg : Shows s.gas g) :
    Affordable s f g tx ↔ ∃ last fee, Admitted s tx last fee := by
  have e1 := shows_eq hf
  have e2 := shows_eq hg
  subst e1 e2
  constructor
  · rintro ⟨l, fee, h1, h2, h3, h4⟩
    exact ⟨l, fee, h3, h1, h2, by rw [Nat.add_comm]; exact h4⟩
  · rintro ⟨l, fee, h3, h1, h2, h4⟩
    exact ⟨l, fee, h1, h2, h3, by rw [Nat.add_comm]; exact h4⟩

/-- The coins after the transfer. -/
def coinsAfter (f : Spec.Accounts) (tx : Transaction) : Spec.Accounts :=
  if tx.sender = tx.receiver then f
  else (f.update tx.sender.val (f tx.sender.val - tx.amount.val)).update tx.receiver.val
    (f tx.receiver.val + tx.amount.val)

theorem shows_paid {d : Db} {f : Spec.Accounts} (hd : d.cur.Dec) (hf : Shows d f) (tx : Transaction) (h)
    (ha : tx.amount.val ≤ f tx.sender.val) : Shows (paid d tx h) (coinsAfter f tx) := by
  have e1 := shows_eq hf
  subst e1
  refine shows_of (paid_dec hd tx h) fun k => ?_
  rw [paid_amt d tx h k ha]
  unfold coinsAfter
  by_cases hs : tx.sender = tx.receiver
  · rw [if_pos hs, if_pos hs]
  · have hne : tx.sender.val ≠ tx.receiver.val := fun e => hs (Subtype.ext e)
    rw [if_neg hs, if_neg hs]
    unfold Spec.Accounts.update
    by_cases h1 : k = tx.sender.val
    · subst h1; rw [if_neg hne, if_pos rfl, if_pos rfl]
    · by_cases h2 : k = tx.receiver.val
      · subst h2; rw [if_pos rfl, if_neg h1, if_pos rfl]
      · rw [if_neg h2, if_neg h1, if_neg h1, if_neg h2]

theorem shows_charged {d : Db} {g : Spec.Accounts} (hd : d.cur.Dec) (hg : Shows d g) (tx : Transaction) :
    Shows (charged d tx) (g.update tx.sender.val (g tx.sender.val - 625000000000 * tx.getDumpSize)) := by
  have e1 := shows_eq hg
  subst e1
  exact shows_insert hd _ _

/-- `send_transaction` as a public call. -/
theorem send_op (E : Env) (tx : Transaction) (s : Tree) : (Op.sendTransaction tx).run E s = Tree.sendTransaction E tx s := rfl

/-! ## C52 -/

/-- C52. The complete effect of a successful `send_transaction`; an error has none. -/
theorem C52_effect (E : Env) (s : Tree) (tx : Transaction) (f g : Spec.Accounts) (hr : Run E s)
    (hf : Shows s.summary f) (hg : Shows s.gas g) :
    (((Op.sendTransaction tx).run E s).out = .ok () →
      ∃ s', ((Op.sendTransaction tx).run E s).final = s' ∧
        s'.main.getTransactionRaw (E.sha256 tx.dump) = some tx.dump ∧
        (∀ h, h ≠ E.sha256 tx.dump → s'.main.getTransactionRaw h = s.main.getTransactionRaw h) ∧
        Shows s'.summary (if tx.sender = tx.receiver then f
          else (f.update tx.sender.val (f tx.sender.val - tx.amount.val)).update tx.receiver.val
            (f tx.receiver.val + tx.amount.val)) ∧
        Shows s'.gas (g.update tx.sender.val (g tx.sender.val - 625000000000 * tx.getDumpSize)) ∧
        tx.amount.val ≤ f tx.sender.val ∧ 625000000000 * tx.getDumpSize ≤ g tx.sender.val ∧
        s'.main.chain = s.main.chain ∧ s'.oldSummary = s.oldSummary ∧ s'.oldGas = s.oldGas ∧
        s'.derivFiles = s.derivFiles ∧ s'.derivMem = s.derivMem) ∧
    (∀ e, ((Op.sendTransaction tx).run E s).out = .err e → (Op.sendTransaction tx).run E s = ⟨.err e, s, []⟩) := by
  have hi := run_storeInv hr
  rw [send_op]
  rcases sendTransaction_cases E s tx hi.summary.1 hi.gas.1 with ⟨l, fee, h, ha, h1, h2, _⟩ | ⟨_, _, _, _, _, e⟩ | ⟨_, o, ho, e⟩
  · have hA := (affordable_iff (tx := tx) hf hg).mpr ⟨l, fee, ha⟩
    obtain ⟨_, _, _, _, h3, h4⟩ := hA
    refine ⟨fun _ => ⟨_, h2, ?_, fun q hq => ?_, shows_paid hi.summary.1 hf tx h (by omega), shows_charged hi.gas.1 hg tx,
      by omega, h3, rfl, rfl, rfl, rfl, rfl⟩, fun e he => by rw [h1] at he; cases he⟩
    · simp [MainChain.getTransactionRaw, Tree.sent, Tree.withTx]
    · unfold MainChain.getTransactionRaw
      show Db.get _ _ = _
      simp only [Tree.sent, Tree.withTx]
      rw [Db.get_insert, if_neg (fun e => hq (Subtype.ext e).symm)]
  · rw [e]; exact ⟨fun h => (by cases h), fun _ h => (by cases h)⟩
  · rw [e]
    refine ⟨fun h => absurd h (ho ()), fun e' h => ?_⟩
    simp only at h
    rw [h]

/-! ## C53 -/

/-- C53. `send_transaction` succeeds exactly when the transaction is affordable and the receiver's balance does
not overflow. -/
theorem C53_admission (E : Env) (s : Tree) (tx : Transaction) (f g : Spec.Accounts) (hr : Run E s)
    (hf : Shows s.summary f) (hg : Shows s.gas g) :
    ((Op.sendTransaction tx).run E s).out = .ok () ↔
      Affordable s f g tx ∧ (tx.sender = tx.receiver ∨ f tx.receiver.val + tx.amount.val < 2 ^ 256) := by
  have hi := run_storeInv hr
  rw [send_op, affordable_iff hf hg]
  have e1 := shows_eq hf
  subst e1
  rcases sendTransaction_cases E s tx hi.summary.1 hi.gas.1 with ⟨l, fee, h, ha, h1, _⟩ | ⟨_, _, _, h1, h2, e⟩ | ⟨hn, o, ho, e⟩
  · exact ⟨fun _ => ⟨⟨l, fee, ha⟩, h⟩, fun _ => h1⟩
  · rw [e]
    refine ⟨fun h => (by cases h), fun h => ?_⟩
    rcases h.2 with h3 | h3
    · exact absurd h3 h1
    · exact absurd h3 h2
  · rw [e]
    exact ⟨fun h => absurd h (ho ()), fun h => absurd h.1 hn⟩

/-! ## A funded node -/

/-- Calls that fund the sender of `exTx` and set the balance of its receiver. -/
def fundOps (r : U256) : List Op :=
  [.setAmount exTx.sender.val (U256.ofNat 1000000000), .setAmount exTx.receiver.val r,
   .addGas exTx.sender.val (U256.ofNat 1000000000000000000)]

def fundedCoins (r : U256) : Spec.Accounts :=
  (Spec.Accounts.update (Spec.Accounts.update (fun _ => 0) ROOT_PUBLIC_ADDRESS.val 50010000000000000000000000)
    exTx.sender.val 1000000000).update exTx.receiver.val r.val

def fundedGas : Spec.Accounts := Spec.Accounts.update (fun _ => 0) exTx.sender.val 1000000000000000000

theorem exTx_ne : exTx.sender ≠ exTx.receiver := by decide

theorem funded_sender (r : U256) : fundedCoins r exTx.sender.val = 1000000000 := by
  unfold fundedCoins Spec.Accounts.update
  rw [if_neg (fun e => exTx_ne (Subtype.ext e)), if_pos rfl]

theorem funded_receiver (r : U256) : fundedCoins r exTx.receiver.val = r.val := by
  unfold fundedCoins Spec.Accounts.update; rw [if_pos rfl]

theorem funded_gas : fundedGas exTx.sender.val = 1000000000000000000 := by
  unfold fundedGas Spec.Accounts.update; rw [if_pos rfl]

theorem funded_run (E : Env) (r : U256) :
    let s := runAll E (openTree E Disk.empty).final (fundOps r)
    Run E s ∧ Shows s.summary (fundedCoins r) ∧ Shows s.gas fundedGas ∧
      (∀ h, s.main.getTransactionRaw h = none) ∧
      ∃ last, s.main.getLastBlock = .ok (some last) ∧ recalculateFee last.info.difficulty = .ok (U256.ofNat 62500) := by
  obtain ⟨h1, h2, h3, h4⟩ := C47_history E _ _ _ (fundOps r) .fresh (C47_start E).1 (C47_start E).2 (by
    intro op ho
    simp only [fundOps, List.mem_cons, List.not_mem_nil, or_false] at ho
    rcases ho with rfl | rfl | rfl <;> simp [coinCall, gasCall])
  obtain ⟨t, _, h6, _, ⟨b, _, h7, h8⟩, _, h9, _⟩ := C37_fresh_node E
  refine ⟨h1, h2, ?_, fun h => ?_, .summarize b, ?_, ?_⟩
  · have he : (fundOps r).filterMap gasCall = [.add exTx.sender.val 1000000000000000000] := rfl
    rw [he] at h3
    simpa [Spec.LedgerCall.run, Spec.LedgerCall.apply, fundedGas] using h3
  · rw [h4, h6]; exact h9 h
  · rw [h4, h6]; exact h7
  · show recalculateFee b.defaultInfo.difficulty = _
    rw [h8]; decide +kernel

/-- `exTx` is affordable on the funded node, whatever the amount below 900 000 000 and whatever the signature. -/
theorem funded (E : Env) (r : U256) :
    ∃ s, Run E s ∧ Shows s.summary (fundedCoins r) ∧ Shows s.gas fundedGas ∧
      (∀ h, s.main.getTransactionRaw h = none) ∧
      ∃ last, s.main.getLastBlock = .ok (some last) ∧ recalculateFee last.info.difficulty = .ok (U256.ofNat 62500) :=
  ⟨_, funded_run E r⟩

theorem funded_affordable {s : Tree} (r : U256) {last : Block} (h1 : s.main.getLastBlock = .ok (some last))
    (h2 : recalculateFee last.info.difficulty = .ok (U256.ofNat 62500)) (tx : Transaction) (hs : tx.sender = exTx.sender)
    (hd : tx.data = exTx.data) (ha : tx.amount.val < 900000000) : Affordable s (fundedCoins r) fundedGas tx := by
  refine ⟨last, _, h1, h2, ?_, ?_⟩
  · rw [hs, funded_gas]
    unfold Transaction.getDumpSize
    rw [hd]
    have h3 : u256Size tx.amount ≤ 34 := by
      rw [u256Size_exact, encU256_length]
      have := minBE_length tx.amount
      split <;> omega
    simp only [exTx, List.length_cons, List.length_nil]
    omega
  · rw [hs, funded_sender]
    have : (U256.ofNat 62500).val = 62500 := rfl
    omega

/-- The hypotheses of C52, C53: a successful transaction exists for every hash function. -/
example (E : Env) : ∃ s f g, Run E s ∧ Shows s.summary f ∧ Shows s.gas g ∧
    ((Op.sendTransaction exTx).run E s).out = .ok () := by
  obtain ⟨s, h1, h2, h3, _, l, h5, h6⟩ := funded E U256.zero
  refine ⟨s, _, _, h1, h2, h3, (C53_admission E s exTx _ _ h1 h2 h3).mpr ⟨funded_affordable _ h5 h6 exTx rfl rfl (by decide), .inr ?_⟩⟩
  rw [funded_receiver]; decide

/-! ## C54 -/

/-- C54 at full strength. -/
def C54_full : Prop := ∀ (E : Env) (s : Tree) (tx : Transaction) (f g : Spec.Accounts), Run E s → Shows s.summary f →
  Shows s.gas g → ((Op.sendTransaction tx).run E s).out ≠ .ok () →
  Shows ((Op.sendTransaction tx).run E s).final.summary f ∧ Shows ((Op.sendTransaction tx).run E s).final.gas g ∧
  ∀ h, ((Op.sendTransaction tx).run E s).final.main.getTransactionRaw h = s.main.getTransactionRaw h

/-- C54, what holds: without success no balance changes, and nothing at all changes unless the receiver's balance
would overflow; a supply below 2^256 excludes that. Missing: the overflow case, in which the transaction is stored. -/
theorem C54_all_or_nothing_partial (E : Env) (s : Tree) (tx : Transaction) (f g : Spec.Accounts) (hr : Run E s)
    (hf : Shows s.summary f) (hg : Shows s.gas g) (ho : ((Op.sendTransaction tx).run E s).out ≠ .ok ()) :
    Shows ((Op.sendTransaction tx).run E s).final.summary f ∧ Shows ((Op.sendTransaction tx).run E s).final.gas g ∧
    (((Op.sendTransaction tx).run E s).final = s ∧ ((Op.sendTransaction tx).run E s).trace = [] ∨
      2 ^ 256 ≤ f tx.receiver.val + tx.amount.val ∧ ((Op.sendTransaction tx).run E s).out = .panic .overflow) ∧
    (∀ n, Spec.Total f n → n < 2 ^ 256 → ((Op.sendTransaction tx).run E s).final = s) := by
  have hi := run_storeInv hr
  rw [send_op] at ho ⊢
  rcases sendTransaction_cases E s tx hi.summary.1 hi.gas.1 with ⟨l, fee, h, ha, h1, _⟩ | ⟨l, fee, ha, h1, h2, e⟩ | ⟨hn, o, _, e⟩
  · exact absurd h1 ho
  · have e1 := shows_eq hf
    subst e1
    have hsz : (2 : Nat) ^ 256 = U256.size := rfl
    rw [e, hsz]
    refine ⟨hf, hg, .inr ⟨by simp only; omega, rfl⟩, fun n hn hlt => ?_⟩
    rw [total_iff hi.summary.1 hf] at hn
    have hne : tx.sender.val ≠ tx.receiver.val := fun e => h1 (Subtype.ext e)
    have h3 := KV.amt_add_le_supply s.summary.cur hne
    have h4 := ha.coins
    omega
  · rw [e]
    exact ⟨hf, hg, .inl ⟨rfl, rfl⟩, fun _ _ _ => rfl⟩

/-- C54 is false of the code: whenever the receiver's balance would overflow, the call panics after the transaction
has been stored. -/
theorem C54_refuted :
    (∀ (E : Env) (s : Tree) (tx : Transaction) (f g : Spec.Accounts), Run E s → Shows s.summary f → Shows s.gas g →
      Affordable s f g tx → tx.sender ≠ tx.receiver → 2 ^ 256 ≤ f tx.receiver.val + tx.amount.val →
      ((Op.sendTransaction tx).run E s).out = .panic .overflow ∧
      ((Op.sendTransaction tx).run E s).final.main.getTransactionRaw (E.sha256 tx.dump) = some tx.dump) ∧
    ¬ C54_full := by
  have key : ∀ (E : Env) (s : Tree) (tx : Transaction) (f g : Spec.Accounts), Run E s → Shows s.summary f →
      Shows s.gas g → Affordable s f g tx → tx.sender ≠ tx.receiver → 2 ^ 256 ≤ f tx.receiver.val + tx.amount.val →
      ((Op.sendTransaction tx).run E s).out = .panic .overflow ∧
      ((Op.sendTransaction tx).run E s).final.main.getTransactionRaw (E.sha256 tx.dump) = some tx.dump := by
    intro E s tx f g hr hf hg ha hne hov
    have hi := run_storeInv hr
    have hA := (affordable_iff (tx := tx) hf hg).mp ha
    have e1 := shows_eq hf
    subst e1
    rw [send_op]
    rcases sendTransaction_cases E s tx hi.summary.1 hi.gas.1 with ⟨_, _, h, _⟩ | ⟨_, _, _, _, _, e⟩ | ⟨hn, _⟩
    · rcases h with h | h
      · exact absurd h hne
      · exact absurd h (Nat.not_lt.mpr hov)
    · rw [e]
      exact ⟨rfl, by simp [MainChain.getTransactionRaw, Tree.withTx]⟩
    · exact absurd hA hn
  refine ⟨key, fun h => ?_⟩
  obtain ⟨s, h1, h2, h3, h4, l, h5, h6⟩ := funded idEnv ⟨2 ^ 256 - 1, by decide⟩
  obtain ⟨k1, k2⟩ := key idEnv s exTx _ _ h1 h2 h3 (funded_affordable _ h5 h6 exTx rfl rfl (by decide)) exTx_ne
    (by rw [funded_receiver]; exact (by decide : 2 ^ 256 ≤ 2 ^ 256 - 1 + 1000))
  have := (h idEnv s exTx _ _ h1 h2 h3 (by rw [k1]; simp)).2.2 (idEnv.sha256 exTx.dump)
  rw [k2, h4] at this
  cases this

/-! ## C55 -/

/-- C55 at full strength: after a transaction has been sent, sending it again moves nothing. -/
def C55_full : Prop := ∀ (E : Env) (s : Tree) (tx : Transaction) (f : Spec.Accounts), Run E s →
  ((Op.sendTransaction tx).run E s).out = .ok () → Shows ((Op.sendTransaction tx).run E s).final.summary f →
  Shows ((Op.sendTransaction tx).run E ((Op.sendTransaction tx).run E s).final).final.summary f

/-- C55, what holds: the second call leaves the set of stored transactions as it is. Missing: the coins (they move
again, `C55_refuted`). -/
theorem C55_store_once_partial (E : Env) (s : Tree) (tx : Transaction) (hr : Run E s)
    (h1 : ((Op.sendTransaction tx).run E s).out = .ok ()) (h : Hash) :
    ((Op.sendTransaction tx).run E ((Op.sendTransaction tx).run E s).final).final.main.getTransactionRaw h =
      ((Op.sendTransaction tx).run E s).final.main.getTransactionRaw h := by
  have hr' : Run E ((Op.sendTransaction tx).run E s).final := .call _ _ hr trivial
  have hi := run_storeInv hr
  have hi' := run_storeInv hr'
  obtain ⟨s1, e1, hraw, _⟩ := (C52_effect E s tx _ _ hr (shows_amt hi.summary.1) (shows_amt hi.gas.1)).1 h1
  rw [e1] at hr' hi' ⊢
  rw [send_op]
  have hw : (s1.withTx E tx).main.getTransactionRaw h = s1.main.getTransactionRaw h := by
    simp only [MainChain.getTransactionRaw, Tree.withTx, Db.get_insert]
    split
    · rename_i e; rw [← e]; exact hraw.symm
    · rfl
  rcases sendTransaction_cases E s1 tx hi'.summary.1 hi'.gas.1 with ⟨_, _, _, _, _, e, _⟩ | ⟨_, _, _, _, _, e⟩ | ⟨_, _, _, e⟩
  · rw [e]; exact hw
  · rw [e]; exact hw
  · rw [e]

/-- C55 is false of the code: whenever the sender can still afford it, the second call moves the coins again. -/
theorem C55_refuted :
    (∀ (E : Env) (s : Tree) (tx : Transaction) (f : Spec.Accounts), Run E s → Shows s.summary f →
      tx.sender ≠ tx.receiver → ((Op.sendTransaction tx).run E s).out = .ok () →
      ((Op.sendTransaction tx).run E ((Op.sendTransaction tx).run E s).final).out = .ok () →
      Shows ((Op.sendTransaction tx).run E ((Op.sendTransaction tx).run E s).final).final.summary
        ((f.update tx.sender.val (f tx.sender.val - 2 * tx.amount.val)).update tx.receiver.val
          (f tx.receiver.val + 2 * tx.amount.val))) ∧
    ¬ C55_full := by
  have key : ∀ (E : Env) (s : Tree) (tx : Transaction) (f : Spec.Accounts), Run E s → Shows s.summary f →
      tx.sender ≠ tx.receiver → ((Op.sendTransaction tx).run E s).out = .ok () →
      ((Op.sendTransaction tx).run E ((Op.sendTransaction tx).run E s).final).out = .ok () →
      Shows ((Op.sendTransaction tx).run E ((Op.sendTransaction tx).run E s).final).final.summary
        ((f.update tx.sender.val (f tx.sender.val - 2 * tx.amount.val)).update tx.receiver.val
          (f tx.receiver.val + 2 * tx.amount.val)) := by
    intro E s tx f hr hf hne h1 h2
    have hv : tx.sender.val ≠ tx.receiver.val := fun e => hne (Subtype.ext e)
    have hi := run_storeInv hr
    obtain ⟨s1, e1, _, _, c1, g1, _⟩ := (C52_effect E s tx _ _ hr hf (shows_amt hi.gas.1)).1 h1
    have hr' : Run E s1 := e1 ▸ .call _ _ hr trivial
    rw [e1] at h2 ⊢
    obtain ⟨s2, e2, _, _, c2, _⟩ := (C52_effect E s1 tx _ _ hr' c1 g1).1 h2
    rw [e2]
    rw [if_neg hne, if_neg hne] at c2
    have : ∀ x y : Spec.Accounts, (∀ k, x k = y k) → Shows s2.summary x → Shows s2.summary y :=
      fun x y h hx => (funext h : x = y) ▸ hx
    refine this _ _ (fun k => ?_) c2
    simp only [Spec.Accounts.update]
    by_cases k1 : k = tx.receiver.val
    · subst k1; simp only [if_pos]; omega
    · simp only [if_neg k1]
      by_cases k2 : k = tx.sender.val
      · subst k2; simp only [if_pos, if_neg hv]; omega
      · simp only [if_neg k2]
  refine ⟨key, fun h => ?_⟩
  obtain ⟨s, h1, h2, h3, h4, l, h5, h6⟩ := funded idEnv U256.zero
  have hz : U256.zero.val = 0 := rfl
  have ha : exTx.amount.val = 1000 := rfl
  have ok1 : ((Op.sendTransaction exTx).run idEnv s).out = .ok () :=
    (C53_admission idEnv s exTx _ _ h1 h2 h3).mpr ⟨funded_affordable _ h5 h6 exTx rfl rfl (by decide), .inr (by
      rw [funded_receiver]; decide)⟩
  obtain ⟨s1, e1, _, _, c1, g1, _, _, cc, _⟩ := (C52_effect idEnv s exTx _ _ h1 h2 h3).1 ok1
  have hr1 : Run idEnv s1 := e1 ▸ .call _ _ h1 trivial
  have hlast : s1.main.getLastBlock = s.main.getLastBlock := by unfold MainChain.getLastBlock MainChain.getLastRawBlock MainChain.findRawByHeight; rw [cc]
  rw [if_neg exTx_ne] at c1
  have hv : exTx.sender.val ≠ exTx.receiver.val := fun e => exTx_ne (Subtype.ext e)
  have ok2 : ((Op.sendTransaction exTx).run idEnv s1).out = .ok () := by
    refine (C53_admission idEnv s1 exTx _ _ hr1 c1 g1).mpr ⟨⟨l, _, by rw [hlast]; exact h5, h6, ?_, ?_⟩, .inr ?_⟩
    · simp only [Spec.Accounts.update, if_pos]
      rw [funded_gas]; decide +kernel
    · simp only [Spec.Accounts.update, if_pos, if_neg hv]
      rw [funded_sender]; decide
    · simp only [Spec.Accounts.update, if_pos]
      rw [funded_receiver]; decide
  have hfull := h idEnv s exTx _ h1 ok1 (by rw [e1]; exact c1)
  have hkey := key idEnv s exTx _ h1 h2 exTx_ne ok1 (by rw [e1]; exact ok2)
  obtain ⟨a, a1, a2⟩ := hfull exTx.receiver.val
  obtain ⟨b, b1, b2⟩ := hkey exTx.receiver.val
  rw [a1] at b1
  cases b1
  rw [a2] at b2
  simp only [Spec.Accounts.update, if_pos, funded_receiver] at b2
  omega

/-! ## C56 -/

/-- C56 at full strength. -/
def C56_full : Prop := ∀ (E : Env) (S : SigScheme) (s : Tree) (tx : Transaction) (f : Spec.Accounts), Run E s →
  tx.verify E S ≠ .ok true → Shows s.summary f → Shows ((Op.sendTransaction tx).run E s).final.summary f

/-- C56, what holds: whoever calls, only the account named as sender can lose coins, at most the amount and only on
success. Missing: that the account's owner agreed. -/
theorem C56_only_sender_pays_partial (E : Env) (s : Tree) (tx : Transaction) (f f' : Spec.Accounts) (hr : Run E s)
    (hf : Shows s.summary f) (hf' : Shows ((Op.sendTransaction tx).run E s).final.summary f') (q : Bytes) :
    (f' q < f q → q = tx.sender.val ∧ f q = f' q + tx.amount.val ∧ ((Op.sendTransaction tx).run E s).out = .ok ()) := by
  intro hlt
  have hi := run_storeInv hr
  by_cases ho : ((Op.sendTransaction tx).run E s).out = .ok ()
  · obtain ⟨s1, e1, _, _, c1, _, ha, _⟩ := (C52_effect E s tx _ _ hr hf (shows_amt hi.gas.1)).1 ho
    rw [e1] at hf'
    have : f' = _ := (shows_eq hf').trans (shows_eq c1).symm
    subst this
    split at hlt
    · omega
    · rename_i hne
      rw [if_neg hne]
      simp only [Spec.Accounts.update] at hlt ⊢
      split at hlt
      · rename_i hq; subst hq; omega
      · rename_i hq
        split at hlt
        · rename_i hq'
          rw [if_neg hq, if_pos hq']
          subst hq'
          exact ⟨rfl, by omega, ho⟩
        · omega
  · obtain ⟨c1, _⟩ := C54_all_or_nothing_partial E s tx f _ hr hf (shows_amt hi.gas.1) ho
    have : f' = f := (shows_eq hf').trans (shows_eq c1).symm
    subst this
    omega

/-- The checks of `send_transaction` with what follows them left open. -/
def admit (sender : Address) (amount : U256) (size : Nat) (k : U256 → Act Tree Unit) : Act Tree Unit := do
  let t ← Act.get
  let senderGas ← Act.lift (t.getGas sender)
  let senderAmount ← Act.lift (t.getAmount sender)
  let gasRequired ← Act.lift (BYTE_GAS_PRICE.mulNat size)
  if senderGas.val < gasRequired.val then Act.lift (.err .treeNewTransaction)
  else do
    let last ← Act.lift t.main.getLastBlock
    let lastBlock ← Act.lift (Outcome.ofOption last)
    let fee ← Act.lift (recalculateFee lastBlock.info.difficulty)
    let needed ← Act.lift (fee.add amount)
    if senderAmount.val < needed.val then Act.lift (.err .treeNewTransaction)
    else k gasRequired

theorem send_admit (E : Env) (tx : Transaction) :
    Tree.sendTransaction E tx = admit tx.sender tx.amount tx.getDumpSize (Tree.sendChecked E tx) := rfl

theorem admit_cases (sender : Address) (amount : U256) (size : Nat) (s : Tree) :
    (∃ g, ∀ k, admit sender amount size k s = k g s) ∨
    (∃ r : Res Tree Unit, r.final = s ∧ ∀ k, admit sender amount size k s = r) := by
  unfold admit
  simp only [Act.get_bind]
  cases s.getGas sender with
  | err e => exact .inr ⟨⟨.err e, s, []⟩, rfl, fun k => by simp⟩
  | panic e => exact .inr ⟨⟨.panic e, s, []⟩, rfl, fun k => by simp⟩
  | ub => exact .inr ⟨⟨.ub, s, []⟩, rfl, fun k => by simp⟩
  | ok gas =>
  cases s.getAmount sender with
  | err e => exact .inr ⟨⟨.err e, s, []⟩, rfl, fun k => by simp⟩
  | panic e => exact .inr ⟨⟨.panic e, s, []⟩, rfl, fun k => by simp⟩
  | ub => exact .inr ⟨⟨.ub, s, []⟩, rfl, fun k => by simp⟩
  | ok coins =>
  cases BYTE_GAS_PRICE.mulNat size with
  | err e => exact .inr ⟨⟨.err e, s, []⟩, rfl, fun k => by simp⟩
  | panic e => exact .inr ⟨⟨.panic e, s, []⟩, rfl, fun k => by simp⟩
  | ub => exact .inr ⟨⟨.ub, s, []⟩, rfl, fun k => by simp⟩
  | ok g =>
  simp only [Act.lift_ok_bind]
  by_cases h1 : gas.val < g.val
  · simp only [if_pos h1]
    exact .inr ⟨_, rfl, fun k => rfl⟩
  simp only [if_neg h1]
  cases s.main.getLastBlock with
  | err e => exact .inr ⟨⟨.err e, s, []⟩, rfl, fun k => by simp⟩
  | panic e => exact .inr ⟨⟨.panic e, s, []⟩, rfl, fun k => by simp⟩
  | ub => exact .inr ⟨⟨.ub, s, []⟩, rfl, fun k => by simp⟩
  | ok last =>
  simp only [Act.lift_ok_bind]
  cases Outcome.ofOption last with
  | err e => exact .inr ⟨⟨.err e, s, []⟩, rfl, fun k => by simp⟩
  | panic e => exact .inr ⟨⟨.panic e, s, []⟩, rfl, fun k => by simp⟩
  | ub => exact .inr ⟨⟨.ub, s, []⟩, rfl, fun k => by simp⟩
  | ok l =>
  simp only [Act.lift_ok_bind]
  cases recalculateFee l.info.difficulty with
  | err e => exact .inr ⟨⟨.err e, s, []⟩, rfl, fun k => by simp⟩
  | panic e => exact .inr ⟨⟨.panic e, s, []⟩, rfl, fun k => by simp⟩
  | ub => exact .inr ⟨⟨.ub, s, []⟩, rfl, fun k => by simp⟩
  | ok fee =>
  simp only [Act.lift_ok_bind]
  cases fee.add amount with
  | err e => exact .inr ⟨⟨.err e, s, []⟩, rfl, fun k => by simp⟩
  | panic e => exact .inr ⟨⟨.panic e, s, []⟩, rfl, fun k => by simp⟩
  | ub => exact .inr ⟨⟨.ub, s, []⟩, rfl, fun k => by simp⟩
  | ok needed =>
  simp only [Act.lift_ok_bind]
  by_cases h2 : coins.val < needed.val
  · simp only [if_pos h2]
    exact .inr ⟨_, rfl, fun k => rfl⟩
  · simp only [if_neg h2]
    exact .inl ⟨g, fun k => rfl⟩

/-- C56 is false of the code: `send_transaction` does not look at the signature at all. With any other signature
the outcome and all balances are the same, and a transaction that fails verification moves coins. -/
theorem C56_refuted :
    (∀ (E : Env) (s : Tree) (tx : Transaction) (sig : Signature) (h : Hash), Run E s →
      let tx' := { tx with signature := sig, hash := h }
      ((Op.sendTransaction tx').run E s).out = ((Op.sendTransaction tx).run E s).out ∧
      ((Op.sendTransaction tx').run E s).final.summary = ((Op.sendTransaction tx).run E s).final.summary ∧
      ((Op.sendTransaction tx').run E s).final.gas = ((Op.sendTransaction tx).run E s).final.gas) ∧
    ¬ C56_full := by
  refine ⟨?_, ?_⟩
  · intro E s tx sig h hr tx'
    have hi := run_storeInv hr
    rw [send_op, send_op]
    rcases admit_cases tx.sender tx.amount tx.getDumpSize s with ⟨g, hk⟩ | ⟨r, _, hk⟩
    · have e1 : Tree.sendTransaction E tx s = Tree.sendChecked E tx g s := hk _
      have e2 : Tree.sendTransaction E tx' s = Tree.sendChecked E tx' g s := hk _
      rcases sendTransaction_cases E s tx hi.summary.1 hi.gas.1 with
        ⟨l, fee, h, ha, o1, f1, _⟩ | ⟨l, fee, ha, hne, hov, f1⟩ | ⟨hn, o1, ho1, f1⟩ <;>
      rcases sendTransaction_cases E s tx' hi.summary.1 hi.gas.1 with
        ⟨l', fee', h', ha', o1', f1', _⟩ | ⟨l', fee', ha', hne', hov', f1'⟩ | ⟨hn', o1', ho1', f1'⟩
      · exact ⟨by rw [o1, o1'], by rw [f1, f1']; rfl, by rw [f1, f1']; rfl⟩
      · rcases h with h | h
        · exact absurd h hne'
        · exact absurd h hov'
      · exact absurd ⟨l, fee, ha.gas, ha.isLast, ha.isFee, ha.coins⟩ hn'
      · rcases h' with h | h
        · exact absurd h hne
        · exact absurd h hov
      · rw [f1, f1']; exact ⟨rfl, rfl, rfl⟩
      · exact absurd ⟨l, fee, ha.gas, ha.isLast, ha.isFee, ha.coins⟩ hn'
      · exact absurd ⟨l', fee', ha'.gas, ha'.isLast, ha'.isFee, ha'.coins⟩ hn
      · exact absurd ⟨l', fee', ha'.gas, ha'.isLast, ha'.isFee, ha'.coins⟩ hn
      · exfalso
        have : ((Tree.sendChecked E tx g) s).trace ≠ [] := by
          unfold Tree.sendChecked
          rw [Act.bind_ok (addTx_run E s tx)]
          simp
        rw [← e1, f1] at this
        exact this rfl
    · have e1 : Tree.sendTransaction E tx s = r := hk _
      have e2 : Tree.sendTransaction E tx' s = r := hk _
      rw [e1, e2]; exact ⟨rfl, rfl, rfl⟩
  · intro h
    obtain ⟨s, h1, h2, h3, h4, l, h5, h6⟩ := funded idEnv U256.zero
    have ok1 : ((Op.sendTransaction exTx).run idEnv s).out = .ok () :=
      (C53_admission idEnv s exTx _ _ h1 h2 h3).mpr ⟨funded_affordable _ h5 h6 exTx rfl rfl (by decide), .inr (by
        rw [funded_receiver]; decide)⟩
    obtain ⟨s1, e1, _, _, c1, _⟩ := (C52_effect idEnv s exTx _ _ h1 h2 h3).1 ok1
    have := h idEnv ⟨fun _ => false, fun _ => false, fun _ => false, fun _ _ => BytesN.fill 64 0, fun _ _ _ => false⟩
      s exTx _ h1 (by simp [Transaction.verify]) h2
    rw [e1] at this
    have e := (shows_eq this).trans (shows_eq c1).symm
    have := congrFun e exTx.receiver.val
    rw [if_neg exTx_ne, funded_receiver] at this
    simp only [Spec.Accounts.update, if_pos, funded_receiver] at this
    revert this; decide

/-! ## C57 -/

/-- C57 at full strength. -/
def C57_full : Prop := ∀ (E : Env) (s : Tree) (tx : Transaction) (g g' : Spec.Accounts), Run E s → Shows s.gas g →
  ((Op.sendTransaction tx).run E s).out = .ok () → Shows ((Op.sendTransaction tx).run E s).final.gas g' →
  g tx.sender.val = g' tx.sender.val + 625000000000 * tx.dump.length

/-- C57, exact: a transaction of amount zero is charged for one byte too many, every other one exactly. -/
theorem C57_gas_charged_partial (E : Env) (s : Tree) (tx : Transaction) (g g' : Spec.Accounts) (hr : Run E s)
    (hg : Shows s.gas g) (hok : ((Op.sendTransaction tx).run E s).out = .ok ())
    (hg' : Shows ((Op.sendTransaction tx).run E s).final.gas g') :
    g tx.sender.val = g' tx.sender.val + 625000000000 * (tx.dump.length + if tx.amount.val = 0 then 1 else 0) := by
  have hi := run_storeInv hr
  obtain ⟨s1, e1, _, _, _, c1, _, hle, _⟩ := (C52_effect E s tx _ _ hr (shows_amt hi.summary.1) hg).1 hok
  rw [e1] at hg'
  have : g' = _ := (shows_eq hg').trans (shows_eq c1).symm
  subst this
  have hs : tx.getDumpSize = tx.dump.length + zeroErr tx.amount := C03_dump_sizes_partial.2.2.2.2 tx
  simp only [Spec.Accounts.update, if_pos]
  unfold zeroErr at hs
  rw [← hs]
  omega

/-- C57 is false of the code, for every transaction of amount zero that is accepted. -/
theorem C57_refuted :
    (∀ (E : Env) (s : Tree) (tx : Transaction) (g g' : Spec.Accounts), Run E s → Shows s.gas g → tx.amount.val = 0 →
      ((Op.sendTransaction tx).run E s).out = .ok () → Shows ((Op.sendTransaction tx).run E s).final.gas g' →
      g tx.sender.val ≠ g' tx.sender.val + 625000000000 * tx.dump.length) ∧ ¬ C57_full := by
  have key : ∀ (E : Env) (s : Tree) (tx : Transaction) (g g' : Spec.Accounts), Run E s → Shows s.gas g →
      tx.amount.val = 0 → ((Op.sendTransaction tx).run E s).out = .ok () →
      Shows ((Op.sendTransaction tx).run E s).final.gas g' →
      g tx.sender.val ≠ g' tx.sender.val + 625000000000 * tx.dump.length := by
    intro E s tx g g' hr hg hz hok hg'
    have := C57_gas_charged_partial E s tx g g' hr hg hok hg'
    rw [if_pos hz] at this
    omega
  refine ⟨key, fun h => ?_⟩
  obtain ⟨s, h1, h2, h3, h4, l, h5, h6⟩ := funded idEnv U256.zero
  let tx : Transaction := { exTx with amount := U256.zero }
  have ok1 : ((Op.sendTransaction tx).run idEnv s).out = .ok () :=
    (C53_admission idEnv s tx _ _ h1 h2 h3).mpr ⟨funded_affordable _ h5 h6 tx rfl rfl (by decide), .inr (by
      rw [show tx.receiver = exTx.receiver from rfl, funded_receiver]; decide)⟩
  obtain ⟨s1, e1, _, _, _, c1, _⟩ := (C52_effect idEnv s tx _ _ h1 h2 h3).1 ok1
  exact key idEnv s tx _ _ h1 h3 rfl ok1 (e1 ▸ c1) (h idEnv s tx _ _ h1 h3 ok1 (e1 ▸ c1))

end BCT.Props
