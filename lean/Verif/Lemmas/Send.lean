import Verif.Lemmas.Ledger
/-!
# What `send_transaction` does
-/

namespace BCT

/-- A call made of calls of the three kinds `send_transaction` makes. -/
theorem Act.Closed.sendTransaction {E : Env} {S : ∀ {α : Type}, Act Tree α → Prop} (C : Act.Closed S)
    (h1 : ∀ t, S (Tree.onMain (MainChain.addTransaction E t)))
    (h2 : ∀ s t a, s ≠ t → S (Tree.onSummary (Ledger.transfer s t a)))
    (h3 : ∀ o a, S (Tree.onGas (Ledger.sub o a))) (tx : Transaction) : S (Tree.sendTransaction E tx) := by
  unfold Tree.sendTransaction
  refine C.bind C.get fun t => C.bind (C.lift _) fun g => C.bind (C.lift _) fun a => C.bind (C.lift _) fun r => ?_
  split
  · exact C.lift _
  · refine C.bind (C.lift _) fun _ => C.bind (C.lift _) fun _ => C.bind (C.lift _) fun _ => C.bind (C.lift _) fun _ => ?_
    split
    · exact C.lift _
    · refine C.bind (h1 _) fun _ => C.bind ?_ fun _ => h3 _ _
      unfold Tree.sendAmount
      split
      · exact C.pure ()
      · rename_i h; exact h2 _ _ _ h

/-- The node with the transaction stored. -/
def Tree.withTx (E : Env) (s : Tree) (tx : Transaction) : Tree :=
  { s with main := { s.main with transactions := s.main.transactions.insert (E.sha256 tx.dump).val tx.dump } }

/-- The coin database after the transfer of a transaction. -/
def paid (d : Db) (tx : Transaction)
    (h : tx.sender = tx.receiver ∨ (d.cur.amt tx.receiver.val).val + tx.amount.val < U256.size) : Db :=
  if hs : tx.sender = tx.receiver then d
  else d.commit (fun _ => Ledger.moved d.cur tx.sender.val tx.receiver.val tx.amount (h.resolve_left hs))

/-- The gas a transaction costs. -/
def gasCost (tx : Transaction) : Nat := BYTE_GAS_PRICE.val * tx.getDumpSize

/-- The gas database after a transaction is charged. -/
def charged (d : Db) (tx : Transaction) : Db :=
  d.insert tx.sender.val
    (Ledger.encode ⟨(d.cur.amt tx.sender.val).val - gasCost tx, Nat.lt_of_le_of_lt (Nat.sub_le _ _) (U256.lt _)⟩)

/-- The node after a successful `send_transaction`. -/
def Tree.sent (E : Env) (s : Tree) (tx : Transaction)
    (h : tx.sender = tx.receiver ∨ (s.summary.cur.amt tx.receiver.val).val + tx.amount.val < U256.size) : Tree :=
  { s.withTx E tx with summary := paid s.summary tx h, gas := charged s.gas tx }

/-- The conditions under which `send_transaction` goes ahead. -/
structure Admitted (s : Tree) (tx : Transaction) (last : Block) (fee : U256) : Prop where
  gas : gasCost tx ≤ (s.gas.cur.amt tx.sender.val).val
  isLast : s.main.getLastBlock = .ok (some last)
  isFee : recalculateFee last.info.difficulty = .ok fee
  coins : fee.val + tx.amount.val ≤ (s.summary.cur.amt tx.sender.val).val

/-- `send_transaction` with the checks passed. -/
def Tree.sendChecked (E : Env) (tx : Transaction) (gasRequired : U256) : Act Tree Unit := do
  Tree.onMain (MainChain.addTransaction E tx)
  Tree.sendAmount tx.sender.val tx.receiver.val tx.amount
  Tree.subGas tx.sender.val gasRequired

/-- The checks of `send_transaction`. -/
theorem sendTransaction_checks (E : Env) (s : Tree) (tx : Transaction) (hc : s.summary.cur.Dec) (hg : s.gas.cur.Dec) :
    (∃ last fee, Admitted s tx last fee ∧ ∃ hmul : gasCost tx < U256.size,
      Tree.sendTransaction E tx s = Tree.sendChecked E tx ⟨gasCost tx, hmul⟩ s) ∨
    ((¬ ∃ last fee, Admitted s tx last fee) ∧ ∃ out, (∀ u, out ≠ .ok u) ∧
      Tree.sendTransaction E tx s = ⟨out, s, []⟩) := by
  have hgas : s.getGas tx.sender = .ok (s.gas.cur.amt tx.sender.val) := hg.balance _
  have hcoin : s.getAmount tx.sender = .ok (s.summary.cur.amt tx.sender.val) := hc.balance _
  unfold Tree.sendTransaction
  simp only [Act.get_bind, hgas, hcoin, Act.lift_ok_bind]
  by_cases hmul : ¬ gasCost tx < U256.size
  · right
    have : BYTE_GAS_PRICE.mulNat tx.getDumpSize = .panic .overflow := by
      unfold U256.mulNat; rw [dif_neg]; exact hmul
    rw [this]
    refine ⟨?_, .panic .overflow, by simp, by simp⟩
    rintro ⟨last, fee, h⟩
    have := h.gas
    have := (s.gas.cur.amt tx.sender.val).lt
    omega
  have hmul' : gasCost tx < U256.size := by omega
  have hm : BYTE_GAS_PRICE.mulNat tx.getDumpSize = .ok ⟨gasCost tx, hmul'⟩ := by
    unfold U256.mulNat; rw [dif_pos (show BYTE_GAS_PRICE.val * tx.getDumpSize < U256.size from hmul')]; rfl
  simp only [hm, Act.lift_ok_bind]
  by_cases hlt : (s.gas.cur.amt tx.sender.val).val < gasCost tx
  · right
    rw [if_pos hlt]
    refine ⟨?_, _, by simp, rfl⟩
    rintro ⟨last, fee, h⟩
    have := h.gas
    omega
  rw [if_neg hlt]
  cases hl : s.main.getLastBlock with
  | err e => right; exact ⟨(by rintro ⟨_, _, h⟩; have := h.isLast; rw [hl] at this; cases this), .err e, by simp, by simp⟩
  | panic e => right; exact ⟨(by rintro ⟨_, _, h⟩; have := h.isLast; rw [hl] at this; cases this), .panic e, by simp, by simp⟩
  | ub => right; exact ⟨(by rintro ⟨_, _, h⟩; have := h.isLast; rw [hl] at this; cases this), .ub, by simp, by simp⟩
  | ok o =>
    cases o with
    | none =>
      right
      exact ⟨(by rintro ⟨_, _, h⟩; have := h.isLast; rw [hl] at this; cases this), .panic .unwrap, by simp, by simp⟩
    | some last =>
      simp only [Act.lift_ok_bind, Outcome.ofOption_some]
      have hfee : ∀ {l f}, Admitted s tx l f → recalculateFee last.info.difficulty = .ok f := by
        intro l f h
        have h1 := h.isLast; rw [hl] at h1; cases h1; exact h.isFee
      cases hf : recalculateFee last.info.difficulty with
      | err e => right; exact ⟨(by rintro ⟨_, _, h⟩; have := hfee h; rw [hf] at this; cases this), .err e, by simp, by simp⟩
      | panic e => right; exact ⟨(by rintro ⟨_, _, h⟩; have := hfee h; rw [hf] at this; cases this), .panic e, by simp, by simp⟩
      | ub => right; exact ⟨(by rintro ⟨_, _, h⟩; have := hfee h; rw [hf] at this; cases this), .ub, by simp, by simp⟩
      | ok fee =>
        simp only [Act.lift_ok_bind]
        have hadm : (∃ l f, Admitted s tx l f) → fee.val + tx.amount.val ≤ (s.summary.cur.amt tx.sender.val).val := by
          rintro ⟨_, _, h⟩
          have := hfee h; rw [hf] at this; cases this; exact h.coins
        by_cases hadd : fee.val + tx.amount.val < U256.size
        · have : fee.add tx.amount = .ok ⟨_, hadd⟩ := by unfold U256.add; rw [dif_pos hadd]
          simp only [this, Act.lift_ok_bind]
          by_cases hcl : (s.summary.cur.amt tx.sender.val).val < fee.val + tx.amount.val
          · right
            rw [if_pos hcl]
            exact ⟨fun h => by have := hadm h; omega, _, by simp, rfl⟩
          · left
            rw [if_neg hcl]
            exact ⟨last, fee, ⟨by omega, hl, hf, by omega⟩, hmul', rfl⟩
        · right
          have : fee.add tx.amount = .panic .overflow := by unfold U256.add; rw [dif_neg hadd]
          rw [this]
          refine ⟨fun h => ?_, .panic .overflow, by simp, by simp⟩
          have := hadm h
          have := (s.summary.cur.amt tx.sender.val).lt
          omega

theorem addTx_run (E : Env) (s : Tree) (tx : Transaction) :
    Tree.onMain (MainChain.addTransaction E tx) s = ⟨.ok (), s.withTx E tx, [s.withTx E tx]⟩ := rfl

/-- The effects of `send_transaction` with the checks passed. -/
theorem sendChecked_run (E : Env) (s : Tree) (tx : Transaction) (hc : s.summary.cur.Dec) (hg : s.gas.cur.Dec)
    (hmul : gasCost tx < U256.size) (hgas : gasCost tx ≤ (s.gas.cur.amt tx.sender.val).val)
    (hcoins : tx.amount.val ≤ (s.summary.cur.amt tx.sender.val).val) :
    (∃ h, (Tree.sendChecked E tx ⟨gasCost tx, hmul⟩ s).out = .ok () ∧
      (Tree.sendChecked E tx ⟨gasCost tx, hmul⟩ s).final = s.sent E tx h ∧
      (Tree.sendChecked E tx ⟨gasCost tx, hmul⟩ s).trace =
        if tx.sender = tx.receiver then [s.withTx E tx, s.sent E tx h]
        else [s.withTx E tx, { s.withTx E tx with summary := paid s.summary tx h }, s.sent E tx h]) ∨
    (tx.sender ≠ tx.receiver ∧ ¬ (s.summary.cur.amt tx.receiver.val).val + tx.amount.val < U256.size ∧
      Tree.sendChecked E tx ⟨gasCost tx, hmul⟩ s = ⟨.panic .overflow, s.withTx E tx, [s.withTx E tx]⟩) := by
  unfold Tree.sendChecked
  rw [Act.bind_ok (addTx_run E s tx)]
  have hgsub : ∀ u : Tree, u.gas = s.gas → Tree.subGas tx.sender.val ⟨gasCost tx, hmul⟩ u =
      ⟨.ok (), { u with gas := charged s.gas tx }, [{ u with gas := charged s.gas tx }]⟩ := by
    intro u hu
    unfold Tree.subGas Tree.onGas
    rw [Act.zoom_run]
    simp only [hu]
    rcases Ledger.sub_run hg tx.sender.val ⟨gasCost tx, hmul⟩ with ⟨_, e⟩ | ⟨h, _⟩
    · rw [e]; rfl
    · simp only at h; omega
  by_cases hs : tx.sender = tx.receiver
  · left
    refine ⟨.inl hs, ?_⟩
    have h1 : Tree.sendAmount tx.sender.val tx.receiver.val tx.amount = pure () := by
      unfold Tree.sendAmount; rw [if_pos (by rw [hs])]
    rw [h1, Act.pure_bind', hgsub (s.withTx E tx) rfl]
    have hp : paid s.summary tx (.inl hs) = s.summary := by unfold paid; rw [dif_pos hs]
    refine ⟨rfl, ?_, ?_⟩
    · simp only [Tree.sent, hp]; rfl
    · rw [if_pos hs]; simp only [Tree.sent, hp]; rfl
  · have hne : tx.sender.val ≠ tx.receiver.val := fun e => hs (Subtype.ext e)
    have h1 : Tree.sendAmount tx.sender.val tx.receiver.val tx.amount =
        Tree.onSummary (Ledger.transfer tx.sender.val tx.receiver.val tx.amount) := by
      unfold Tree.sendAmount; rw [if_neg hne]
    rw [h1]
    rcases Ledger.transfer_run hc tx.sender.val tx.receiver.val tx.amount with ⟨_, hlt, e⟩ | ⟨h, _⟩ | ⟨_, hlt, e⟩
    · left
      have e' : Tree.onSummary (Ledger.transfer tx.sender.val tx.receiver.val tx.amount) (s.withTx E tx) =
          ⟨.ok (), { s.withTx E tx with summary := paid s.summary tx (.inr hlt) },
            [{ s.withTx E tx with summary := paid s.summary tx (.inr hlt) }]⟩ := by
        unfold Tree.onSummary
        rw [Act.zoom_run]
        rw [show (s.withTx E tx).summary = s.summary from rfl, e]
        unfold paid
        rw [dif_neg hs]
        rfl
      refine ⟨.inr hlt, ?_⟩
      rw [Act.bind_ok e', hgsub { s.withTx E tx with summary := paid s.summary tx (.inr hlt) } rfl]
      refine ⟨rfl, rfl, ?_⟩
      rw [if_neg hs]; rfl
    · omega
    · right
      refine ⟨hs, hlt, ?_⟩
      have e' : Tree.onSummary (Ledger.transfer tx.sender.val tx.receiver.val tx.amount) (s.withTx E tx) =
          ⟨.panic .overflow, s.withTx E tx, []⟩ := by
        unfold Tree.onSummary
        rw [Act.zoom_run]
        rw [show (s.withTx E tx).summary = s.summary from rfl, e]
        rfl
      rw [Act.bind_panic e']
      rfl

theorem sendTransaction_cases (E : Env) (s : Tree) (tx : Transaction) (hc : s.summary.cur.Dec) (hg : s.gas.cur.Dec) :
    (∃ last fee h, Admitted s tx last fee ∧ (Tree.sendTransaction E tx s).out = .ok () ∧
      (Tree.sendTransaction E tx s).final = s.sent E tx h ∧
      (Tree.sendTransaction E tx s).trace =
        if tx.sender = tx.receiver then [s.withTx E tx, s.sent E tx h]
        else [s.withTx E tx, { s.withTx E tx with summary := paid s.summary tx h }, s.sent E tx h]) ∨
    (∃ last fee, Admitted s tx last fee ∧ tx.sender ≠ tx.receiver ∧
      ¬ (s.summary.cur.amt tx.receiver.val).val + tx.amount.val < U256.size ∧
      Tree.sendTransaction E tx s = ⟨.panic .overflow, s.withTx E tx, [s.withTx E tx]⟩) ∨
    ((¬ ∃ last fee, Admitted s tx last fee) ∧ ∃ out, (∀ u, out ≠ .ok u) ∧
      Tree.sendTransaction E tx s = ⟨out, s, []⟩) := by
  rcases sendTransaction_checks E s tx hc hg with ⟨last, fee, ha, hmul, e⟩ | h
  · rw [e]
    rcases sendChecked_run E s tx hc hg hmul ha.gas (by have := ha.coins; omega) with ⟨h, h1, h2, h3⟩ | ⟨h1, h2, h3⟩
    · exact .inl ⟨last, fee, h, ha, h1, h2, h3⟩
    · exact .inr (.inl ⟨last, fee, ha, h1, h2, h3⟩)
  · exact .inr (.inr h)

theorem paid_amt (d : Db) (tx : Transaction) (h) (q : Bytes)
    (_ : tx.amount.val ≤ (d.cur.amt tx.sender.val).val) :
    ((paid d tx h).cur.amt q).val =
      if tx.sender = tx.receiver then (d.cur.amt q).val
      else if q = tx.sender.val then (d.cur.amt q).val - tx.amount.val
      else if q = tx.receiver.val then (d.cur.amt q).val + tx.amount.val
      else (d.cur.amt q).val := by
  unfold paid
  by_cases hs : tx.sender = tx.receiver
  · rw [dif_pos hs, if_pos hs]
  · rw [dif_neg hs, if_neg hs]
    have hne : tx.sender.val ≠ tx.receiver.val := fun e => hs (Subtype.ext e)
    change ((Ledger.moved _ _ _ _ _).amt q).val = _
    rw [Ledger.moved_amt _ hne]
    by_cases h1 : q = tx.sender.val
    · subst h1; simp
    · rw [if_neg h1, if_neg h1]
      by_cases h2 : q = tx.receiver.val
      · subst h2; simp
      · rw [if_neg h2, if_neg h2]

theorem paid_dec {d : Db} (hd : d.cur.Dec) (tx : Transaction) (h) : (paid d tx h).cur.Dec := by
  unfold paid
  split
  · exact hd
  · exact Ledger.moved_dec hd _ _ _ _

theorem paid_supply (d : Db) (tx : Transaction) (h) (ha : tx.amount.val ≤ (d.cur.amt tx.sender.val).val) :
    (paid d tx h).cur.supply = d.cur.supply := by
  unfold paid
  split
  · rfl
  · rename_i hs
    exact Ledger.moved_supply _ (fun e => hs (Subtype.ext e)) _ _ ha

end BCT
