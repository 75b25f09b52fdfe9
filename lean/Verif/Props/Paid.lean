import Verif.Props.Gas
/-!
# C139: stored transactions are paid for with gas
-/

namespace BCT.Props
open BCT

/-- The bytes of all transactions stored. -/
def storedBytes (s : Tree) : Nat := (s.main.transactions.cur.entries.map (fun e => e.2.length)).sum

/-- The calls that store transactions without asking for gas. -/
def StoresFree : Op → Prop
  | .addTransaction _ => True
  | .addTransactions _ => True
  | .addNewBlock _ _ => True
  | _ => False

/-- The gas used up by accepted transactions. -/
def gasForTx : Op → Nat
  | .sendTransaction tx => 625000000000 * tx.getDumpSize
  | _ => 0

/-- The gas granted. -/
def gasGranted : Op → Nat
  | .addGas _ a => a.val
  | _ => 0

/-- C139 at full strength: on a node started empty to which transactions come only through `send_transaction`, and on
which nobody sends gas to themselves, the bytes stored cost the gas that was granted and is no longer there. -/
def C139_full : Prop := ∀ (E : Env) (ops : List Op) (g : Spec.Accounts) (n : Nat), (∀ op ∈ ops, ¬ StoresFree op) →
  (∀ a n, Op.sendGas a a n ∉ ops) → Shows (runAll E (openTree E Disk.empty).final ops).gas g → Spec.Total g n →
  625000000000 * storedBytes (runAll E (openTree E Disk.empty).final ops) + n ≤
    overCalls E gasGranted (openTree E Disk.empty).final ops

theorem bytes_insertSorted (k v : Bytes) (l : List (Bytes × Bytes)) :
    ((insertSorted k v l).map (fun e => e.2.length)).sum ≤ (l.map (fun e => e.2.length)).sum + v.length := by
  induction l with
  | nil => simp [insertSorted]
  | cons e l ih =>
    simp only [insertSorted]
    split
    · simp; omega
    · split <;> simp <;> omega

theorem bytes_insertSorted_new (k v : Bytes) (l : List (Bytes × Bytes)) (h : lookup k l = none) :
    ((insertSorted k v l).map (fun e => e.2.length)).sum = (l.map (fun e => e.2.length)).sum + v.length := by
  induction l with
  | nil => simp [insertSorted]
  | cons e l ih =>
    simp only [lookup] at h
    split at h
    · cases h
    · rename_i hk
      simp only [insertSorted]
      rw [if_neg (fun e => hk e.symm)]
      split
      · simp; omega
      · simp [ih h]; omega

/-- The announced size is never below the real one. -/
theorem size_ge (tx : Transaction) : tx.dump.length ≤ tx.getDumpSize := by
  have := C03_dump_sizes_partial.2.2.2.2 tx
  omega

/-- What a call stores it pays for. -/
theorem paid_step (E : Env) (op : Op) (s : Tree) (hi : StoreInv E s) (hop : ¬ StoresFree op)
    (hc : s.summary.cur.supply < 2 ^ 256) :
    625000000000 * storedBytes (op.run E s).final ≤ 625000000000 * storedBytes s +
      (match (op.run E s).out with | .ok _ => gasForTx op | _ => 0) := by
  by_cases hg : mayChange op .transactions
  · cases op <;> simp only [mayChange, reduceCtorEq, or_false, false_or, StoresFree, not_true] at hg hop
    case sendTransaction tx =>
      rw [send_op]
      have hb : storedBytes (s.withTx E tx) ≤ storedBytes s + tx.dump.length := bytes_insertSorted _ _ _
      rcases sendTransaction_cases E s tx hi.summary.1 hi.gas.1 with ⟨l, fee, h, ha, h1, h2, _⟩ | ⟨l, fee, ha, hne, hov, e⟩ | ⟨_, o, ho, e⟩
      · rw [h1, h2]
        have h3 := size_ge tx
        have h4 : storedBytes (s.sent E tx h) = storedBytes (s.withTx E tx) := rfl
        rw [h4]
        simp only [gasForTx]
        omega
      · have h3 := KV.amt_add_le_supply s.summary.cur (fun e => hne (Subtype.ext e) : tx.sender.val ≠ tx.receiver.val)
        have h4 := ha.coins
        have hsz : (2 : Nat) ^ 256 = U256.size := rfl
        omega
      · rw [e]
        exact Nat.le_add_right _ _
  · have hs : (op.run E s).final.main.transactions.cur = s.main.transactions.cur := (C104_frame E op .transactions hg s).1
    have : storedBytes (op.run E s).final = storedBytes s := by unfold storedBytes; rw [hs]
    rw [this]
    exact Nat.le_add_right _ _

/-- The history never has 2^256 coins or more. -/
def FewCoins (E : Env) (s : Tree) (ops : List Op) : Prop :=
  ∀ pre post f n, ops = pre ++ post → Shows (runAll E s pre).summary f → Spec.Total f n → n < 2 ^ 256

/-- The bytes stored over any history. -/
theorem paid_history (E : Env) (ops : List Op) (hops : ∀ op ∈ ops, ¬ StoresFree op) : ∀ s, StoreInv E s →
    FewCoins E s ops → 625000000000 * storedBytes (runAll E s ops) ≤ 625000000000 * storedBytes s + overCalls E gasForTx s ops := by
  induction ops with
  | nil => exact fun s _ _ => Nat.le_add_right _ _
  | cons op ops ih =>
    intro s hi hc
    have h1 := ih (fun o h => hops o (List.mem_cons_of_mem _ h)) _ ((Op.storeInv E op s).1 hi)
      (fun pre post f n e hf hn => hc (op :: pre) post f n (by rw [e]; rfl) hf hn)
    have h2 := paid_step E op s hi (hops op List.mem_cons_self)
      (hc [] _ _ _ rfl (shows_amt hi.summary.1) (supply_total hi.summary.1 (shows_amt hi.summary.1)))
    have h3 : overCalls E gasForTx s (op :: ops) = (match (op.run E s).out with | .ok _ => gasForTx op | _ => 0) +
      overCalls E gasForTx (op.run E s).final ops := rfl
    rw [h3]
    show 625000000000 * storedBytes (runAll E (op.run E s).final ops) ≤ _
    omega

theorem overCalls_mono (E : Env) {a b : Op → Nat} (h : ∀ op, a op ≤ b op) (ops : List Op) :
    ∀ s, overCalls E a s ops ≤ overCalls E b s ops := by
  induction ops with
  | nil => exact fun _ => Nat.le_refl _
  | cons op ops ih =>
    intro s
    unfold overCalls
    have := ih (op.run E s).final
    have := h op
    split <;> omega

/-- C139, what holds: as long as there are fewer than 2^256 coins, what is stored beyond what was stored before is
paid for by accepted transactions, from any state of a running node; on a node started empty, on which nobody sends
gas to themselves, the bytes stored and the gas left cost no more than was granted. Missing: more coins, when a call may
break off after storing. -/
theorem C139_storage_paid_partial (E : Env) (s : Tree) (ops : List Op) (hr : Run E s)
    (hops : ∀ op ∈ ops, ¬ StoresFree op) (hc : FewCoins E s ops) :
    625000000000 * storedBytes (runAll E s ops) ≤ 625000000000 * storedBytes s + overCalls E gasForTx s ops ∧
    (s = (openTree E Disk.empty).final → (∀ a n, Op.sendGas a a n ∉ ops) → ∀ g n, Shows (runAll E s ops).gas g →
      Spec.Total g n → 625000000000 * storedBytes (runAll E s ops) + n ≤ overCalls E gasGranted s ops) := by
  have h1 := paid_history E ops hops s (run_storeInv hr) hc
  refine ⟨h1, ?_⟩
  rintro rfl hg g n hn ht
  have h2 : storedBytes (openTree E Disk.empty).final = 0 := by rw [(openTree_fresh E).2]; rfl
  have h3 := C123_granted E ops hg g n hn ht
  have h4 := overCalls_mono E (a := gasForTx) (b := gasOut) (fun op => by cases op <;> simp [gasForTx, gasOut]) ops
    (openTree E Disk.empty).final
  have h5 : overCalls E gasGranted (openTree E Disk.empty).final ops =
      n + overCalls E gasOut (openTree E Disk.empty).final ops := by
    rw [h3]
    congr 1
  omega

theorem overCalls_free {E : Env} {f : Op → Nat} {op : Op} (s : Tree) (ops : List Op) (h : f op = 0) :
    overCalls E f s (op :: ops) = overCalls E f (op.run E s).final ops := by
  rw [overCalls]
  split
  · rw [h, Nat.zero_add]
  · rw [Nat.zero_add]

/-- C139 is false of the code: sending an affordable transaction to a receiver whose balance would overflow stores the
transaction, takes no gas, and leaves everything affordable that was. -/
theorem C139_refuted :
    (∀ (E : Env) (s : Tree) (tx : Transaction) (f g : Spec.Accounts), Run E s → Shows s.summary f → Shows s.gas g →
      Affordable s f g tx → tx.sender ≠ tx.receiver → 2 ^ 256 ≤ f tx.receiver.val + tx.amount.val →
      s.main.getTransactionRaw (E.sha256 tx.dump) = none →
      storedBytes ((Op.sendTransaction tx).run E s).final = storedBytes s + tx.dump.length ∧
      Shows ((Op.sendTransaction tx).run E s).final.summary f ∧ Shows ((Op.sendTransaction tx).run E s).final.gas g ∧
      ∀ tx', Affordable s f g tx' → Affordable ((Op.sendTransaction tx).run E s).final f g tx') ∧
    ¬ C139_full := by
  have key : ∀ (E : Env) (s : Tree) (tx : Transaction) (f g : Spec.Accounts), Run E s → Shows s.summary f →
      Shows s.gas g → Affordable s f g tx → tx.sender ≠ tx.receiver → 2 ^ 256 ≤ f tx.receiver.val + tx.amount.val →
      s.main.getTransactionRaw (E.sha256 tx.dump) = none → (∀ u, ((Op.sendTransaction tx).run E s).out ≠ .ok u) ∧
      storedBytes ((Op.sendTransaction tx).run E s).final = storedBytes s + tx.dump.length ∧
      Shows ((Op.sendTransaction tx).run E s).final.summary f ∧ Shows ((Op.sendTransaction tx).run E s).final.gas g ∧
      ∀ tx', Affordable s f g tx' → Affordable ((Op.sendTransaction tx).run E s).final f g tx' := by
    intro E s tx f g hr hf hg ha hne hov hnew
    have hi := run_storeInv hr
    have hA := (affordable_iff (tx := tx) hf hg).mp ha
    have e1 := shows_eq hf
    subst e1
    rw [send_op]
    rcases sendTransaction_cases E s tx hi.summary.1 hi.gas.1 with ⟨_, _, h, _⟩ | ⟨_, _, _, _, _, e⟩ | ⟨hn, _⟩
    · rcases h with h | h
      · exact absurd h hne
      · exact absurd h (Nat.not_lt.mpr hov)
    · rw [e]
      exact ⟨fun _ => nofun, bytes_insertSorted_new _ _ _ hnew, hf, hg, fun _ h => h⟩
    · exact absurd hA hn
  refine ⟨fun E s tx f g h1 h2 h3 h4 h5 h6 h7 => (key E s tx f g h1 h2 h3 h4 h5 h6 h7).2, fun h => ?_⟩
  obtain ⟨h1, h2, h3, h4, l, h5, h6⟩ := funded_run idEnv ⟨2 ^ 256 - 1, by decide⟩
  obtain ⟨k0, k1, _, k3, _⟩ := key idEnv _ exTx _ _ h1 h2 h3 (funded_affordable _ h5 h6 exTx rfl rfl (by decide)) exTx_ne
    (by rw [funded_receiver]; exact (by decide : 2 ^ 256 ≤ 2 ^ 256 - 1 + 1000)) (h4 _)
  have hr : Run idEnv ((Op.sendTransaction exTx).run idEnv (runAll idEnv (openTree idEnv Disk.empty).final
    (fundOps ⟨2 ^ 256 - 1, by decide⟩))).final := .call _ _ h1 trivial
  have ht := supply_total (run_storeInv hr).gas.1 k3
  have a1 := h idEnv (fundOps ⟨2 ^ 256 - 1, by decide⟩ ++ [.sendTransaction exTx]) fundedGas _ (by
    intro op ho
    simp only [fundOps, List.mem_cons, List.mem_append, List.not_mem_nil, or_false] at ho
    rcases ho with (rfl | rfl | rfl) | rfl <;> exact fun h => h) (by
    intro a n ho
    simp [fundOps] at ho) (by unfold runAll; rw [List.foldl_append]; exact k3) ht
  have a2 := C123_granted idEnv (fundOps ⟨2 ^ 256 - 1, by decide⟩ ++ [.sendTransaction exTx]) (by
    intro a n ho
    simp [fundOps] at ho) fundedGas _ (by unfold runAll; rw [List.foldl_append]; exact k3) ht
  have a3 : overCalls idEnv gasOut (openTree idEnv Disk.empty).final (fundOps ⟨2 ^ 256 - 1, by decide⟩ ++
      [.sendTransaction exTx]) = 0 := by
    have e : ∀ s : Tree, (∀ u, ((Op.sendTransaction exTx).run idEnv s).out ≠ .ok u) →
        overCalls idEnv gasOut s [.sendTransaction exTx] = 0 := by
      intro s hs
      unfold overCalls overCalls
      split
      · rename_i u hu; exact absurd hu (hs u)
      · rfl
    have e2 := e _ k0
    unfold runAll at e2
    simp only [fundOps, List.foldl_cons, List.foldl_nil] at e2
    simp only [fundOps, List.cons_append, List.nil_append]
    rw [overCalls_free _ _ rfl, overCalls_free _ _ rfl, overCalls_free _ _ rfl]
    exact e2
  have a4 : storedBytes (runAll idEnv (openTree idEnv Disk.empty).final (fundOps ⟨2 ^ 256 - 1, by decide⟩ ++
      [.sendTransaction exTx])) = storedBytes (runAll idEnv (openTree idEnv Disk.empty).final
        (fundOps ⟨2 ^ 256 - 1, by decide⟩)) + exTx.dump.length := by
    unfold runAll at k1 ⊢
    rw [List.foldl_append]
    exact k1
  have a5 : 0 < exTx.dump.length := by decide +kernel
  have a6 : overCalls idEnv gasGranted (openTree idEnv Disk.empty).final (fundOps ⟨2 ^ 256 - 1, by decide⟩ ++
      [.sendTransaction exTx]) = _ := a2.symm
  rw [a4, a6, a3] at a1
  omega

/-- C139 on a history that stores something: the example transaction, sent to an empty account. -/
example (E : Env) : ∃ s, Run E s ∧ FewCoins E s [.sendTransaction exTx] ∧ storedBytes s = 0 ∧
    storedBytes (runAll E s [.sendTransaction exTx]) = 145 ∧
    overCalls E gasForTx s [.sendTransaction exTx] = 625000000000 * 145 := by
  obtain ⟨h1, h2, h3, h4, l, h5, h6⟩ := funded_run E U256.zero
  have h0 : storedBytes (runAll E (openTree E Disk.empty).final (fundOps U256.zero)) = 0 := by
    have e1 : ∀ op s, ¬ mayChange op .transactions → storedBytes (op.run E s).final = storedBytes s := by
      intro op s ho
      have hs : (op.run E s).final.main.transactions.cur = s.main.transactions.cur := (C104_frame E op .transactions ho s).1
      unfold storedBytes; rw [hs]
    unfold runAll
    simp only [fundOps, List.foldl_cons, List.foldl_nil]
    rw [e1 _ _ (by simp [mayChange]), e1 _ _ (by simp [mayChange]), e1 _ _ (by simp [mayChange]), (openTree_fresh E).2]
    rfl
  generalize runAll E (openTree E Disk.empty).final (fundOps U256.zero) = s at h0 h1 h2 h3 h4 h5
  have hok : ((Op.sendTransaction exTx).run E s).out = .ok () :=
    (C53_admission E s exTx _ _ h1 h2 h3).mpr ⟨funded_affordable _ h5 h6 exTx rfl rfl (by decide),
      .inr (by rw [funded_receiver]; decide)⟩
  have hsz : exTx.getDumpSize = 145 := by decide +kernel
  have hlen : exTx.dump.length = 145 := by decide +kernel
  have hle : storedBytes (runAll E s [.sendTransaction exTx]) = 145 := by
    have hi := run_storeInv h1
    show storedBytes ((Op.sendTransaction exTx).run E s).final = 145
    rw [send_op] at hok ⊢
    rcases sendTransaction_cases E s exTx hi.summary.1 hi.gas.1 with ⟨_, _, h, _, _, e, _⟩ | ⟨_, _, _, _, _, e⟩ | ⟨_, o, ho, e⟩
    · rw [e]
      exact (bytes_insertSorted_new _ _ _ (h4 _)).trans (by
        have : ((s.main.transactions.cur.entries.map (fun e => e.2.length)).sum) = 0 := h0
        rw [this, hlen])
    · rw [e] at hok; cases hok
    · rw [e] at hok; exact absurd hok (ho _)
  obtain ⟨s', hs', _, _, hcoins, _⟩ := (C52_effect E s exTx _ _ h1 h2 h3).1 hok
  have ht : ∀ f : Spec.Accounts, (∀ q, f q ≠ 0 → q = exTx.sender.val ∨ q = exTx.receiver.val) →
      Spec.Total f (f exTx.sender.val + f exTx.receiver.val) := fun f hf =>
    ⟨[exTx.sender.val, exTx.receiver.val], by decide, fun q hq => by simpa using hf q hq, by simp⟩
  refine ⟨s, h1, ?_, h0, hle, ?_⟩
  · intro pre post f n e hf hn
    rcases pre with _ | ⟨op, pre⟩
    · have e1 := (shows_eq hf).trans (shows_eq h2).symm
      subst e1
      have e2 := hn.unique (ht _ (by
        intro q hq
        by_cases h1 : q = exTx.receiver.val
        · exact .inr h1
        · by_cases h2 : q = exTx.sender.val
          · exact .inl h2
          · unfold fundedCoins Spec.Accounts.update at hq
            rw [if_neg h1, if_neg h2, if_neg (show ¬ q = ROOT_PUBLIC_ADDRESS.val from h2)] at hq
            exact absurd rfl hq))
      rw [funded_sender, funded_receiver] at e2
      rw [e2]
      decide
    · rw [List.cons_append] at e
      obtain ⟨rfl, e'⟩ := List.cons.inj e
      obtain ⟨rfl, _⟩ := List.append_eq_nil_iff.mp e'.symm
      have hf : Shows ((Op.sendTransaction exTx).run E s).final.summary f := hf
      rw [hs'] at hf
      have e1 := (shows_eq hf).trans (shows_eq hcoins).symm
      subst e1
      rw [if_neg exTx_ne] at hn
      have e2 := hn.unique (ht _ (by
        intro q hq
        by_cases h1 : q = exTx.receiver.val
        · exact .inr h1
        · by_cases h2 : q = exTx.sender.val
          · exact .inl h2
          · unfold fundedCoins Spec.Accounts.update at hq
            rw [if_neg h1, if_neg h2, if_neg h1, if_neg h2, if_neg (show ¬ q = ROOT_PUBLIC_ADDRESS.val from h2)] at hq
            exact absurd rfl hq))
      rw [funded_sender, funded_receiver] at e2
      have hne : exTx.sender.val ≠ exTx.receiver.val := fun e => exTx_ne (Subtype.ext e)
      unfold Spec.Accounts.update at e2
      rw [if_neg hne, if_pos rfl, if_pos rfl] at e2
      rw [e2]
      decide
  · rw [overCalls, hok, overCalls]
    show 625000000000 * exTx.getDumpSize + 0 = _
    rw [hsz]

end BCT.Props
