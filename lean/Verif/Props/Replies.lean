import Verif.Props.Confluent
/-!
# C184: whether the replies tell what the calls have left behind
-/

namespace BCT.Props
open BCT

/-! ## Statement -/

/-- C184, in full: under two schedules in which every call ends, and ends in the same way, the node is left the same in every part
(no two of the transactions colliding). -/
def C184_full : Prop := ∀ (ι : Type) [DecidableEq ι] [Fintype ι] (E : Env) (s : Tree), Life E (.idle s) → ∀ call : ι → Deal,
  (∀ i, (call i).Calm) →
  (∀ i, ∀ tx ∈ (call i).stores, ∀ j, ∀ tx' ∈ (call j).stores, E.sha256 tx.dump = E.sha256 tx'.dump → tx.dump = tx'.dump) →
  ∀ (log log' : List (Event ι Node)) (c c' : Config ι Node Reply), Exec ⟨⟨s, false⟩, fun i => (call i).prog E⟩ log c →
  Exec ⟨⟨s, false⟩, fun i => (call i).prog E⟩ log' c' → (∀ i, ∃ o, c.threads i = .done o ∧ c'.threads i = .done o) →
  ∀ p : Part, p.Same c.shared.data c'.shared.data

/-- The call has returned `Ok`. -/
def Won {σ α : Type} (p : Prog σ α) : Prop := ∃ r, p = .done (.ok r)

/-- No call of `send_transaction` has panicked: all have returned `Ok` or an error. -/
def NoneTorn {ι : Type} (call : ι → Deal) (c : Config ι Node Reply) : Prop :=
  ∀ i tx, call i = .send tx → Won (c.threads i) ∨ ∃ e, c.threads i = .done (.err e)

/-! ## One access -/

/-- The access succeeds, or changes nothing and returns no error. -/
def Spotless (x : Act Tree Unit) : Prop := ∀ t, (x t).out = .ok () ∨ ((x t).final = t ∧ ∀ e, (x t).out ≠ .err e)

theorem spotless_summary (c : KV → Outcome KV) : Spotless (Tree.onSummary (Ledger.transact c)) := by
  intro t
  cases h : c t.summary.cur with
  | ok m => left; simp only [Tree.onSummary, Act.zoom, Ledger.transact_ok h]
  | err e => right; simp only [Tree.onSummary, Act.zoom, Ledger.transact_err h]; exact ⟨trivial, fun e h => by cases h⟩
  | panic p => right; simp only [Tree.onSummary, Act.zoom, Ledger.transact_panic h]; exact ⟨trivial, fun e h => by cases h⟩
  | ub => right; simp only [Tree.onSummary, Act.zoom, Ledger.transact_ub h]; exact ⟨trivial, fun e h => by cases h⟩

theorem spotless_gas (c : KV → Outcome KV) : Spotless (Tree.onGas (Ledger.transact c)) := by
  intro t
  cases h : c t.gas.cur with
  | ok m => left; simp only [Tree.onGas, Act.zoom, Ledger.transact_ok h]
  | err e => right; simp only [Tree.onGas, Act.zoom, Ledger.transact_err h]; exact ⟨trivial, fun e h => by cases h⟩
  | panic p => right; simp only [Tree.onGas, Act.zoom, Ledger.transact_panic h]; exact ⟨trivial, fun e h => by cases h⟩
  | ub => right; simp only [Tree.onGas, Act.zoom, Ledger.transact_ub h]; exact ⟨trivial, fun e h => by cases h⟩

theorem spotless_move (a b : Bytes) (n : U256) : Spotless (Tree.sendAmount a b n) := by
  unfold Tree.sendAmount
  split
  · exact fun t => .inl rfl
  · exact spotless_summary _

theorem spotless_store (E : Env) (tx : Transaction) : Spotless (Tree.onMain (MainChain.addTransaction E tx)) := fun _ => .inl rfl

/-! ## One call -/

/-- What is left of the call makes the accesses `l`, one after the other. If it ends early, then by a panic, or, unless it has made
accesses before (`b`), by an error. -/
def Acts {α : Type} (E : Env) : Prog Node α → List Op → Bool → Prop
  | .done o, l, b => ((∃ a, o = .ok a) → l = []) ∧ (b = true → (∃ a, o = .ok a) ∨ (l ≠ [] ∧ ∀ e, o ≠ .err e))
  | .step next rest, l, b => ∀ n n', next n = some n' → (n'.data = n.data ∧ Acts E (rest n) l b) ∨
      ∃ e l', l = e :: l' ∧ (e.run E n.data).out = .ok () ∧ n'.data = (e.run E n.data).final ∧ Acts E (rest n) l' true

section
variable {α β : Type} {E : Env} {l : List Op} {b : Bool}

theorem acts_early {o : Outcome α} (h : ∀ a, o ≠ .ok a) : Acts E (.done o : Prog Node α) l false :=
  ⟨fun ⟨a, ha⟩ => absurd ha (h a), fun h => by cases h⟩

theorem acts_err (e : Err) : Acts E (Prog.lift (.err e) : Prog Node α) l false := acts_early fun a h => by cases h

theorem acts_quiet {p : Prog Node α} {f : α → Prog Node β} (hp : p.Guar fun n n' => n'.data = n.data)
    (hf : ∀ a, Acts E (f a) l false) : Acts E (p >>= f) l false := by
  change Acts E (Prog.bind p f) l false
  induction p with
  | done o =>
    cases o with
    | ok a => exact hf a
    | err e => exact acts_early fun a h => by cases h
    | panic e => exact acts_early fun a h => by cases h
    | ub => exact acts_early fun a h => by cases h
  | step next rest ih =>
    intro n n' hs
    obtain ⟨h1, h2⟩ := hp n n' hs
    exact .inl ⟨h1, ih n h2⟩

theorem acts_act {x : Act Tree Unit} (ht : Spotless x) {op : Op} (hx : ∀ t, op.run E t = x t) {f : Unit → Prog Node β}
    (hf : Acts E (f ()) l true) : Acts E (Node.onTree x >>= f) (op :: l) b := by
  intro n n' hs
  cases hs
  change ((x n.data).final = _ ∧ Acts E (Prog.bind (Prog.done (σ := Node) ((x n.data).out)) f) _ _) ∨
    (∃ e l', _ ∧ _ ∧ (x n.data).final = _ ∧ Acts E (Prog.bind (Prog.done (σ := Node) ((x n.data).out)) f) l' true)
  rcases ht n.data with ho | ⟨h1, h2⟩
  · rw [ho]
    exact .inr ⟨op, l, rfl, by rw [hx]; exact ho, by rw [hx], hf⟩
  · cases ho : (x n.data).out with
    | ok a => exact .inr ⟨op, l, rfl, by rw [hx]; exact ho, by rw [hx], hf⟩
    | err e => exact absurd ho (h2 e)
    | panic e => exact .inl ⟨h1, (fun ⟨a, h⟩ => by cases h), fun _ => .inr ⟨List.cons_ne_nil _ _, fun e h => by cases h⟩⟩
    | ub => exact .inl ⟨h1, (fun ⟨a, h⟩ => by cases h), fun _ => .inr ⟨List.cons_ne_nil _ _, fun e h => by cases h⟩⟩

theorem acts_last {x : Act Tree Unit} (ht : Spotless x) {op : Op} (hx : ∀ t, op.run E t = x t) : Acts E (Node.onTree x) [op] b := by
  intro n n' hs
  cases hs
  change ((x n.data).final = _ ∧ Acts E (Prog.done (σ := Node) ((x n.data).out)) _ _) ∨
    (∃ e l', _ ∧ _ ∧ (x n.data).final = _ ∧ Acts E (Prog.done (σ := Node) ((x n.data).out)) l' true)
  cases ho : (x n.data).out with
  | ok a => exact .inr ⟨op, [], rfl, by rw [hx]; exact ho, by rw [hx], fun _ => rfl, fun _ => .inl ⟨a, rfl⟩⟩
  | err e => exact (ht n.data).elim (fun h => by rw [ho] at h; cases h) fun h => absurd ho (h.2 e)
  | panic e =>
    refine .inl ⟨(ht n.data).elim (fun h => by rw [ho] at h; cases h) And.left, (fun ⟨a, h⟩ => by cases h), fun _ => .inr ⟨List.cons_ne_nil _ _, fun e h => by cases h⟩⟩
  | ub =>
    refine .inl ⟨(ht n.data).elim (fun h => by rw [ho] at h; cases h) And.left, (fun ⟨a, h⟩ => by cases h), fun _ => .inr ⟨List.cons_ne_nil _ _, fun e h => by cases h⟩⟩

theorem acts_map {p : Prog Node α} (h : α → β) (hp : Acts E p l b) : Acts E (p >>= fun a => pure (h a)) l b := by
  change Acts E (Prog.bind p fun a => .done (.ok (h a))) l b
  induction p generalizing l b with
  | done o =>
    cases o with
    | ok a => exact ⟨fun _ => hp.1 ⟨a, rfl⟩, fun _ => .inl ⟨_, rfl⟩⟩
    | err e => exact ⟨(fun ⟨a, h⟩ => by cases h), fun hb => (hp.2 hb).elim (fun ⟨a, h⟩ => by cases h) fun h => absurd rfl (h.2 e)⟩
    | panic e => exact ⟨(fun ⟨a, h⟩ => by cases h), fun hb => (hp.2 hb).elim (fun ⟨a, h⟩ => by cases h) fun h => .inr ⟨h.1, fun e h => by cases h⟩⟩
    | ub => exact ⟨(fun ⟨a, h⟩ => by cases h), fun hb => (hp.2 hb).elim (fun ⟨a, h⟩ => by cases h) fun h => .inr ⟨h.1, fun e h => by cases h⟩⟩
  | step next rest ih =>
    intro n n' hs
    rcases hp n n' hs with ⟨h1, h2⟩ | ⟨e, l', h1, h2, h3, h4⟩
    · exact .inl ⟨h1, ih n h2⟩
    · exact .inr ⟨e, l', h1, h2, h3, ih n h4⟩

theorem acts_idle {p : Prog Node α} (hp : p.Guar fun n n' => n'.data = n.data) : Acts E p [] false := by
  induction p with
  | done o => exact ⟨fun _ => rfl, fun h => by cases h⟩
  | step next rest ih =>
    intro n n' hs
    obtain ⟨h1, h2⟩ := hp n n' hs
    exact .inl ⟨h1, ih n h2⟩

end

theorem acts_send (E : Env) (tx : Transaction) : Acts E (Node.sendTransaction E tx) (Deal.steps (.send tx)) false := by
  unfold Node.sendTransaction
  refine acts_quiet (still_read _) fun _ => acts_quiet (still_read _) fun _ => ?_
  cases hg : BYTE_GAS_PRICE.mulNat tx.getDumpSize with
  | err e => exact acts_early fun a h => by cases h
  | panic e => exact acts_early fun a h => by cases h
  | ub => exact acts_early fun a h => by cases h
  | ok g =>
  have hgv : g = U256.ofNat (625000000000 * tx.getDumpSize) := by
    unfold U256.mulNat at hg
    split at hg
    · rename_i hlt
      have := Outcome.ok.inj hg
      rw [← this]
      exact U256.ext (Nat.mod_eq_of_lt hlt).symm
    · cases hg
  change Acts E (if _ then _ else _) _ _
  split
  · exact acts_err _
  refine acts_quiet (Node.guar_getLastBlock fun _ => rfl) fun _ => acts_quiet (Prog.guar_lift _) fun _ =>
    acts_quiet (Prog.guar_lift _) fun _ => acts_quiet (Prog.guar_lift _) fun _ => ?_
  split
  · exact acts_err _
  rw [hgv]
  refine acts_act (spotless_store E tx) (op := .addTransaction tx) (fun _ => rfl) ?_
  refine acts_act (spotless_move _ _ _) (op := .sendAmount tx.sender.val tx.receiver.val tx.amount) (fun _ => rfl) ?_
  exact acts_last (spotless_gas _) (op := .subGas tx.sender.val _) fun _ => rfl

theorem acts_deal (E : Env) {d : Deal} (h : d.Calm) : Acts E (d.prog E) d.steps false := by
  cases d with
  | send tx => exact acts_map _ (acts_send E tx)
  | lookup l => exact acts_map _ (acts_idle (still_lookup l))
  | add b => exact h.elim
  | flush => exact h.elim
  | brief x =>
    cases x with
    | addTransaction t => exact acts_map _ (acts_last (spotless_store E t) fun _ => rfl)
    | addAmount o n => exact acts_map _ (acts_last (spotless_summary _) fun _ => rfl)
    | subAmount o n => exact acts_map _ (acts_last (spotless_summary _) fun _ => rfl)
    | setAmount o n => exact h.elim
    | sendAmount a b n => exact acts_map _ (acts_last (spotless_move _ _ _) fun _ => rfl)
    | getAmount o => exact acts_map _ (acts_idle (still_read _))
    | addGas o n => exact acts_map _ (acts_last (spotless_gas _) fun _ => rfl)
    | subGas o n => exact acts_map _ (acts_last (spotless_gas _) fun _ => rfl)
    | sendGas a b n => exact acts_map _ (acts_last (spotless_gas _) fun _ => rfl)
    | getGas o => exact acts_map _ (acts_idle (still_read _))

theorem steps_few (d : Deal) : (∃ tx, d = .send tx) ∨ d.steps.length ≤ 1 := by
  cases d with
  | send tx => exact .inl ⟨tx, rfl⟩
  | brief x => cases x <;> exact .inr (by simp [Deal.steps])
  | _ => exact .inr (by simp [Deal.steps])

/-! ## All threads -/

section
variable {ι : Type} [DecidableEq ι] [Fintype ι]

/-- The node is what the accesses made so far have made of it. -/
theorem exec_acts {E : Env} {s : Tree} {call : ι → Deal} (hc : ∀ i, (call i).Calm) {log : List (Event ι Node)}
    {c : Config ι Node Reply} (h : Exec ⟨⟨s, false⟩, fun i => (call i).prog E⟩ log c) :
    ∃ (trace : List Op) (rem : ι → List Op) (b : ι → Bool), AllAccepted E s trace ∧ c.shared.data = runAll E s trace ∧
      (∀ i, Acts E (c.threads i) (rem i) (b i)) ∧
      (∀ i, (b i = false ∧ rem i = (call i).steps) ∨ (b i = true ∧ (rem i).length < (call i).steps.length)) ∧
      (trace : Multiset Op) + ∑ i, (rem i : Multiset Op) = ∑ i, ((call i).steps : Multiset Op) := by
  induction h with
  | refl => exact ⟨[], fun i => (call i).steps, fun _ => false, trivial, rfl, fun i => acts_deal E (hc i), fun i => .inl ⟨rfl, rfl⟩, by simp⟩
  | @step log c i next rest s' _ hi hn ih =>
    obtain ⟨trace, rem, b, h1, h2, h3, h6, h4⟩ := ih
    have h5 := h3 i
    rw [hi] at h5
    rcases h5 _ _ hn with ⟨g1, g2⟩ | ⟨e, l', g1, g2, g3, g4⟩
    · refine ⟨trace, rem, b, h1, g1.trans h2, fun j => ?_, h6, h4⟩
      by_cases hj : j = i
      · subst hj; simp only [Function.update_self]; exact g2
      · simp only [Function.update_of_ne hj]; exact h3 j
    · rw [h2] at g2 g3
      refine ⟨trace ++ [e], Function.update rem i l', Function.update b i true, accepted_snoc h1 g2, by rw [runAll_snoc]; exact g3,
        fun j => ?_, fun j => ?_, ?_⟩
      · by_cases hj : j = i
        · subst hj; simp only [Function.update_self]; exact g4
        · simp only [Function.update_of_ne hj]; exact h3 j
      · by_cases hj : j = i
        · subst hj
          simp only [Function.update_self]
          refine .inr ⟨trivial, ?_⟩
          have hl : (rem j).length = l'.length + 1 := by rw [g1]; rfl
          rcases h6 j with ⟨_, k⟩ | ⟨_, k⟩
          · rw [← k]; omega
          · omega
        · simp only [Function.update_of_ne hj]; exact h6 j
      · rw [← h4, multi_take rem i g1, ← Multiset.coe_add, Multiset.coe_singleton, add_assoc]

/-- When all calls have ended, none of `send_transaction` by a panic, the node is what the accesses of those that have returned
`Ok`, in some order, have made of it. -/
theorem ended_acts {E : Env} {s : Tree} {call : ι → Deal} (hc : ∀ i, (call i).Calm) {log : List (Event ι Node)}
    {c : Config ι Node Reply} (h : Exec ⟨⟨s, false⟩, fun i => (call i).prog E⟩ log c) (hend : ∀ i, hasEnded (c.threads i))
    (ht : NoneTorn call c) (won : Finset ι) (hw : ∀ i, i ∈ won ↔ Won (c.threads i)) :
    ∃ trace, AllAccepted E s trace ∧ c.shared.data = runAll E s trace ∧
      (trace : Multiset Op) = ∑ i ∈ won, ((call i).steps : Multiset Op) := by
  obtain ⟨trace, rem, b, h1, h2, h3, h6, h4⟩ := exec_acts hc h
  refine ⟨trace, h1, h2, ?_⟩
  have yes : ∀ i ∈ won, rem i = [] := fun i hi => by
    obtain ⟨r, hr⟩ := (hw i).mp hi
    have := h3 i
    rw [hr] at this
    exact this.1 ⟨r, rfl⟩
  have no : ∀ i, i ∉ won → rem i = (call i).steps := fun i hi => by
    rcases h6 i with ⟨_, k⟩ | ⟨k1, k2⟩
    · exact k
    exfalso
    obtain ⟨o, ho⟩ := hend i
    have k3 := h3 i
    rw [ho] at k3
    rcases k3.2 k1 with ⟨a, ha⟩ | ⟨k4, k5⟩
    · exact hi ((hw i).mpr ⟨a, by rw [ho, ha]⟩)
    rcases steps_few (call i) with ⟨tx, htx⟩ | k6
    · rcases ht i tx htx with k | ⟨e, he⟩
      · exact hi ((hw i).mpr k)
      · rw [ho] at he
        exact k5 e (Prog.done.inj he)
    · exact k4 (List.length_eq_zero_iff.mp (by omega))
  rw [← Finset.sum_add_sum_compl won fun i => (rem i : Multiset Op), ← Finset.sum_add_sum_compl won fun i => ((call i).steps : Multiset Op),
    Finset.sum_eq_zero (s := won) (fun i hi => by rw [yes i hi]; rfl), zero_add,
    Finset.sum_congr (s₁ := wonᶜ) rfl fun i hi => by rw [no i (Finset.mem_compl.mp hi)]] at h4
  exact add_right_cancel h4

/-! ## Property -/

omit [DecidableEq ι] [Fintype ι] in
/-- Accesses of the same calls, made in two orders, leave the same. -/
theorem same_of_traces {E : Env} {s : Tree} (hs : Life E (.idle s)) {call : ι → Deal}
    (hd : ∀ i, ∀ tx ∈ (call i).stores, ∀ j, ∀ tx' ∈ (call j).stores, E.sha256 tx.dump = E.sha256 tx'.dump → tx.dump = tx'.dump)
    {l l' : List Op} (a1 : AllAccepted E s l) (b1 : AllAccepted E s l') {won : Finset ι}
    (a3 : (l : Multiset Op) = ∑ i ∈ won, ((call i).steps : Multiset Op)) (b3 : (l' : Multiset Op) = ∑ i ∈ won, ((call i).steps : Multiset Op))
    (p : Part) : p.Same (runAll E s l) (runAll E s l') := by
  have mem : ∀ o ∈ l, ∃ i, o ∈ (call i).steps := fun o ho => by
    have : o ∈ (l : Multiset Op) := ho
    rw [a3] at this
    obtain ⟨i, _, hi⟩ := Multiset.mem_sum.mp this
    exact ⟨i, hi⟩
  have txs : ∀ tx ∈ l.flatMap Op.stores, ∃ i, tx ∈ (call i).stores := fun tx ht => by
    obtain ⟨o, ho, ht⟩ := List.mem_flatMap.mp ht
    obtain ⟨i, hi⟩ := mem o ho
    exact ⟨i, by rw [← steps_stores]; exact List.mem_flatMap.mpr ⟨o, hi, ht⟩⟩
  refine C177_order E s hs l l' (Multiset.coe_eq_coe.mp (a3.trans b3.symm)) (fun o ho => ?_) a1 b1 (fun tx ht tx' ht' he => ?_) p
  · obtain ⟨i, hi⟩ := mem o ho
    exact steps_adding _ o hi
  · obtain ⟨i, hi⟩ := txs tx ht
    obtain ⟨j, hj⟩ := txs tx' ht'
    exact hd i tx hi j tx' hj he

open Classical in
/-- C184, in part: if under two schedules every call ends, the same calls return `Ok`, and no `send_transaction` panics, then the node
is left the same in every part. Missing: schedules under which `send_transaction` panics (`C184_refuted`). -/
theorem C184_replies_partial (E : Env) (s : Tree) (hs : Life E (.idle s)) (call : ι → Deal) (hc : ∀ i, (call i).Calm)
    (hd : ∀ i, ∀ tx ∈ (call i).stores, ∀ j, ∀ tx' ∈ (call j).stores, E.sha256 tx.dump = E.sha256 tx'.dump → tx.dump = tx'.dump)
    (log log' : List (Event ι Node)) (c c' : Config ι Node Reply) (h : Exec ⟨⟨s, false⟩, fun i => (call i).prog E⟩ log c)
    (h' : Exec ⟨⟨s, false⟩, fun i => (call i).prog E⟩ log' c') (hend : ∀ i, hasEnded (c.threads i)) (hend' : ∀ i, hasEnded (c'.threads i))
    (ht : NoneTorn call c) (ht' : NoneTorn call c') (hsame : ∀ i, Won (c.threads i) ↔ Won (c'.threads i)) (p : Part) :
    p.Same c.shared.data c'.shared.data := by
  obtain ⟨l, a1, a2, a3⟩ := ended_acts hc h hend ht (Finset.univ.filter fun i => Won (c.threads i)) (fun i => by simp)
  obtain ⟨l', b1, b2, b3⟩ := ended_acts hc h' hend' ht' (Finset.univ.filter fun i => Won (c.threads i)) (fun i => by simp [hsame i])
  rw [a2, b2]
  exact same_of_traces hs hd a1 b1 a3 b3 p

open Classical in
/-- C184, in part: when all calls have ended, none of `send_transaction` by a panic, the node is as if only those that have returned
`Ok` had been called, one after the other, in any order in which all of them are accepted. -/
theorem C184_alone_partial (E : Env) (s : Tree) (hs : Life E (.idle s)) (call : ι → Deal) (op : ι → Op)
    (ho : ∀ i, (call i).op = some (op i))
    (hd : ∀ i, ∀ tx ∈ (call i).stores, ∀ j, ∀ tx' ∈ (call j).stores, E.sha256 tx.dump = E.sha256 tx'.dump → tx.dump = tx'.dump)
    (log : List (Event ι Node)) (c : Config ι Node Reply) (h : Exec ⟨⟨s, false⟩, fun i => (call i).prog E⟩ log c)
    (hend : ∀ i, hasEnded (c.threads i)) (ht : NoneTorn call c) (order : List ι) (hn : order.Nodup)
    (hw : ∀ i, i ∈ order ↔ Won (c.threads i)) (ha : AllAccepted E s (order.map op)) (p : Part) :
    p.Same (runAll E s (order.map op)) c.shared.data := by
  have hc : ∀ i, (call i).Calm := fun i => deal_calm (ho i)
  obtain ⟨l, a1, a2, a3⟩ := ended_acts hc h hend ht order.toFinset (fun i => by rw [List.mem_toFinset]; exact hw i)
  have em : order.attach.map (fun x => op x.1) = order.map op := by
    simp
  obtain ⟨log', th', g1, g2, _⟩ := order_exec (E := E) (s := s) (call := fun x : {i // i ∈ order} => call x.1) (op := fun x => op x.1)
    (fun x => ho x.1) order.attach (List.nodup_attach.mpr hn) s _ [] .refl (fun _ _ => rfl) (by rw [em]; exact ha)
  rw [em] at g1
  obtain ⟨l', b1, b2, b3⟩ := all_played (fun x => hc x.1) g1 (fun x => g2 x (List.mem_attach _ x))
  rw [a2, show runAll E s (order.map op) = runAll E s l' from b2]
  refine same_of_traces hs hd b1 a1 ?_ a3 p
  rw [b3]
  exact (Finset.sum_subtype order.toFinset (fun x => List.mem_toFinset) fun i => ((call i).steps : Multiset Op)).symm

end

/-! ## Instances -/

theorem sub_coins {t : Tree} (hd : t.summary.cur.Dec) {o : Bytes} {a : U256} (h : a.val ≤ (t.summary.cur.amt o).val) :
    (Tree.subAmount o a t).out = .ok () ∧ (Tree.subAmount o a t).final.gas = t.gas ∧ (Tree.subAmount o a t).final.summary.cur.Dec ∧
    ∀ q, ((Tree.subAmount o a t).final.summary.cur.amt q).val = if o = q then (t.summary.cur.amt o).val - a.val else (t.summary.cur.amt q).val := by
  rcases Ledger.sub_run hd o a with ⟨_, e⟩ | ⟨h', _⟩
  swap
  · omega
  simp only [Tree.subAmount, Tree.onSummary, Act.zoom, e]
  refine ⟨trivial, trivial, hd.insert _ _, fun q => ?_⟩
  rw [show (t.summary.insert o (Ledger.encode ⟨(t.summary.cur.amt o).val - a.val, Ledger.sub_lt⟩)).cur.amt q = _ from KV.amt_insert _ _ _ _]
  split <;> rfl

theorem add_coins {t : Tree} (hd : t.summary.cur.Dec) {o : Bytes} {a : U256} (h : (t.summary.cur.amt o).val + a.val < U256.size) :
    (Tree.addAmount o a t).out = .ok () ∧ (Tree.addAmount o a t).final.gas = t.gas ∧ (Tree.addAmount o a t).final.summary.cur.Dec ∧
    ∀ q, ((Tree.addAmount o a t).final.summary.cur.amt q).val = if o = q then (t.summary.cur.amt o).val + a.val else (t.summary.cur.amt q).val := by
  rcases Ledger.add_run hd o a with ⟨h', e⟩ | ⟨h', _⟩
  swap
  · exact absurd h h'
  simp only [Tree.addAmount, Tree.onSummary, Act.zoom, e]
  refine ⟨trivial, trivial, hd.insert _ _, fun q => ?_⟩
  rw [show (t.summary.insert o (Ledger.encode ⟨_, h'⟩)).cur.amt q = _ from KV.amt_insert _ _ _ _]
  split <;> rfl

theorem sub_gas {t : Tree} (hd : t.gas.cur.Dec) {o : Bytes} {a : U256} (h : a.val ≤ (t.gas.cur.amt o).val) :
    (Tree.subGas o a t).out = .ok () ∧ (Tree.subGas o a t).final.summary = t.summary ∧ (Tree.subGas o a t).final.gas.cur.Dec ∧
    ((Tree.subGas o a t).final.gas.cur.amt o).val = (t.gas.cur.amt o).val - a.val := by
  rcases Ledger.sub_run hd o a with ⟨_, e⟩ | ⟨h', _⟩
  swap
  · omega
  simp only [Tree.subGas, Tree.onGas, Act.zoom, e]
  refine ⟨trivial, trivial, hd.insert _ _, ?_⟩
  rw [show (t.gas.insert o (Ledger.encode ⟨(t.gas.cur.amt o).val - a.val, Ledger.sub_lt⟩)).cur.amt o = _ from KV.amt_insert _ _ _ _,
    if_pos rfl]

theorem sub_gas_short {t : Tree} (hd : t.gas.cur.Dec) {o : Bytes} {a : U256} (h : (t.gas.cur.amt o).val < a.val) :
    (Tree.subGas o a t).out = .panic .unwrap ∧ (Tree.subGas o a t).final = t := by
  rcases Ledger.sub_run hd o a with ⟨h', _⟩ | ⟨_, e⟩
  · omega
  simp only [Tree.subGas, Tree.onGas, Act.zoom, e]
  exact ⟨trivial, trivial⟩

theorem move_short {t : Tree} (hd : t.summary.cur.Dec) {a b : Bytes} {n : U256} (hne : a ≠ b) (h : (t.summary.cur.amt a).val < n.val) :
    (Tree.sendAmount a b n t).out = .panic .unwrap ∧ (Tree.sendAmount a b n t).final = t := by
  unfold Tree.sendAmount
  rw [if_neg hne]
  rcases Ledger.transfer_run hd a b n with ⟨h', _⟩ | ⟨_, e⟩ | ⟨h', _⟩
  · omega
  · simp only [Tree.onSummary, Act.zoom, e]
    exact ⟨trivial, trivial⟩
  · omega

/-- A transaction; withdrawals of all coins and all gas of its sender; and a deposit of just the coins it moves. -/
def tornCalls : Fin 4 → Deal
  | 0 => .send exTx
  | 1 => .brief (.subAmount exTx.sender.val (U256.ofNat 1000000000))
  | 2 => .brief (.subGas exTx.sender.val (U256.ofNat 1000000000000000000))
  | 3 => .brief (.addAmount exTx.sender.val (U256.ofNat 1000))

/-- A call of one access that goes through. -/
theorem runs_brief {x : Act Tree Unit} {t : Tree} {o : Outcome Unit} (h : (x t).out = o) :
    Prog.Runs (Node.onTree x >>= fun _ => (pure .nothing : Prog Node Reply)) ⟨t, false⟩
      (Prog.bind (.done o) fun _ => (pure .nothing : Prog Node Reply)) ⟨(x t).final, false⟩ := by
  refine Prog.Runs.bind (q := .done o) (Prog.runs_of_solo ?_) _
  rw [← h]
  exact Node.implAt_onTree x t

theorem torn_calm (i : Fin 4) : (tornCalls i).Calm := by
  match i with
  | 0 => trivial
  | 1 => trivial
  | 2 => trivial
  | 3 => trivial

theorem torn_stores (i : Fin 4) : ∀ tx ∈ (tornCalls i).stores, tx = exTx := fun tx h => by
  match i with
  | 0 => exact List.mem_singleton.mp h
  | 1 => cases h
  | 2 => cases h
  | 3 => cases h

/-- How the four calls end. -/
def tornEnd : Fin 4 → Outcome Reply
  | 0 => .panic .unwrap
  | _ => .ok .nothing

/-- C184 is false of the code with every hash function: two schedules under which the transaction panics and the others go through, and that leave
the sender different coins. -/
theorem C184_refuted_any (E : Env) : ∃ s log log' c c', Run E s ∧ Exec ⟨⟨s, false⟩, fun i => (tornCalls i).prog E⟩ log c ∧
    Exec ⟨⟨s, false⟩, fun i => (tornCalls i).prog E⟩ log' c' ∧ (∀ i, c.threads i = .done (tornEnd i)) ∧
    (∀ i, c'.threads i = .done (tornEnd i)) ∧ (c.shared.data.summary.cur.amt exTx.sender.val).val = 1000 ∧
    (c'.shared.data.summary.cur.amt exTx.sender.val).val = 0 := by
  obtain ⟨s, h1, h2, h3, -, last, h5, h6⟩ := funded E U256.zero
  have hi := run_storeInv h1
  have ef := shows_eq h2
  have eg := shows_eq h3
  have hne : exTx.sender.val ≠ exTx.receiver.val := fun e => exTx_ne (Subtype.ext e)
  have hsize : exTx.getDumpSize = 145 := by decide +kernel
  have v1 : (U256.ofNat 1000000000).val = 1000000000 := by decide
  have v2 : (U256.ofNat 1000000000000000000).val = 1000000000000000000 := by decide
  have v3 : (U256.ofNat 1000).val = 1000 := by decide
  have va : exTx.amount.val = 1000 := rfl
  have vz : U256.zero.val = 0 := rfl
  have big : (2000 : Nat) < U256.size := by decide
  obtain ⟨v, hv⟩ : ∃ v : U256, v.val = 625000000000 * exTx.getDumpSize := ⟨⟨625000000000 * 145, by decide⟩, by rw [hsize]⟩
  have c0 : (s.summary.cur.amt exTx.sender.val).val = 1000000000 := by rw [← funded_sender U256.zero, ef]
  have r0 : (s.summary.cur.amt exTx.receiver.val).val = 0 := by rw [← vz, ← funded_receiver U256.zero, ef]
  have g0 : (s.gas.cur.amt exTx.sender.val).val = 1000000000000000000 := by rw [← funded_gas, eg]
  -- the withdrawals
  obtain ⟨a1, a2, a3, a4⟩ := sub_coins (t := s) hi.summary.1 (o := exTx.sender.val) (a := U256.ofNat 1000000000) (by omega)
  have c1 := a4 exTx.sender.val
  have r1 := a4 exTx.receiver.val
  rw [if_pos rfl] at c1
  rw [if_neg hne] at r1
  obtain ⟨t1, ht1⟩ : ∃ t, t = (Tree.subAmount exTx.sender.val (U256.ofNat 1000000000) s).final := ⟨_, rfl⟩
  rw [← ht1] at a2 a3 c1 r1
  obtain ⟨b1, b2, b3, b4⟩ := sub_gas (t := t1) (by rw [a2]; exact hi.gas.1) (o := exTx.sender.val) (a := U256.ofNat 1000000000000000000)
    (by rw [a2]; omega)
  rw [a2] at b4
  obtain ⟨t2, ht2⟩ : ∃ t, t = (Tree.subGas exTx.sender.val (U256.ofNat 1000000000000000000) t1).final := ⟨_, rfl⟩
  rw [← ht2] at b2 b3 b4
  rw [← b2] at a3 c1 r1
  have x0 : Exec ⟨⟨s, false⟩, fun i => (tornCalls i).prog E⟩ [] ⟨⟨s, false⟩, fun i => (tornCalls i).prog E⟩ := .refl
  obtain ⟨_, x1⟩ := x0.go 0 rfl ((send_checks_run E s exTx _ _ h2 h3
    (funded_affordable U256.zero h5 h6 exTx rfl rfl (by omega)) v hv).bind fun _ => (pure .nothing : Prog Node Reply))
  obtain ⟨_, x2⟩ := x1.go 1 (Function.update_of_ne (by decide) _ _) (runs_brief a1)
  rw [← ht1] at x2
  obtain ⟨_, x3⟩ := x2.go 2 ((Function.update_of_ne (by decide) _ _).trans (Function.update_of_ne (by decide) _ _)) (runs_brief b1)
  rw [← ht2] at x3
  -- the transaction, then the deposit
  obtain ⟨u1, hu1⟩ : ∃ t, t = t2.withTx E exTx := ⟨_, rfl⟩
  have s1 : u1.summary = t2.summary := by rw [hu1]; rfl
  obtain ⟨d1, d2⟩ := move_short (t := u1) (by rw [s1]; exact a3) hne (n := exTx.amount) (by rw [s1]; omega)
  obtain ⟨_, y4⟩ := x3.go 0 ((Function.update_of_ne (by decide) _ _).trans ((Function.update_of_ne (by decide) _ _).trans (Function.update_self _ _ _)))
    (q := .done (.panic .unwrap)) (t := ⟨u1, false⟩) (by
      refine Prog.Runs.bind (q := .done (.panic .unwrap)) (f := fun _ => (pure .nothing : Prog Node Reply)) ?_
      refine (Prog.runs_bind_ok (a := ()) (t := ⟨u1, false⟩) (by rw [hu1]; rfl) _).trans ?_
      refine Prog.Runs.bind (q := .done (.panic .unwrap)) (f := fun _ => payStep exTx v) (Prog.runs_of_solo ?_)
      have := Node.implAt_onTree (Tree.sendAmount exTx.sender.val exTx.receiver.val exTx.amount) u1
      unfold Node.ImplAt at this
      rw [this, d1, d2])
  obtain ⟨e1, e2, e3, e4⟩ := add_coins (t := u1) (by rw [s1]; exact a3) (o := exTx.sender.val) (a := U256.ofNat 1000) (by rw [s1]; omega)
  have e5 := e4 exTx.sender.val
  rw [if_pos rfl, s1] at e5
  obtain ⟨_, y5⟩ := y4.go 3 ((Function.update_of_ne (by decide) _ _).trans ((Function.update_of_ne (by decide) _ _).trans
    ((Function.update_of_ne (by decide) _ _).trans (Function.update_of_ne (by decide) _ _)))) (runs_brief e1)
  -- the deposit, then the transaction
  obtain ⟨f1, f2, f3, f4⟩ := add_coins (t := t2) a3 (o := exTx.sender.val) (a := U256.ofNat 1000) (by omega)
  have f5 := f4 exTx.sender.val
  have f6 := f4 exTx.receiver.val
  rw [if_pos rfl] at f5
  rw [if_neg hne] at f6
  obtain ⟨_, z4⟩ := x3.go 3 ((Function.update_of_ne (by decide) _ _).trans
    ((Function.update_of_ne (by decide) _ _).trans (Function.update_of_ne (by decide) _ _))) (runs_brief f1)
  obtain ⟨t3, ht3⟩ : ∃ t, t = (Tree.addAmount exTx.sender.val (U256.ofNat 1000) t2).final := ⟨_, rfl⟩
  rw [← ht3] at f2 f3 f5 f6 z4
  obtain ⟨w1, hw1⟩ : ∃ t, t = t3.withTx E exTx := ⟨_, rfl⟩
  have s2 : w1.summary = t3.summary := by rw [hw1]; rfl
  have s3 : w1.gas = t2.gas := by rw [hw1]; exact f2
  have room : (w1.summary.cur.amt exTx.receiver.val).val + exTx.amount.val < U256.size := by rw [s2]; omega
  obtain ⟨k1, k2⟩ := sendAmount_ok (n := w1) (by rw [s2]; exact f3) exTx_ne (by rw [s2]; omega) room
  obtain ⟨w2, hw2⟩ : ∃ t, t = (Tree.sendAmount exTx.sender.val exTx.receiver.val exTx.amount w1).final := ⟨_, rfl⟩
  have s4 : w2.gas = t2.gas := by rw [hw2, k2]; exact s3
  have s5 : (w2.summary.cur.amt exTx.sender.val).val = 0 := by
    rw [hw2, k2]
    refine (Ledger.moved_amt w1.summary.cur hne exTx.amount room exTx.sender.val).trans ?_
    rw [if_pos rfl, s2]
    omega
  obtain ⟨m1, m2⟩ := sub_gas_short (t := w2) (by rw [s4]; exact b3) (o := exTx.sender.val) (a := v) (by rw [s4]; omega)
  obtain ⟨_, z5⟩ := z4.go 0 ((Function.update_of_ne (by decide) _ _).trans ((Function.update_of_ne (by decide) _ _).trans
    ((Function.update_of_ne (by decide) _ _).trans (Function.update_self _ _ _))))
    (q := .done (.panic .unwrap)) (t := ⟨w2, false⟩) (by
      refine Prog.Runs.bind (q := .done (.panic .unwrap)) (f := fun _ => (pure .nothing : Prog Node Reply)) ?_
      refine (Prog.runs_bind_ok (a := ()) (t := ⟨w1, false⟩) (by rw [hw1]; rfl) _).trans ?_
      refine (Prog.runs_bind_ok (a := ()) (t := ⟨w2, false⟩) (by rw [hw2, ← k1]; exact Node.implAt_onTree _ w1) _).trans ?_
      refine Prog.runs_of_solo ?_
      have := Node.implAt_onTree (Tree.subGas exTx.sender.val v) w2
      unfold Node.ImplAt at this
      rw [payStep, this, m1, m2])
  refine ⟨s, _, _, _, _, h1, y5, z5, fun i => ?_, fun i => ?_, ?_, s5⟩
  · match i with
    | 0 => simp [tornEnd]
    | 1 => simp; rfl
    | 2 => simp; rfl
    | 3 => simp; rfl
  · match i with
    | 0 => simp [tornEnd]
    | 1 => simp; rfl
    | 2 => simp; rfl
    | 3 => simp; rfl
  · change ((Tree.addAmount exTx.sender.val (U256.ofNat 1000) u1).final.summary.cur.amt exTx.sender.val).val = 1000
    omega

/-- C184 is false of the code. `send_transaction` panics alike when the coins have gone since they were checked, and when the gas
has; in the first case the sender keeps coins that arrive later, in the second they have been moved already. -/
theorem C184_refuted : ¬ C184_full := by
  intro full
  obtain ⟨s, log, log', c, c', h1, y, z, e1, e2, a1, a2⟩ := C184_refuted_any idEnv
  have same : c'.shared.data.summary.cur = c.shared.data.summary.cur := full (Fin 4) idEnv s (run_life h1) tornCalls torn_calm
    (fun i tx h j tx' h' _ => by rw [torn_stores i tx h, torn_stores j tx' h']) log log' c c' y z (fun i => ⟨_, e1 i, e2 i⟩) .coins
  rw [same] at a2
  omega

/-- A transaction, and a withdrawal of coins its receiver does not have. -/
def payAndOverdraw (b : Bool) : Deal := bif b then .send exTx else .brief (.subAmount exTx.receiver.val (U256.ofNat 2000))

/-- The same, as calls made one after the other. -/
def payAndOverdrawOp (b : Bool) : Op := bif b then .sendTransaction exTx else .subAmount exTx.receiver.val (U256.ofNat 2000)

/-- The hypotheses of both parts of C184 can be met, by a schedule under which one call returns `Ok` and the other does not. -/
example (E : Env) : ∃ s log c, Life E (.idle s) ∧ (∀ b, (payAndOverdraw b).op = some (payAndOverdrawOp b)) ∧
    (∀ b, (payAndOverdraw b).Calm) ∧
    (∀ i, ∀ tx ∈ (payAndOverdraw i).stores, ∀ j, ∀ tx' ∈ (payAndOverdraw j).stores, E.sha256 tx.dump = E.sha256 tx'.dump → tx.dump = tx'.dump) ∧
    Exec ⟨⟨s, false⟩, fun b => (payAndOverdraw b).prog E⟩ log c ∧ (∀ b, hasEnded (c.threads b)) ∧ NoneTorn payAndOverdraw c ∧
    (∀ b, b ∈ [true] ↔ Won (c.threads b)) ∧ AllAccepted E s ([true].map payAndOverdrawOp) := by
  obtain ⟨s, h1, h2, h3, -, last, h5, h6⟩ := funded E U256.zero
  have hi := run_storeInv h1
  have va : exTx.amount.val = 1000 := rfl
  have vz : U256.zero.val = 0 := rfl
  have v2 : (U256.ofNat 2000).val = 2000 := by decide
  have big : (2000 : Nat) < U256.size := by decide
  have r0 : (s.summary.cur.amt exTx.receiver.val).val = 0 := by rw [← vz, ← funded_receiver U256.zero, shows_eq h2]
  have hop : ∀ b, (payAndOverdraw b).op = some (payAndOverdrawOp b) := fun b => by cases b <;> rfl
  have short : (Tree.subAmount exTx.receiver.val (U256.ofNat 2000) s).out = .panic .unwrap ∧
      (Tree.subAmount exTx.receiver.val (U256.ofNat 2000) s).final = s := by
    rcases Ledger.sub_run hi.summary.1 exTx.receiver.val (U256.ofNat 2000) with ⟨h', _⟩ | ⟨_, e⟩
    · omega
    simp only [Tree.subAmount, Tree.onSummary, Act.zoom, e]
    exact ⟨trivial, trivial⟩
  have acc : AllAccepted E s ([true].map payAndOverdrawOp) := by
    refine ⟨?_, trivial⟩
    rcases sendTransaction_cases E s exTx hi.summary.1 hi.gas.1 with ⟨_, _, _, _, h, _⟩ | ⟨_, _, _, _, h, _⟩ | ⟨h, _⟩
    · exact h
    · omega
    · exact absurd ((affordable_iff h2 h3).mp (funded_affordable U256.zero h5 h6 exTx rfl rfl (by omega))) h
  have x0 : Exec ⟨⟨s, false⟩, fun b => (payAndOverdraw b).prog E⟩ [] ⟨⟨s, false⟩, fun b => (payAndOverdraw b).prog E⟩ := .refl
  obtain ⟨log, x1⟩ := x0.go false rfl (runs_brief short.1)
  rw [short.2] at x1
  obtain ⟨log', th', g1, g2, g3⟩ := order_exec hop [true] (by decide) s _ _ x1
    (fun i hi => by cases List.mem_singleton.mp hi; exact Function.update_of_ne (by decide) _ _) acc
  have lost : th' false = .done (.panic .unwrap) := (g3 false (by decide)).trans (Function.update_self _ _ _)
  obtain ⟨r, won⟩ := g2 true (by decide)
  refine ⟨s, log', _, run_life h1, hop, fun b => deal_calm (hop b), ?_, g1, ?_, ?_, ?_, acc⟩
  · have one : ∀ i, ∀ tx ∈ (payAndOverdraw i).stores, tx = exTx := fun i tx h => by
      cases i with
      | true => exact List.mem_singleton.mp h
      | false => cases h
    intro i tx h j tx' h' _
    rw [one i tx h, one j tx' h']
  · intro b
    cases b with
    | true => exact ⟨_, won⟩
    | false => exact ⟨_, lost⟩
  · intro b tx h
    cases b with
    | true => exact .inl ⟨r, won⟩
    | false => cases h
  · intro b
    cases b with
    | true => exact ⟨fun _ => ⟨r, won⟩, fun _ => by decide⟩
    | false => exact ⟨(fun h => by simp at h), fun ⟨r', h⟩ => by cases lost.symm.trans h⟩

end BCT.Props
