import Verif.Props.Enough
/-!
# C183: what calls leave behind does not depend on the schedule
-/

namespace BCT.Props
open BCT

/-! ## Statement -/

/-- The call sends or stores a transaction, deposits, withdraws, moves coins or gas, or only reads. -/
def Deal.Calm : Deal → Prop
  | .brief (.setAmount ..) => False
  | .send _ | .brief _ | .lookup _ => True
  | _ => False

/-- The transactions the call stores. -/
def Deal.stores : Deal → List Transaction
  | .send tx | .brief (.addTransaction tx) => [tx]
  | _ => []

/-! ## One call -/

/-- The accesses to the databases of a call that is accepted. -/
def Deal.steps : Deal → List Op
  | .send tx => [.addTransaction tx, .sendAmount tx.sender.val tx.receiver.val tx.amount,
      .subGas tx.sender.val (U256.ofNat (625000000000 * tx.getDumpSize))]
  | .brief (.addTransaction t) => [.addTransaction t]
  | .brief (.addAmount o n) => [.addAmount o n]
  | .brief (.subAmount o n) => [.subAmount o n]
  | .brief (.sendAmount a b n) => [.sendAmount a b n]
  | .brief (.addGas o n) => [.addGas o n]
  | .brief (.subGas o n) => [.subGas o n]
  | .brief (.sendGas a b n) => [.sendGas a b n]
  | _ => []

/-- The call has ended otherwise than with `Ok`. -/
def Fell {σ α : Type} (p : Prog σ α) : Prop := ∃ o, p = .done o ∧ ∀ a, o ≠ .ok a

/-- What is left of the call makes the accesses `l`, one after the other, or fails. -/
def Plays {α : Type} (E : Env) : Prog Node α → List Op → Prop
  | .done o, l => (∃ a, o = .ok a) → l = []
  | .step next rest, l => ∀ n n', next n = some n' → (n'.data = n.data ∧ Plays E (rest n) l) ∨
      (∃ e l', l = e :: l' ∧ (e.run E n.data).out = .ok () ∧ n'.data = (e.run E n.data).final ∧ Plays E (rest n) l') ∨ Fell (rest n)

section
variable {α β : Type} {E : Env} {l : List Op}

theorem fell_bind {p : Prog Node α} (h : Fell p) (f : α → Prog Node β) : Fell (Prog.bind p f) := by
  obtain ⟨o, rfl, h⟩ := h
  cases o with
  | ok a => exact absurd rfl (h a)
  | err e => exact ⟨_, rfl, fun a h => by cases h⟩
  | panic e => exact ⟨_, rfl, fun a h => by cases h⟩
  | ub => exact ⟨_, rfl, fun a h => by cases h⟩

theorem plays_fell {p : Prog Node α} (h : Fell p) : Plays E p l := by
  obtain ⟨o, rfl, h⟩ := h
  exact fun ⟨a, ha⟩ => absurd ha (h a)

theorem plays_err (e : Err) : Plays E (Prog.lift (.err e) : Prog Node α) l := fun ⟨a, ha⟩ => by cases ha

theorem plays_quiet {p : Prog Node α} {f : α → Prog Node β} (hp : p.Guar fun n n' => n'.data = n.data)
    (hf : ∀ a, Plays E (f a) l) : Plays E (p >>= f) l := by
  change Plays E (Prog.bind p f) l
  induction p with
  | done o =>
    cases o with
    | ok a => exact hf a
    | err e => exact plays_fell ⟨_, rfl, fun a h => by cases h⟩
    | panic e => exact plays_fell ⟨_, rfl, fun a h => by cases h⟩
    | ub => exact plays_fell ⟨_, rfl, fun a h => by cases h⟩
  | step next rest ih =>
    intro n n' hs
    obtain ⟨h1, h2⟩ := hp n n' hs
    exact .inl ⟨h1, ih n h2⟩

theorem plays_act {x : Act Tree Unit} {op : Op} (hx : ∀ t, op.run E t = x t) {f : Unit → Prog Node β}
    (hf : Plays E (f ()) l) : Plays E (Node.onTree x >>= f) (op :: l) := by
  intro n n' hs
  cases hs
  change (_ ∧ Plays E (Prog.bind (Prog.done (σ := Node) ((x n.data).out)) f) _) ∨
    (∃ e l', _ ∧ _ ∧ _ ∧ Plays E (Prog.bind (Prog.done (σ := Node) ((x n.data).out)) f) l') ∨
    Fell (Prog.bind (Prog.done (σ := Node) ((x n.data).out)) f)
  cases ho : (x n.data).out with
  | ok a => exact .inr (.inl ⟨op, l, rfl, by rw [hx]; exact ho, by rw [hx]; rfl, hf⟩)
  | err e => exact .inr (.inr ⟨_, rfl, fun a h => by cases h⟩)
  | panic e => exact .inr (.inr ⟨_, rfl, fun a h => by cases h⟩)
  | ub => exact .inr (.inr ⟨_, rfl, fun a h => by cases h⟩)

theorem plays_last {x : Act Tree Unit} {op : Op} (hx : ∀ t, op.run E t = x t) : Plays E (Node.onTree x) [op] := by
  intro n n' hs
  cases hs
  change (_ ∧ Plays E (Prog.done (σ := Node) ((x n.data).out)) _) ∨
    (∃ e l', _ ∧ _ ∧ _ ∧ Plays E (Prog.done (σ := Node) ((x n.data).out)) l') ∨ Fell (Prog.done (σ := Node) ((x n.data).out))
  cases ho : (x n.data).out with
  | ok a => exact .inr (.inl ⟨op, [], rfl, by rw [hx]; exact ho, by rw [hx]; rfl, fun _ => rfl⟩)
  | err e => exact .inr (.inr ⟨_, rfl, fun a h => by cases h⟩)
  | panic e => exact .inr (.inr ⟨_, rfl, fun a h => by cases h⟩)
  | ub => exact .inr (.inr ⟨_, rfl, fun a h => by cases h⟩)

theorem plays_map {p : Prog Node α} (h : α → β) (hp : Plays E p l) : Plays E (p >>= fun a => pure (h a)) l := by
  change Plays E (Prog.bind p fun a => .done (.ok (h a))) l
  induction p generalizing l with
  | done o =>
    cases o with
    | ok a => exact fun _ => hp ⟨a, rfl⟩
    | err e => exact plays_fell ⟨_, rfl, fun a h => by cases h⟩
    | panic e => exact plays_fell ⟨_, rfl, fun a h => by cases h⟩
    | ub => exact plays_fell ⟨_, rfl, fun a h => by cases h⟩
  | step next rest ih =>
    intro n n' hs
    rcases hp n n' hs with ⟨h1, h2⟩ | ⟨e, l', h1, h2, h3, h4⟩ | h1
    · exact .inl ⟨h1, ih n h2⟩
    · exact .inr (.inl ⟨e, l', h1, h2, h3, ih n h4⟩)
    · exact .inr (.inr (fell_bind h1 _))

theorem plays_idle {p : Prog Node α} (hp : p.Guar fun n n' => n'.data = n.data) : Plays E p [] := by
  induction p with
  | done o => exact fun _ => rfl
  | step next rest ih =>
    intro n n' hs
    obtain ⟨h1, h2⟩ := hp n n' hs
    exact .inl ⟨h1, ih n h2⟩

end

theorem still_read {α : Type} (f : Tree → Outcome α) : (Node.read f).Guar fun n n' => n'.data = n.data :=
  Node.guar_read (R := fun n n' => n'.data = n.data) (fun _ => rfl) f

theorem still_lookup (l : Node.Lookup) : l.prog.Guar fun n n' => n'.data = n.data := by
  have hf : ∀ k, (Node.findRawByHeight k).Guar fun n n' => n'.data = n.data := fun k => by
    unfold Node.findRawByHeight
    refine .bind (Node.guar_readHeight fun _ => rfl) fun _ => ?_
    split
    · exact Prog.guar_pure _
    · exact still_read _
  cases l with
  | byHeight k => exact hf k
  | byHash h =>
    refine .bind (still_read _) fun r => ?_
    cases r with
    | none => exact Prog.guar_pure _
    | some v => exact .bind (Prog.guar_lift _) fun _ => hf _
  | last => exact .bind (Node.guar_readHeight fun _ => rfl) fun _ => .bind (Prog.guar_lift _) fun _ => hf _

theorem plays_send (E : Env) (tx : Transaction) : Plays E (Node.sendTransaction E tx) (Deal.steps (.send tx)) := by
  unfold Node.sendTransaction
  refine plays_quiet (still_read _) fun _ => plays_quiet (still_read _) fun _ => ?_
  cases hg : BYTE_GAS_PRICE.mulNat tx.getDumpSize with
  | err e => exact plays_fell ⟨_, rfl, fun a h => by cases h⟩
  | panic e => exact plays_fell ⟨_, rfl, fun a h => by cases h⟩
  | ub => exact plays_fell ⟨_, rfl, fun a h => by cases h⟩
  | ok g =>
  have hgv : g = U256.ofNat (625000000000 * tx.getDumpSize) := by
    unfold U256.mulNat at hg
    split at hg
    · rename_i hlt
      have := Outcome.ok.inj hg
      rw [← this]
      exact U256.ext (Nat.mod_eq_of_lt hlt).symm
    · cases hg
  change Plays E (if _ then _ else _) _
  split
  · exact plays_err _
  refine plays_quiet (Node.guar_getLastBlock fun _ => rfl) fun _ => plays_quiet (Prog.guar_lift _) fun _ =>
    plays_quiet (Prog.guar_lift _) fun _ => plays_quiet (Prog.guar_lift _) fun _ => ?_
  split
  · exact plays_err _
  rw [hgv]
  refine plays_act (op := .addTransaction tx) (fun _ => rfl) ?_
  refine plays_act (op := .sendAmount tx.sender.val tx.receiver.val tx.amount) (fun _ => rfl) ?_
  exact plays_last (op := .subGas tx.sender.val _) fun _ => rfl

theorem plays_deal (E : Env) {d : Deal} (h : d.Calm) : Plays E (d.prog E) d.steps := by
  cases d with
  | send tx => exact plays_map _ (plays_send E tx)
  | lookup l => exact plays_map _ (plays_idle (still_lookup l))
  | add b => exact h.elim
  | flush => exact h.elim
  | brief x =>
    cases x with
    | addTransaction t => exact plays_map _ (plays_last fun _ => rfl)
    | addAmount o n => exact plays_map _ (plays_last fun _ => rfl)
    | subAmount o n => exact plays_map _ (plays_last fun _ => rfl)
    | setAmount o n => exact h.elim
    | sendAmount a b n => exact plays_map _ (plays_last fun _ => rfl)
    | getAmount o => exact plays_map _ (plays_idle (still_read _))
    | addGas o n => exact plays_map _ (plays_last fun _ => rfl)
    | subGas o n => exact plays_map _ (plays_last fun _ => rfl)
    | sendGas a b n => exact plays_map _ (plays_last fun _ => rfl)
    | getGas o => exact plays_map _ (plays_idle (still_read _))

theorem steps_adding (d : Deal) : ∀ op ∈ d.steps, Op.Adding op := by
  intro op h
  cases d with
  | send tx =>
    simp only [Deal.steps, List.mem_cons, List.not_mem_nil, or_false] at h
    rcases h with rfl | rfl | rfl <;> trivial
  | brief x =>
    cases x <;> simp only [Deal.steps, List.mem_cons, List.not_mem_nil, or_false] at h <;> subst h <;> trivial
  | _ => cases h

theorem steps_stores (d : Deal) : d.steps.flatMap Op.stores = d.stores := by
  cases d with
  | brief x => cases x <;> rfl
  | _ => rfl

/-! ## All threads -/

section
variable {ι : Type} [DecidableEq ι] [Fintype ι]

theorem accepted_snoc {E : Env} {l : List Op} {op : Op} : ∀ {s : Tree}, AllAccepted E s l →
    (op.run E (runAll E s l)).out = .ok () → AllAccepted E s (l ++ [op]) := by
  induction l with
  | nil => exact fun _ h => ⟨h, trivial⟩
  | cons o l ih => exact fun ⟨h1, h2⟩ h => ⟨h1, ih h2 h⟩

theorem runAll_snoc (E : Env) (s : Tree) (l : List Op) (op : Op) : runAll E s (l ++ [op]) = (op.run E (runAll E s l)).final := by
  unfold runAll
  rw [List.foldl_append]
  rfl

theorem multi_take (rem : ι → List Op) (i : ι) {e : Op} {l : List Op} (h : rem i = e :: l) :
    (∑ j, (rem j : Multiset Op)) = {e} + ∑ j, (Function.update rem i l j : Multiset Op) := by
  rw [← Finset.add_sum_erase Finset.univ (fun j => (rem j : Multiset Op)) (Finset.mem_univ i),
    ← Finset.add_sum_erase Finset.univ (fun j => (Function.update rem i l j : Multiset Op)) (Finset.mem_univ i),
    Function.update_self, h, ← add_assoc]
  congr 1
  exact Finset.sum_congr rfl fun j hj => by rw [Function.update_of_ne (Finset.ne_of_mem_erase hj)]

/-- Unless a call has failed, the node is what the accesses made so far have made of it. -/
theorem exec_plays {E : Env} {s : Tree} {call : ι → Deal} (hc : ∀ i, (call i).Calm) {log : List (Event ι Node)}
    {c : Config ι Node Reply} (h : Exec ⟨⟨s, false⟩, fun i => (call i).prog E⟩ log c) :
    (∃ i, Fell (c.threads i)) ∨ ∃ (trace : List Op) (rem : ι → List Op), AllAccepted E s trace ∧ c.shared.data = runAll E s trace ∧
      (∀ i, Plays E (c.threads i) (rem i)) ∧ (trace : Multiset Op) + ∑ i, (rem i : Multiset Op) = ∑ i, ((call i).steps : Multiset Op) := by
  induction h with
  | refl => exact .inr ⟨[], fun i => (call i).steps, trivial, rfl, fun i => plays_deal E (hc i), by simp⟩
  | @step log c i next rest s' _ hi hn ih =>
    rcases ih with ⟨j, hj⟩ | ⟨trace, rem, h1, h2, h3, h4⟩
    · refine .inl ⟨j, ?_⟩
      have hne : j ≠ i := by
        rintro rfl
        obtain ⟨o, ho, _⟩ := hj
        rw [hi] at ho
        cases ho
      simp only [Function.update_of_ne hne]
      exact hj
    · have h5 := h3 i
      rw [hi] at h5
      rcases h5 _ _ hn with ⟨g1, g2⟩ | ⟨e, l', g1, g2, g3, g4⟩ | g
      · refine .inr ⟨trace, rem, h1, g1.trans h2, fun j => ?_, h4⟩
        by_cases hj : j = i
        · subst hj; simp only [Function.update_self]; exact g2
        · simp only [Function.update_of_ne hj]; exact h3 j
      · rw [h2] at g2 g3
        refine .inr ⟨trace ++ [e], Function.update rem i l', accepted_snoc h1 g2, by rw [runAll_snoc]; exact g3, fun j => ?_, ?_⟩
        · by_cases hj : j = i
          · subst hj; simp only [Function.update_self]; exact g4
          · simp only [Function.update_of_ne hj]; exact h3 j
        · rw [← h4, multi_take rem i g1, ← Multiset.coe_add, Multiset.coe_singleton, add_assoc]
      · exact .inl ⟨i, by simp only [Function.update_self]; exact g⟩

/-- When all calls have returned `Ok`, the node is what their accesses, in some order, have made of it. -/
theorem all_played {E : Env} {s : Tree} {call : ι → Deal} (hc : ∀ i, (call i).Calm) {log : List (Event ι Node)}
    {c : Config ι Node Reply} (h : Exec ⟨⟨s, false⟩, fun i => (call i).prog E⟩ log c)
    (hok : ∀ i, ∃ r, c.threads i = .done (.ok r)) : ∃ trace, AllAccepted E s trace ∧ c.shared.data = runAll E s trace ∧
      (trace : Multiset Op) = ∑ i, ((call i).steps : Multiset Op) := by
  rcases exec_plays hc h with ⟨i, o, h1, h2⟩ | ⟨trace, rem, h1, h2, h3, h4⟩
  · obtain ⟨r, hr⟩ := hok i
    rw [hr] at h1
    cases h1
    exact absurd rfl (h2 r)
  · refine ⟨trace, h1, h2, ?_⟩
    have : ∀ i, rem i = [] := fun i => by
      have := h3 i
      obtain ⟨r, hr⟩ := hok i
      rw [hr] at this
      exact this ⟨r, rfl⟩
    rw [← h4]
    simp [this]

/-! ## Orders as schedules -/

omit [Fintype ι] in
theorem order_exec {E : Env} {s : Tree} {call : ι → Deal} {op : ι → Op} (ho : ∀ i, (call i).op = some (op i)) :
    ∀ (order : List ι), order.Nodup → ∀ (t : Tree) (th : ι → Prog Node Reply) (log : List (Event ι Node)),
    Exec ⟨⟨s, false⟩, fun i => (call i).prog E⟩ log ⟨⟨t, false⟩, th⟩ → (∀ i ∈ order, th i = (call i).prog E) →
    AllAccepted E t (order.map op) → ∃ log' th', Exec ⟨⟨s, false⟩, fun i => (call i).prog E⟩ log'
      ⟨⟨runAll E t (order.map op), false⟩, th'⟩ ∧ (∀ i ∈ order, ∃ r, th' i = .done (.ok r)) ∧ ∀ i, i ∉ order → th' i = th i := by
  have ok : ∀ {p : Prog Node Unit} {x : Act Tree Unit} {t : Tree}, Node.ImplAt p x t → (x t).out = .ok () →
      (p >>= fun _ => (pure .nothing : Prog Node Reply)).solo ⟨t, false⟩ = some (.ok .nothing, ⟨(x t).final, false⟩) := by
    intro p x t h hx
    rw [Prog.solo_bind, h, hx]
    rfl
  have solo : ∀ {d : Deal} {o : Op}, d.op = some o → ∀ t : Tree, (o.run E t).out = .ok () →
      (d.prog E).solo ⟨t, false⟩ = some (.ok .nothing, ⟨(o.run E t).final, false⟩) := by
    intro d o h t hx
    cases d with
    | send tx =>
      cases h
      exact ok (Node.sendTransaction_impl E tx t) hx
    | brief x =>
      cases x <;> cases h
      · exact ok (Node.implAt_onTree (Tree.addAmount _ _) t) hx
      · exact ok (Node.implAt_onTree (Tree.subAmount _ _) t) hx
      · exact ok (Node.implAt_onTree (Tree.sendAmount _ _ _) t) hx
      · exact ok (Node.implAt_onTree (Tree.addGas _ _) t) hx
      · exact ok (Node.implAt_onTree (Tree.subGas _ _) t) hx
      · exact ok (Node.implAt_onTree (Tree.sendGas _ _ _) t) hx
    | _ => cases h
  intro order
  induction order with
  | nil => exact fun _ t th log hx _ _ => ⟨log, th, hx, (fun i h => by cases h), fun i _ => rfl⟩
  | cons i order ih =>
    intro hn t th log hx hth ⟨ha1, ha2⟩
    obtain ⟨hn1, hn2⟩ := List.nodup_cons.mp hn
    obtain ⟨log', hx'⟩ := hx.go i (hth i List.mem_cons_self) (Prog.runs_of_solo (solo (ho i) t ha1))
    obtain ⟨log'', th'', g1, g2, g3⟩ := ih hn2 _ _ _ hx' (fun j hj => by
      have hne : j ≠ i := fun h => hn1 (h ▸ hj)
      exact (Function.update_of_ne hne _ _).trans (hth j (List.mem_cons_of_mem _ hj))) ha2
    refine ⟨log'', th'', g1, fun j hj => ?_, fun j hj => ?_⟩
    · rcases List.mem_cons.mp hj with rfl | hj
      · exact ⟨_, (g3 j hn1).trans (Function.update_self _ _ _)⟩
      · exact g2 j hj
    · have h1 : j ≠ i := fun h => hj (h ▸ List.mem_cons_self)
      exact (g3 j fun h => hj (List.mem_cons_of_mem _ h)).trans (Function.update_of_ne h1 _ _)

theorem deal_calm {d : Deal} {op : Op} (h : d.op = some op) : d.Calm := by
  cases d with
  | send tx => trivial
  | brief x => cases x <;> trivial
  | _ => cases h

/-! ## Property -/

/-- C183. The same calls under two schedules: if all return `Ok` under both, and no two of the transactions collide, then the
node is left the same in every part. -/
theorem C183_same (E : Env) (s : Tree) (hs : Life E (.idle s)) (call : ι → Deal) (hc : ∀ i, (call i).Calm)
    (hd : ∀ i, ∀ tx ∈ (call i).stores, ∀ j, ∀ tx' ∈ (call j).stores, E.sha256 tx.dump = E.sha256 tx'.dump → tx.dump = tx'.dump)
    (log log' : List (Event ι Node)) (c c' : Config ι Node Reply) (h : Exec ⟨⟨s, false⟩, fun i => (call i).prog E⟩ log c)
    (h' : Exec ⟨⟨s, false⟩, fun i => (call i).prog E⟩ log' c') (hok : ∀ i, ∃ r, c.threads i = .done (.ok r))
    (hok' : ∀ i, ∃ r, c'.threads i = .done (.ok r)) (p : Part) : p.Same c.shared.data c'.shared.data := by
  obtain ⟨l, a1, a2, a3⟩ := all_played hc h hok
  obtain ⟨l', b1, b2, b3⟩ := all_played hc h' hok'
  have mem : ∀ o ∈ l, ∃ i, o ∈ (call i).steps := fun o ho => by
    have : o ∈ (l : Multiset Op) := ho
    rw [a3] at this
    obtain ⟨i, _, hi⟩ := Multiset.mem_sum.mp this
    exact ⟨i, hi⟩
  have txs : ∀ tx ∈ l.flatMap Op.stores, ∃ i, tx ∈ (call i).stores := fun tx ht => by
    obtain ⟨o, ho, ht⟩ := List.mem_flatMap.mp ht
    obtain ⟨i, hi⟩ := mem o ho
    exact ⟨i, by rw [← steps_stores]; exact List.mem_flatMap.mpr ⟨o, hi, ht⟩⟩
  rw [a2, b2]
  refine C177_order E s hs l l' (Multiset.coe_eq_coe.mp (a3.trans b3.symm)) (fun o ho => ?_) a1 b1 (fun tx ht tx' ht' he => ?_) p
  · obtain ⟨i, hi⟩ := mem o ho
    exact steps_adding _ o hi
  · obtain ⟨i, hi⟩ := txs tx ht
    obtain ⟨j, hj⟩ := txs tx' ht'
    exact hd i tx hi j tx' hj he

/-- C183. Under whatever schedule all return `Ok`: the node is as if the calls had been made one after the other, in any order in
which all are accepted. -/
theorem C183_serial (E : Env) (s : Tree) (hs : Life E (.idle s)) (call : ι → Deal) (op : ι → Op) (ho : ∀ i, (call i).op = some (op i))
    (hd : ∀ i, ∀ tx ∈ (call i).stores, ∀ j, ∀ tx' ∈ (call j).stores, E.sha256 tx.dump = E.sha256 tx'.dump → tx.dump = tx'.dump)
    (log : List (Event ι Node)) (c : Config ι Node Reply) (h : Exec ⟨⟨s, false⟩, fun i => (call i).prog E⟩ log c)
    (hok : ∀ i, ∃ r, c.threads i = .done (.ok r)) (order : List ι) (hn : order.Nodup) (hall : ∀ i, i ∈ order)
    (ha : AllAccepted E s (order.map op)) (p : Part) : p.Same (runAll E s (order.map op)) c.shared.data := by
  obtain ⟨log', th', g1, g2, _⟩ := order_exec ho order hn s _ [] .refl (fun _ _ => rfl) ha
  exact C183_same E s hs call (fun i => deal_calm (ho i)) hd log' log _ c g1 h (fun i => g2 i (hall i)) hok p

/-- C183. If there is enough for all calls (C182), then every schedule leaves, when all calls have ended, what every order leaves. -/
theorem C183_enough (E : Env) (s : Tree) (hr : Run E s) (f g : Spec.Accounts) (hf : Shows s.summary f) (hg : Shows s.gas g)
    (last : Block) (fee : U256) (hl : s.main.getLastBlock = .ok (some last)) (hfee : recalculateFee last.info.difficulty = .ok fee)
    (call : ι → Deal) (op : ι → Op) (ho : ∀ i, (call i).op = some (op i)) (hen : Enough op f g fee.val)
    (hd : ∀ i, ∀ tx ∈ (call i).stores, ∀ j, ∀ tx' ∈ (call j).stores, E.sha256 tx.dump = E.sha256 tx'.dump → tx.dump = tx'.dump)
    (log : List (Event ι Node)) (c : Config ι Node Reply) (h : Exec ⟨⟨s, false⟩, fun i => (call i).prog E⟩ log c)
    (hend : ∀ i, hasEnded (c.threads i)) (order : List ι) (hn : order.Nodup) (hall : ∀ i, i ∈ order) (p : Part) :
    p.Same (runAll E s (order.map op)) c.shared.data := by
  obtain ⟨e1, e2⟩ := C182_exact E s hr f g hf hg last fee hl hfee call op ho
  have safe := e2.mpr hen
  exact C183_serial E s (run_life hr) call op ho hd log c h (fun i => safe log c h i (hend i)) order hn hall
    (e1.mp safe order hn hall) p

end

/-- The hypotheses of `C183_enough` can be met, by a node, a transaction and a move made at the same time, and a schedule that
ends both. -/
example (E : Env) : ∃ s f g last fee, ∃ op : Bool → Op, Run E s ∧ Shows s.summary f ∧ Shows s.gas g ∧
    s.main.getLastBlock = .ok (some last) ∧ recalculateFee last.info.difficulty = .ok fee ∧ (∀ b, (payAndTurn b).op = some (op b)) ∧
    Enough op f g fee.val ∧
    (∀ i, ∀ tx ∈ (payAndTurn i).stores, ∀ j, ∀ tx' ∈ (payAndTurn j).stores, E.sha256 tx.dump = E.sha256 tx'.dump → tx.dump = tx'.dump) ∧
    ∃ log c, Exec ⟨⟨s, false⟩, fun i => (payAndTurn i).prog E⟩ log c ∧ ∀ i, hasEnded (c.threads i) := by
  obtain ⟨s, f, g, last, fee, op, h1, h2, h3, h4, h5, h6, h7, -⟩ := pay_and_turn_safe E
  obtain ⟨e1, e2⟩ := C182_exact E s h1 f g h2 h3 last fee h4 h5 payAndTurn op h6
  obtain ⟨log, th, g1, g2, -⟩ := order_exec h6 [true, false] (by decide) s _ [] .refl (fun _ _ => rfl)
    (e1.mp h7 [true, false] (by decide) (by decide))
  refine ⟨s, f, g, last, fee, op, h1, h2, h3, h4, h5, h6, e2.mp h7, ?_, log, _, g1, fun i => ?_⟩
  · have one : ∀ i, ∀ tx ∈ (payAndTurn i).stores, tx = exTx := fun i tx h => by
      cases i with
      | true => exact List.mem_singleton.mp h
      | false => cases h
    intro i tx h j tx' h' _
    rw [one i tx h, one j tx' h']
  · obtain ⟨r, hr⟩ := g2 i (by cases i <;> decide)
    exact ⟨_, hr⟩

end BCT.Props
