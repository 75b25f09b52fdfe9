import Verif.Props.Cutoffs
import Verif.Props.Enough
/-!
# C186: with gas for all calls, the replies tell what the calls have left behind
-/

namespace BCT.Props
open BCT

/-! ## Statement -/

/-- What is left by a call that panics: `send_transaction` has stored the transaction, unless a sum it works out first overflows; all
others nothing. -/
def Deal.leftover (fee : Nat) : Deal → List Op
  | .send tx => if 625000000000 * tx.getDumpSize < 2 ^ 256 ∧ fee + tx.amount.val < 2 ^ 256 then [.addTransaction tx] else []
  | _ => []

/-- `made` is what a call that ends in this way leaves: everything with `Ok`, nothing with an error, and the leftover otherwise. -/
def Leaves {α : Type} (all left : List Op) (o : Outcome α) (made : List Op) : Prop :=
  (∀ a, o = .ok a → made = all) ∧ (∀ e, o = .err e → made = []) ∧ ((∀ a, o ≠ .ok a) → (∀ e, o ≠ .err e) → made = left)

/-- The two calls end alike: with `Ok`, with an error, or otherwise. -/
def EndAlike {α : Type} (o o' : Outcome α) : Prop := ((∃ a, o = .ok a) ↔ ∃ a, o' = .ok a) ∧ ((∃ e, o = .err e) ↔ ∃ e, o' = .err e)

theorem leaves_alike {α : Type} {all left made made' : List Op} {o o' : Outcome α} (ha : EndAlike o o') (h : Leaves all left o made)
    (h' : Leaves all left o' made') : made = made' := by
  by_cases h1 : ∃ a, o = .ok a
  · obtain ⟨a, e⟩ := h1
    obtain ⟨a', e'⟩ := ha.1.mp ⟨a, e⟩
    exact (h.1 a e).trans (h'.1 a' e').symm
  by_cases h2 : ∃ e, o = .err e
  · obtain ⟨a, e⟩ := h2
    obtain ⟨a', e'⟩ := ha.2.mp ⟨a, e⟩
    exact (h.2.1 a e).trans (h'.2.1 a' e').symm
  exact (h.2.2 (fun a e => h1 ⟨a, e⟩) fun a e => h2 ⟨a, e⟩).trans
    (h'.2.2 (fun a e => h1 (ha.1.mpr ⟨a, e⟩)) fun a e => h2 (ha.2.mpr ⟨a, e⟩)).symm

/-! ## One call -/

/-- The gas the accesses take from an account. -/
def burnt (l : List Op) (k : Bytes) : Nat := (l.map (takesGas · k)).sum

/-- What a call finds while it is under way, having made `made`: the chain unchanged, and the gas it has still to take. -/
def HasFuel (ch : Chain) (all : List Op) (t : Tree) (made : List Op) : Prop :=
  t.gas.cur.Dec ∧ t.summary.cur.Dec ∧ t.main.chain = ch ∧ ∀ k, burnt all k ≤ (t.gas.cur.amt k).val + burnt made k

/-- The call, having made `made` and finding the node as `K` says, makes further accesses of `all` and leaves what it should. -/
def Trail {α : Type} (E : Env) (K : Tree → List Op → Prop) (all left : List Op) : Prog Node α → List Op → Prop
  | .done o, made => Leaves all left o made
  | .step next rest, made => ∀ n n', K n.data made → next n = some n' → (n'.data = n.data ∧ Trail E K all left (rest n) made) ∨
      ∃ e, made ++ [e] <+: all ∧ (e.run E n.data).out = .ok () ∧ n'.data = (e.run E n.data).final ∧
        Trail E K all left (rest n) (made ++ [e])

/-- The balances are readable and the chain is `ch`. -/
def Upright (ch : Chain) (K : Tree → List Op → Prop) : Prop := ∀ t made, K t made → t.gas.cur.Dec ∧ t.summary.cur.Dec ∧ t.main.chain = ch

section
variable {α β : Type} {E : Env} {ch : Chain} {K : Tree → List Op → Prop} {all left made : List Op}

theorem leaves_err (e : Err) : Leaves all left (.err e : Outcome α) [] :=
  ⟨(fun a h => by cases h), fun _ _ => rfl, fun _ h => absurd rfl (h e)⟩

theorem leaves_panic (e : Panic) (h : made = left) : Leaves all left (.panic e : Outcome α) made :=
  ⟨(fun a h => by cases h), (fun a h => by cases h), fun _ _ => h⟩

theorem leaves_ub (h : made = left) : Leaves all left (.ub : Outcome α) made :=
  ⟨(fun a h => by cases h), (fun a h => by cases h), fun _ _ => h⟩

theorem leaves_ok (a : α) (h : made = all) : Leaves all left (.ok a) made :=
  ⟨fun _ _ => h, (fun a h => by cases h), fun h => absurd rfl (h a)⟩

theorem trail_peek (hU : Upright ch K) {P : α → Prop} {p : Prog Node α} {f : α → Prog Node β} (hp : Peeks ch (fun _ => True) P p)
    (hq : p.Guar fun n n' => n'.data = n.data) (hf : ∀ a, P a → Trail E K all left (f a) made) :
    Trail E K all left (p >>= f) made := by
  change Trail E K all left (Prog.bind p f) made
  induction p with
  | done o =>
    obtain ⟨a, rfl, h⟩ := hp
    exact hf a h
  | step next rest ih =>
    intro n n' hK hs
    obtain ⟨h1, h2⟩ := hq n n' hs
    exact .inl ⟨h1, ih n (hp n n' ⟨(hU _ _ hK).1, (hU _ _ hK).2.1⟩ trivial (hU _ _ hK).2.2 hs).2.2 h2⟩

theorem trail_act {x : Act Tree Unit} (ht : Spotless x) {op : Op} (hx : ∀ t, op.run E t = x t) (hp : made ++ [op] <+: all)
    (hD : ∀ t, K t made → (x t).out = .ok () ∨ made = left) {f : Unit → Prog Node β}
    (hf : Trail E K all left (f ()) (made ++ [op])) : Trail E K all left (Node.onTree x >>= f) made := by
  intro n n' hK hs
  cases hs
  change ((x n.data).final = _ ∧ Trail E K all left (Prog.bind (Prog.done (σ := Node) ((x n.data).out)) f) _) ∨
    (∃ e, _ ∧ _ ∧ (x n.data).final = _ ∧ Trail E K all left (Prog.bind (Prog.done (σ := Node) ((x n.data).out)) f) _)
  cases ho : (x n.data).out with
  | ok a => exact .inr ⟨op, hp, by rw [hx]; exact ho, by rw [hx], hf⟩
  | err e => exact (ht n.data).elim (fun h => by rw [ho] at h; cases h) fun h => absurd ho (h.2 e)
  | panic e =>
    exact .inl ⟨(ht n.data).elim (fun h => by rw [ho] at h; cases h) And.left,
      leaves_panic e ((hD _ hK).elim (fun h => by rw [ho] at h; cases h) id)⟩
  | ub =>
    exact .inl ⟨(ht n.data).elim (fun h => by rw [ho] at h; cases h) And.left,
      leaves_ub ((hD _ hK).elim (fun h => by rw [ho] at h; cases h) id)⟩

theorem trail_last {x : Act Tree Unit} (ht : Spotless x) {op : Op} (hx : ∀ t, op.run E t = x t) (hp : made ++ [op] = all)
    (hD : ∀ t, K t made → (x t).out = .ok () ∨ made = left) : Trail E K all left (Node.onTree x) made := by
  intro n n' hK hs
  cases hs
  change ((x n.data).final = _ ∧ Trail E K all left (Prog.done (σ := Node) ((x n.data).out)) _) ∨
    (∃ e, _ ∧ _ ∧ (x n.data).final = _ ∧ Trail E K all left (Prog.done (σ := Node) ((x n.data).out)) _)
  cases ho : (x n.data).out with
  | ok a => exact .inr ⟨op, by rw [hp], by rw [hx]; exact ho, by rw [hx], leaves_ok _ hp⟩
  | err e => exact (ht n.data).elim (fun h => by rw [ho] at h; cases h) fun h => absurd ho (h.2 e)
  | panic e =>
    exact .inl ⟨(ht n.data).elim (fun h => by rw [ho] at h; cases h) And.left,
      leaves_panic e ((hD _ hK).elim (fun h => by rw [ho] at h; cases h) id)⟩
  | ub =>
    exact .inl ⟨(ht n.data).elim (fun h => by rw [ho] at h; cases h) And.left,
      leaves_ub ((hD _ hK).elim (fun h => by rw [ho] at h; cases h) id)⟩

theorem trail_map {p : Prog Node α} (h : α → β) (hp : Trail E K all left p made) :
    Trail E K all left (p >>= fun a => pure (h a)) made := by
  change Trail E K all left (Prog.bind p fun a => .done (.ok (h a))) made
  induction p generalizing made with
  | done o =>
    cases o with
    | ok a => exact leaves_ok _ (hp.1 a rfl)
    | err e => rw [hp.2.1 e rfl]; exact leaves_err e
    | panic e => exact leaves_panic e (hp.2.2 (fun a h => by cases h) fun a h => by cases h)
    | ub => exact leaves_ub (hp.2.2 (fun a h => by cases h) fun a h => by cases h)
  | step next rest ih =>
    intro n n' hK hs
    rcases hp n n' hK hs with ⟨h1, h2⟩ | ⟨e, h1, h2, h3, h4⟩
    · exact .inl ⟨h1, ih n h2⟩
    · exact .inr ⟨e, h1, h2, h3, ih n h4⟩

theorem trail_idle {p : Prog Node α} (hp : p.Guar fun n n' => n'.data = n.data) : Trail E K [] [] p [] := by
  induction p with
  | done o => exact ⟨fun _ _ => rfl, fun _ _ => rfl, fun _ _ => rfl⟩
  | step next rest ih =>
    intro n n' _ hs
    obtain ⟨h1, h2⟩ := hp n n' hs
    exact .inl ⟨h1, ih n h2⟩

end

theorem trail_send (E : Env) (tx : Transaction) {m : MainChain} {last : Block} {fee : U256}
    (hl : m.getLastBlock = .ok (some last)) (hfee : recalculateFee last.info.difficulty = .ok fee) {K : Tree → List Op → Prop}
    (hU : Upright m.chain K) {left : List Op}
    (hno : ¬ (625000000000 * tx.getDumpSize < 2 ^ 256 ∧ fee.val + tx.amount.val < 2 ^ 256) → left = [])
    (hmove : 625000000000 * tx.getDumpSize < 2 ^ 256 ∧ fee.val + tx.amount.val < 2 ^ 256 → ∀ t, K t [.addTransaction tx] →
      (Tree.sendAmount tx.sender.val tx.receiver.val tx.amount t).out = .ok () ∨ [.addTransaction tx] = left)
    (hpay : 625000000000 * tx.getDumpSize < 2 ^ 256 ∧ fee.val + tx.amount.val < 2 ^ 256 →
      ∀ t, K t [.addTransaction tx, .sendAmount tx.sender.val tx.receiver.val tx.amount] →
      (Tree.subGas tx.sender.val (U256.ofNat (625000000000 * tx.getDumpSize)) t).out = .ok () ∨
        [.addTransaction tx, .sendAmount tx.sender.val tx.receiver.val tx.amount] = left) :
    Trail E K (Deal.steps (.send tx)) left (Node.sendTransaction E tx) [] := by
  unfold Node.sendTransaction
  refine trail_peek hU (P := fun _ => True) (peeks_read fun n h1 _ _ => ⟨_, h1.1.balance _, trivial⟩) (still_read _) fun a _ => ?_
  refine trail_peek hU (P := fun _ => True) (peeks_read fun n h1 _ _ => ⟨_, h1.2.balance _, trivial⟩) (still_read _) fun b _ => ?_
  by_cases hlt : 625000000000 * tx.getDumpSize < U256.size
  swap
  · have hmul : BYTE_GAS_PRICE.mulNat tx.getDumpSize = .panic .overflow := by
      unfold U256.mulNat
      exact dif_neg hlt
    rw [hmul]
    exact leaves_panic _ (hno fun h => hlt h.1).symm
  have hmul : BYTE_GAS_PRICE.mulNat tx.getDumpSize = .ok ⟨_, hlt⟩ := by
    unfold U256.mulNat
    exact dif_pos hlt
  refine trail_peek hU (peeks_lift hmul (P := (· = ⟨_, hlt⟩)) rfl) (Prog.guar_lift _) fun v hv => ?_
  split
  · exact leaves_err _
  refine trail_peek hU (peeks_last hl) (Node.guar_getLastBlock fun _ => rfl) fun x hx =>
    trail_peek hU (peeks_lift (P := (· = last)) (by rw [hx]; rfl) rfl) (Prog.guar_lift _) fun y hy =>
    trail_peek hU (peeks_lift (P := (· = fee)) (by rw [hy]; exact hfee) rfl) (Prog.guar_lift _) fun z hz => ?_
  subst hz
  by_cases hlt' : z.val + tx.amount.val < U256.size
  swap
  · have hadd : z.add tx.amount = .panic .overflow := by
      unfold U256.add
      exact dif_neg hlt'
    rw [hadd]
    exact leaves_panic _ (hno fun h => hlt' h.2).symm
  refine trail_peek hU (peeks_lift (a := ⟨_, hlt'⟩) (P := fun _ => True) (dif_pos hlt') trivial) (Prog.guar_lift _) fun w _ => ?_
  split
  · exact leaves_err _
  have hv : v = U256.ofNat (625000000000 * tx.getDumpSize) := by
    rw [hv]
    exact U256.ext (Nat.mod_eq_of_lt hlt).symm
  rw [hv]
  refine trail_act (spotless_store E tx) (op := .addTransaction tx) (fun _ => rfl) (all := Deal.steps (.send tx)) (made := []) ⟨_, rfl⟩ (fun _ _ => .inl rfl) ?_
  refine trail_act (spotless_move _ _ _) (op := .sendAmount tx.sender.val tx.receiver.val tx.amount) (fun _ => rfl)
    (all := Deal.steps (.send tx)) (made := [.addTransaction tx]) ⟨_, rfl⟩ (hmove ⟨hlt, hlt'⟩) ?_
  refine trail_last (spotless_gas _) (op := .subGas tx.sender.val (U256.ofNat (625000000000 * tx.getDumpSize))) (fun _ => rfl) rfl
    (hpay ⟨hlt, hlt'⟩)

theorem trail_send_fuel (E : Env) (tx : Transaction) {m : MainChain} {last : Block} {fee : U256}
    (hl : m.getLastBlock = .ok (some last)) (hfee : recalculateFee last.info.difficulty = .ok fee) :
    Trail E (HasFuel m.chain (Deal.steps (.send tx))) (Deal.steps (.send tx)) ((Deal.send tx).leftover fee.val)
      (Node.sendTransaction E tx) [] := by
  refine trail_send E tx hl hfee (fun t made h => ⟨h.1, h.2.1, h.2.2.1⟩) (fun h => if_neg h) (fun h t _ => .inr (if_pos h).symm)
    fun h t hK => .inl (sub_fits hK.1 ?_)
  have := hK.2.2.2 tx.sender.val
  simpa [burnt, Deal.steps, takesGas] using this

/-- All other calls. -/
theorem trail_other (E : Env) {d : Deal} (h : d.Calm) (hn : ∀ tx, d ≠ .send tx) (K : Tree → List Op → Prop) :
    Trail E K d.steps [] (d.prog E) [] := by
  have none : ∀ {α : Type} {x : Act Tree Unit} {op : Op} (f : Unit → α), Spotless x → (∀ t, op.run E t = x t) →
      Trail E K [op] [] (Node.onTree x >>= fun a => pure (f a)) [] := fun f h1 h2 =>
    trail_map f (trail_last h1 h2 rfl fun _ _ => .inr rfl)
  cases d with
  | send tx => exact absurd rfl (hn tx)
  | lookup l => exact trail_map _ (trail_idle (still_lookup l))
  | add b => exact h.elim
  | flush => exact h.elim
  | brief x =>
    cases x with
    | addTransaction t => exact none _ (spotless_store E t) fun _ => rfl
    | addAmount o n => exact none _ (spotless_summary _) fun _ => rfl
    | subAmount o n => exact none _ (spotless_summary _) fun _ => rfl
    | setAmount o n => exact h.elim
    | sendAmount a b n => exact none _ (spotless_move _ _ _) fun _ => rfl
    | getAmount o => exact trail_map _ (trail_idle (still_read _))
    | addGas o n => exact none _ (spotless_gas _) fun _ => rfl
    | subGas o n => exact none _ (spotless_gas _) fun _ => rfl
    | sendGas a b n => exact none _ (spotless_gas _) fun _ => rfl
    | getGas o => exact trail_map _ (trail_idle (still_read _))

theorem trail_deal (E : Env) {d : Deal} (h : d.Calm) {m : MainChain} {last : Block} {fee : U256}
    (hl : m.getLastBlock = .ok (some last)) (hfee : recalculateFee last.info.difficulty = .ok fee) :
    Trail E (HasFuel m.chain d.steps) d.steps (d.leftover fee.val) (d.prog E) [] := by
  cases d with
  | send tx => exact trail_map _ (trail_send_fuel E tx hl hfee)
  | lookup l => exact trail_other E (d := .lookup l) h (fun tx e => by cases e) _
  | add b => exact h.elim
  | flush => exact h.elim
  | brief x => exact trail_other E (d := .brief x) h (fun tx e => by cases e) _

/-! ## All threads -/

theorem burnt_steps (d : Deal) (k : Bytes) : burnt d.steps k ≤ d.burns k := by
  cases d with
  | send tx =>
    have h : (U256.ofNat (625000000000 * tx.getDumpSize)).val ≤ 625000000000 * tx.getDumpSize := Nat.mod_le _ _
    have e : burnt (Deal.steps (.send tx)) k =
        if k = tx.sender.val then (U256.ofNat (625000000000 * tx.getDumpSize)).val else 0 := by simp [burnt, Deal.steps, takesGas]
    rw [e]
    change _ ≤ if k = tx.sender.val then 625000000000 * tx.getDumpSize else 0
    split <;> omega
  | brief x =>
    cases x with
    | sendGas a b n =>
      have e : burnt (Deal.steps (.brief (.sendGas a b n))) k = if a ≠ b ∧ k = a then n.val else 0 := by
        simp [burnt, Deal.steps, takesGas]
      rw [e]
      change _ ≤ if k = a then n.val else 0
      by_cases h1 : k = a <;> by_cases h2 : a = b <;> simp [h1, h2]
    | _ => simp [burnt, Deal.steps, takesGas, Deal.burns]
  | _ => simp [burnt, Deal.steps]

theorem chain_kept (E : Env) {d : Deal} {op : Op} (h : op ∈ d.steps) (t : Tree) : (op.run E t).final.main.chain = t.main.chain := by
  cases d with
  | send tx =>
    simp only [Deal.steps, List.mem_cons, List.not_mem_nil, or_false] at h
    rcases h with rfl | rfl | rfl
    · rfl
    · exact congrArg MainChain.chain (transfer_main _ _ _ t)
    · rfl
  | brief x =>
    cases x <;> simp only [Deal.steps, List.mem_cons, List.not_mem_nil, or_false] at h <;> subst h <;>
      first | rfl | exact congrArg MainChain.chain (transfer_main _ _ _ t)
  | _ => cases h

theorem gas_kept {E : Env} (l : List Op) (k : Bytes) : ∀ {s : Tree}, StoreInv E s → (∀ op ∈ l, Op.Adding op) → AllAccepted E s l →
    (s.gas.cur.amt k).val ≤ ((runAll E s l).gas.cur.amt k).val + burnt l k := by
  induction l with
  | nil => exact fun _ _ _ => Nat.le_refl _
  | cons op l ih =>
    intro s hi ha h
    have h1 := ih ((Op.storeInv E op _).1 hi) (fun o ho => ha o (List.mem_cons_of_mem _ ho)) h.2
    have h2 := gas_shift hi (ha op List.mem_cons_self) h.1 k
    have h3 : (((op.run E s).final.gas.cur.amt k).val : Int) = (s.gas.cur.amt k).val + gasDelta op k := by
      split at h2
      · obtain ⟨n, g1, g2⟩ := h2
        rw [amt_encoded g1]; exact g2
      · rw [amt_congr h2.1, h2.2]; simp
    rw [gas_net] at h3
    have h4 : burnt (op :: l) k = takesGas op k + burnt l k := by simp [burnt]
    change _ ≤ ((runAll E (op.run E s).final l).gas.cur.amt k).val + _
    omega

theorem burnt_prefix {l l' : List Op} (h : l <+: l') (k : Bytes) : burnt l k ≤ burnt l' k := by
  obtain ⟨r, rfl⟩ := h
  simp [burnt]

section
variable {ι : Type} [DecidableEq ι] [Fintype ι]

omit [DecidableEq ι] in
theorem burnt_sum {trace : List Op} {made : ι → List Op} (h : (trace : Multiset Op) = ∑ i, (made i : Multiset Op)) (k : Bytes) :
    burnt trace k = ∑ i, burnt (made i) k := by
  have := congrArg (Multiset.sumAddMonoidHom.comp (Multiset.mapAddMonoidHom (takesGas · k))) h
  rw [map_sum] at this
  simpa [burnt] using this

omit [DecidableEq ι] in
/-- What the calls have made are accesses that add or take. -/
theorem made_adding {call : ι → Deal} {trace : List Op} {made : ι → List Op} (h6 : ∀ i, made i <+: (call i).steps)
    (h4 : (trace : Multiset Op) = ∑ i, (made i : Multiset Op)) : ∀ op ∈ trace, Op.Adding op := fun o ho => by
  have : o ∈ (trace : Multiset Op) := ho
  rw [h4] at this
  obtain ⟨j, _, hj⟩ := Multiset.mem_sum.mp this
  exact steps_adding _ o ((h6 j).subset hj)

theorem exec_trails {E : Env} {s : Tree} {call : ι → Deal} {K : ι → Tree → List Op → Prop} {left : ι → List Op}
    (hstart : ∀ i, Trail E (K i) (call i).steps (left i) ((call i).prog E) [])
    (hkeep : ∀ (trace : List Op) (made : ι → List Op), AllAccepted E s trace → (runAll E s trace).main.chain = s.main.chain → (∀ i, made i <+: (call i).steps) →
      (trace : Multiset Op) = ∑ i, (made i : Multiset Op) → ∀ i, K i (runAll E s trace) (made i)) {log : List (Event ι Node)}
    {c : Config ι Node Reply} (h : Exec ⟨⟨s, false⟩, fun i => (call i).prog E⟩ log c) :
    ∃ (trace : List Op) (made : ι → List Op), AllAccepted E s trace ∧ c.shared.data = runAll E s trace ∧
      c.shared.data.main.chain = s.main.chain ∧ (∀ i, Trail E (K i) (call i).steps (left i) (c.threads i) (made i)) ∧
      (∀ i, made i <+: (call i).steps) ∧ (trace : Multiset Op) = ∑ i, (made i : Multiset Op) := by
  induction h with
  | refl =>
    exact ⟨[], fun _ => [], trivial, rfl, rfl, hstart, fun i => List.nil_prefix, by simp⟩
  | @step log c i next rest s' _ hi' hn ih =>
    obtain ⟨trace, made, h1, h2, h7, h3, h6, h4⟩ := ih
    have h5 := h3 i
    rw [hi'] at h5
    have hK : K i c.shared.data (made i) := by
      rw [h2] at h7 ⊢
      exact hkeep trace made h1 h7 h6 h4 i
    rcases h5 _ _ hK hn with ⟨g1, g2⟩ | ⟨e, g1, g2, g3, g4⟩
    · refine ⟨trace, made, h1, g1.trans h2, by rw [g1]; exact h7, fun j => ?_, h6, h4⟩
      by_cases hj : j = i
      · subst hj; simp only [Function.update_self]; exact g2
      · simp only [Function.update_of_ne hj]; exact h3 j
    · have g5 : s'.data.main.chain = s.main.chain := by
        rw [g3, chain_kept E (g1.subset (List.mem_append_right _ List.mem_cons_self))]; exact h7
      rw [h2] at g2 g3
      refine ⟨trace ++ [e], Function.update made i (made i ++ [e]), accepted_snoc h1 g2, by rw [runAll_snoc]; exact g3, g5,
        fun j => ?_, fun j => ?_, ?_⟩
      · by_cases hj : j = i
        · subst hj; simp only [Function.update_self]; exact g4
        · simp only [Function.update_of_ne hj]; exact h3 j
      · by_cases hj : j = i
        · subst hj; simp only [Function.update_self]; exact g1
        · simp only [Function.update_of_ne hj]; exact h6 j
      · rw [← Multiset.coe_add, h4,
          ← Finset.add_sum_erase Finset.univ (fun j => (made j : Multiset Op)) (Finset.mem_univ i),
          ← Finset.add_sum_erase Finset.univ (fun j => (Function.update made i (made i ++ [e]) j : Multiset Op)) (Finset.mem_univ i),
          Function.update_self, ← Multiset.coe_add, add_assoc, add_assoc,
          Finset.sum_congr (s₁ := Finset.univ.erase i) rfl fun j hj =>
            show (Function.update made i (made i ++ [e]) j : Multiset Op) = (made j : Multiset Op) by
              rw [Function.update_of_ne (Finset.ne_of_mem_erase hj)]]
        congr 1
        exact add_comm _ _

theorem exec_trail {E : Env} {s : Tree} (hi : StoreInv E s) {g : Spec.Accounts} (hg : Shows s.gas g) {last : Block} {fee : U256}
    (hl : s.main.getLastBlock = .ok (some last)) (hfee : recalculateFee last.info.difficulty = .ok fee)
    {call : ι → Deal} (hc : ∀ i, (call i).Calm) (hgas : ∀ k, ∑ i, (call i).burns k ≤ g k) {log : List (Event ι Node)}
    {c : Config ι Node Reply} (h : Exec ⟨⟨s, false⟩, fun i => (call i).prog E⟩ log c) :
    ∃ (trace : List Op) (made : ι → List Op), AllAccepted E s trace ∧ c.shared.data = runAll E s trace ∧
      c.shared.data.main.chain = s.main.chain ∧
      (∀ i, Trail E (HasFuel s.main.chain (call i).steps) (call i).steps ((call i).leftover fee.val) (c.threads i) (made i)) ∧
      (∀ i, made i <+: (call i).steps) ∧ (trace : Multiset Op) = ∑ i, (made i : Multiset Op) := by
  have hge := shows_eq hg
  refine exec_trails (K := fun i => HasFuel s.main.chain (call i).steps) (fun i => trail_deal E (hc i) hl hfee) (fun trace made h1 h7 h6 h4 i => ?_) h
  have hinv := runAll_storeInv trace hi
  refine ⟨hinv.gas.1, hinv.summary.1, h7, fun k => ?_⟩
  have k1 := gas_kept trace k hi (made_adding h6 h4) h1
  rw [burnt_sum h4] at k1
  have k2 := hgas k
  have k3 : ∑ j, burnt (call j).steps k ≤ ∑ j, (call j).burns k := Finset.sum_le_sum fun j _ => burnt_steps _ k
  have k4 : ∑ j ∈ Finset.univ.erase i, burnt (made j) k ≤ ∑ j ∈ Finset.univ.erase i, burnt (call j).steps k :=
    Finset.sum_le_sum fun j _ => burnt_prefix (h6 j) k
  have k5 := Finset.add_sum_erase Finset.univ (fun j => burnt (made j) k) (Finset.mem_univ i)
  have k6 := Finset.add_sum_erase Finset.univ (fun j => burnt (call j).steps k) (Finset.mem_univ i)
  have k7 : (s.gas.cur.amt k).val = g k := by rw [hge]
  omega

/-! ## Property -/

/-- C186. When all calls have ended and there was gas for all of them together, the node is what it would be if, one after the other, each
call that returned `Ok` had done everything, each that returned an error nothing, and each that panicked its leftover: of
`send_transaction`, storing the transaction. -/
theorem C186_left (E : Env) (s : Tree) (hs : Life E (.idle s)) (g : Spec.Accounts) (hg : Shows s.gas g) (last : Block) (fee : U256)
    (hl : s.main.getLastBlock = .ok (some last)) (hfee : recalculateFee last.info.difficulty = .ok fee)
    (call : ι → Deal) (hc : ∀ i, (call i).Calm) (hgas : ∀ k, ∑ i, (call i).burns k ≤ g k) (log : List (Event ι Node))
    (c : Config ι Node Reply) (h : Exec ⟨⟨s, false⟩, fun i => (call i).prog E⟩ log c) (o : ι → Outcome Reply)
    (hend : ∀ i, c.threads i = .done (o i)) :
    ∃ (made : ι → List Op) (l : List Op), (∀ i, Leaves (call i).steps ((call i).leftover fee.val) (o i) (made i)) ∧
      (l : Multiset Op) = ∑ i, (made i : Multiset Op) ∧ AllAccepted E s l ∧ c.shared.data = runAll E s l := by
  obtain ⟨trace, made, h1, h2, _, h3, _, h4⟩ := exec_trail (life_storeInv hs) hg hl hfee hc hgas h
  refine ⟨made, trace, fun i => ?_, h4, h1, h2⟩
  have := h3 i
  rw [hend i] at this
  exact this

/-- C186. If there is gas for all calls together, and under two schedules every call ends alike, then the node is left the same in every
part, panics of `send_transaction` included. -/
theorem C186_replies (E : Env) (s : Tree) (hs : Life E (.idle s)) (g : Spec.Accounts) (hg : Shows s.gas g) (last : Block) (fee : U256)
    (hl : s.main.getLastBlock = .ok (some last)) (hfee : recalculateFee last.info.difficulty = .ok fee)
    (call : ι → Deal) (hc : ∀ i, (call i).Calm) (hgas : ∀ k, ∑ i, (call i).burns k ≤ g k)
    (hd : ∀ i, ∀ tx ∈ (call i).stores, ∀ j, ∀ tx' ∈ (call j).stores, E.sha256 tx.dump = E.sha256 tx'.dump → tx.dump = tx'.dump)
    (log log' : List (Event ι Node)) (c c' : Config ι Node Reply) (h : Exec ⟨⟨s, false⟩, fun i => (call i).prog E⟩ log c)
    (h' : Exec ⟨⟨s, false⟩, fun i => (call i).prog E⟩ log' c')
    (hsame : ∀ i, ∃ o o', c.threads i = .done o ∧ c'.threads i = .done o' ∧ EndAlike o o') (p : Part) :
    p.Same c.shared.data c'.shared.data := by
  obtain ⟨l, made, a1, a2, _, a3, a5, a4⟩ := exec_trail (life_storeInv hs) hg hl hfee hc hgas h
  obtain ⟨l', made', b1, b2, _, b3, _, b4⟩ := exec_trail (life_storeInv hs) hg hl hfee hc hgas h'
  have he : made = made' := funext fun i => by
    obtain ⟨o, o', e, e', ha⟩ := hsame i
    have x := a3 i
    have y := b3 i
    rw [e] at x
    rw [e'] at y
    exact leaves_alike ha x y
  subst he
  have mem : ∀ o ∈ l, ∃ i, o ∈ (call i).steps := fun o ho => by
    have : o ∈ (l : Multiset Op) := ho
    rw [a4] at this
    obtain ⟨i, _, hi⟩ := Multiset.mem_sum.mp this
    exact ⟨i, (a5 i).subset hi⟩
  have txs : ∀ tx ∈ l.flatMap Op.stores, ∃ i, tx ∈ (call i).stores := fun tx ht => by
    obtain ⟨o, ho, ht⟩ := List.mem_flatMap.mp ht
    obtain ⟨i, hi⟩ := mem o ho
    exact ⟨i, by rw [← steps_stores]; exact List.mem_flatMap.mpr ⟨o, hi, ht⟩⟩
  rw [a2, b2]
  refine C177_order E s hs l l' (Multiset.coe_eq_coe.mp (a4.trans b4.symm)) (fun o ho => ?_) a1 b1 (fun tx ht tx' ht' he => ?_) p
  · obtain ⟨i, hi⟩ := mem o ho
    exact steps_adding _ o hi
  · obtain ⟨i, hi⟩ := txs tx ht
    obtain ⟨j, hj⟩ := txs tx' ht'
    exact hd i tx hi j tx' hj he

end

/-! ## Instances -/

theorem fin_two_sum {M : Type} [AddCommMonoid M] (f : Fin 2 → M) : ∑ i, f i = f 0 + f 1 := by
  rw [show (Finset.univ : Finset (Fin 2)) = {0, 1} from rfl, Finset.sum_pair (by decide)]

/-- A transaction, and a withdrawal of all coins of its sender. -/
def payAndEmpty : Fin 2 → Deal
  | 0 => .send exTx
  | 1 => .brief (.subAmount exTx.sender.val (U256.ofNat 1000000000))

/-- How the two calls end when the withdrawal comes in between. -/
def emptyEnd : Fin 2 → Outcome Reply
  | 0 => .panic .unwrap
  | 1 => .ok .nothing

/-- The hypotheses can be met by a schedule under which `send_transaction` panics, with every hash function; it leaves the transaction stored. -/
theorem pay_and_empty (E : Env) : ∃ s last fee log c, Run E s ∧ Shows s.summary (fundedCoins U256.zero) ∧ Shows s.gas fundedGas ∧
    s.main.getLastBlock = .ok (some last) ∧ recalculateFee last.info.difficulty = .ok fee ∧ (∀ i, (payAndEmpty i).Calm) ∧ (∀ k, ∑ i, (payAndEmpty i).burns k ≤ fundedGas k) ∧
    (∀ i, ∀ tx ∈ (payAndEmpty i).stores, ∀ j, ∀ tx' ∈ (payAndEmpty j).stores, E.sha256 tx.dump = E.sha256 tx'.dump → tx.dump = tx'.dump) ∧
    Exec ⟨⟨s, false⟩, fun i => (payAndEmpty i).prog E⟩ log c ∧ (∀ i, c.threads i = .done (emptyEnd i)) ∧
    (payAndEmpty 0).leftover fee.val = [.addTransaction exTx] ∧
    ∃ l : List Op, (l : Multiset Op) = ([.addTransaction exTx, .subAmount exTx.sender.val (U256.ofNat 1000000000)] : List Op) ∧
      AllAccepted E s l ∧ c.shared.data = runAll E s l := by
  obtain ⟨s, h1, h2, h3, -, last, h5, h6⟩ := funded E U256.zero
  have hi := run_storeInv h1
  have ef := shows_eq h2
  have hne : exTx.sender.val ≠ exTx.receiver.val := fun e => exTx_ne (Subtype.ext e)
  have hsize : exTx.getDumpSize = 145 := by decide +kernel
  have v1 : (U256.ofNat 1000000000).val = 1000000000 := by decide
  have va : exTx.amount.val = 1000 := rfl
  obtain ⟨v, hv⟩ : ∃ v : U256, v.val = 625000000000 * exTx.getDumpSize := ⟨⟨625000000000 * 145, by decide⟩, by rw [hsize]⟩
  have c0 : (s.summary.cur.amt exTx.sender.val).val = 1000000000 := by rw [← funded_sender U256.zero, ef]
  obtain ⟨a1, a2, a3, a4⟩ := sub_coins (t := s) hi.summary.1 (o := exTx.sender.val) (a := U256.ofNat 1000000000) (by omega)
  have c1 := a4 exTx.sender.val
  rw [if_pos rfl] at c1
  obtain ⟨t1, ht1⟩ : ∃ t, t = (Tree.subAmount exTx.sender.val (U256.ofNat 1000000000) s).final := ⟨_, rfl⟩
  rw [← ht1] at a3 c1
  have x0 : Exec ⟨⟨s, false⟩, fun i => (payAndEmpty i).prog E⟩ [] ⟨⟨s, false⟩, fun i => (payAndEmpty i).prog E⟩ := .refl
  obtain ⟨_, x1⟩ := x0.go 0 rfl ((send_checks_run E s exTx _ _ h2 h3
    (funded_affordable U256.zero h5 h6 exTx rfl rfl (by omega)) v hv).bind fun _ => (pure .nothing : Prog Node Reply))
  obtain ⟨_, x2⟩ := x1.go 1 (Function.update_of_ne (by decide) _ _) (runs_brief a1)
  rw [← ht1] at x2
  obtain ⟨u1, hu1⟩ : ∃ t, t = t1.withTx E exTx := ⟨_, rfl⟩
  have s1 : u1.summary = t1.summary := by rw [hu1]; rfl
  obtain ⟨d1, d2⟩ := move_short (t := u1) (by rw [s1]; exact a3) hne (n := exTx.amount) (by rw [s1]; omega)
  obtain ⟨_, y⟩ := x2.go 0 ((Function.update_of_ne (by decide) _ _).trans (Function.update_self _ _ _))
    (q := .done (.panic .unwrap)) (t := ⟨u1, false⟩) (by
      refine Prog.Runs.bind (q := .done (.panic .unwrap)) (f := fun _ => (pure .nothing : Prog Node Reply)) ?_
      refine (Prog.runs_bind_ok (a := ()) (t := ⟨u1, false⟩) (by rw [hu1]; rfl) _).trans ?_
      refine Prog.Runs.bind (q := .done (.panic .unwrap)) (f := fun _ => payStep exTx v) (Prog.runs_of_solo ?_)
      have := Node.implAt_onTree (Tree.sendAmount exTx.sender.val exTx.receiver.val exTx.amount) u1
      unfold Node.ImplAt at this
      rw [this, d1, d2])
  have hc : ∀ i, (payAndEmpty i).Calm := fun i => by
    match i with
    | 0 => trivial
    | 1 => trivial
  have hgas : ∀ k, ∑ i, (payAndEmpty i).burns k ≤ fundedGas k := fun k => by
    rw [fin_two_sum]
    change (if k = exTx.sender.val then 625000000000 * exTx.getDumpSize else 0) + 0 ≤ _
    split
    · rename_i hk
      rw [hk, funded_gas, hsize]
      omega
    · exact Nat.zero_le _
  have hs : ∀ i, ∀ tx ∈ (payAndEmpty i).stores, tx = exTx := fun i tx h => by
    match i with
    | 0 => exact List.mem_singleton.mp h
    | 1 => cases h
  obtain ⟨log, c, y, hend⟩ : ∃ log c, Exec ⟨⟨s, false⟩, fun i => (payAndEmpty i).prog E⟩ log c ∧ ∀ i, c.threads i = .done (emptyEnd i) :=
    ⟨_, _, y, fun i => by
      match i with
      | 0 => simp [emptyEnd]
      | 1 => simp; rfl⟩
  have hleft : (payAndEmpty 0).leftover (U256.ofNat 62500).val = [.addTransaction exTx] := by
    change (Deal.send exTx).leftover _ = _
    unfold Deal.leftover
    exact if_pos ⟨by rw [hsize]; decide, by decide +kernel⟩
  obtain ⟨made, l, m1, m2, m3, m4⟩ := C186_left E s (run_life h1) _ h3 last _ h5 h6 payAndEmpty hc hgas _ _ y emptyEnd hend
  refine ⟨s, last, _, _, _, h1, h2, h3, h5, h6, hc, hgas, fun i tx h j tx' h' _ => by rw [hs i tx h, hs j tx' h'], y, hend, hleft,
    l, ?_, m3, m4⟩
  have e0 : made 0 = [.addTransaction exTx] := ((m1 0).2.2 (fun a h => by cases h) fun a h => by cases h).trans hleft
  have e1 : made 1 = [.subAmount exTx.sender.val (U256.ofNat 1000000000)] := (m1 1).1 .nothing rfl
  rw [m2, fin_two_sum, e0, e1]
  rfl

end BCT.Props
