import Verif.Props.ThreadsSerial
import Verif.Props.ThreadsDeriv
import Verif.Props.DerivCrash
/-!
# C152: calls of many threads on a derivative chain take effect one after the other (chain.rs:582-714)
-/

namespace BCT.Props
open BCT

variable {ι κ α β : Type}

/-! ## The calls -/

/-- What threads call on the derivative chain. -/
inductive DerivCall where
  | add (b : DerivativeBlock)
  | lookup (l : Node.Lookup)

/-- The call, in a thread. -/
def DerivCall.call : DerivCall → Shared.Call
  | .add b => .addBlock b
  | .lookup (.byHeight k) => .byHeight k
  | .lookup (.byHash q) => .byHash q
  | .lookup .last => .last

/-- What the call returns and leaves behind when it is made alone, by the sequential functions. -/
def DerivCall.alone (E : Env) : DerivCall → DerivativeChain → Outcome (Option Bytes) × DerivativeChain
  | .add b, d => let r := DerivativeChain.addBlock E b d; (r.out >>= fun _ => .ok none, r.final)
  | .lookup (.byHeight k), d => (.ok (d.chain.findRawByHeight k), d)
  | .lookup (.byHash q), d => (d.chain.findRawByHash q, d)
  | .lookup .last, d => (d.getLastRawBlock, d)

/-- The chain after the calls of these threads, one after the other. -/
def afterDeriv (E : Env) (call : ι → DerivCall) (d : DerivativeChain) : List ι → DerivativeChain
  | [] => d
  | i :: l => afterDeriv E call ((call i).alone E d).2 l

/-- The call looks a block up by its hash. -/
def DerivCall.byHash : DerivCall → Prop
  | .lookup (.byHash _) => True
  | _ => False

/-- The call adds a block. -/
def DerivCall.adds : DerivCall → Prop
  | .add _ => True
  | _ => False

/-- Threads `ι` use the derivative chain of `o`, threads `κ` the node. -/
def bothStart (E : Env) (s : Tree) (o : Address) (call : ι → DerivCall) (other : κ → Node.AnyCall) :
    Config (ι ⊕ κ) Shared (Option Bytes) :=
  ⟨⟨⟨s, false⟩, ⟨s.handle o, false⟩⟩, Sum.elim (fun i => (call i).call.prog E) (fun j => (Shared.Call.node (other j)).prog E)⟩

/-- The order explains what the threads using the derivative chain returned and what they made of it. -/
structure DerivExplains (E : Env) (d : DerivativeChain) (call : ι → DerivCall) (c : Config (ι ⊕ κ) Shared (Option Bytes))
    (order : List ι) : Prop where
  nodup : order.Nodup
  all : ∀ i, i ∈ order
  answers : ∀ before i after, order = before ++ i :: after →
    c.threads (.inl i) = .done ((call i).alone E (afterDeriv E call d before)).1
  state : c.shared.deriv = ⟨afterDeriv E call d order, false⟩

/-- `j` may be put before `i` although `i` had ended when `j` began: `j` looks a block up by its hash, and `i` does so in
another way. -/
def MaySlip (call : ι → DerivCall) (i j : ι) : Prop := (call j).byHash ∧ ¬ (call i).byHash ∧ ¬ (call i).adds

/-! ## The derivative chain in the place of the main chain -/

/-- A tree whose main chain is this chain. -/
def asMain (base : Tree) (d : DerivativeChain) : Tree := Node.setChain (fun _ => d.chain) base

def asNode (base : Tree) (s : Shared) : Node := ⟨asMain base s.deriv.data, s.deriv.held⟩

/-- The same call on a main chain. -/
def DerivCall.twin : DerivCall → Call
  | .add b => .add (.derivative b)
  | .lookup l => .lookup l

/-- What the call on the derivative chain returns when the call on the main chain returns this. -/
def DerivCall.fix : DerivCall → Outcome Reply → Outcome (Option Bytes)
  | .add _, .ok _ => .ok none
  | .lookup _, .ok (.block r) => .ok r
  | .lookup _, .ok _ => .ok none
  | _, .err e => .err e
  | .lookup .last, .panic _ => .ok none
  | _, .panic p => .panic p
  | _, .ub => .ub

/-- The two programs do the same. -/
inductive Twin (base : Tree) (R : Outcome α → Outcome β → Prop) : Prog Shared α → Prog Node β → Prop where
  | done (o : Outcome α) (o' : Outcome β) : R o o' → Twin base R (.done o) (.done o')
  | step (next : Shared → Option Shared) (rest : Shared → Prog Shared α) (next' : Node → Option Node)
      (rest' : Node → Prog Node β) : (∀ s, (next s).map (asNode base) = next' (asNode base s)) →
      (∀ s s', next s = some s' → s'.deriv.data.genesisHash = s.deriv.data.genesisHash) →
      (∀ s, Twin base R (rest s) (rest' (asNode base s))) → Twin base R (.step next rest) (.step next' rest')

theorem Twin.bind {γ : Type} {base : Tree} {R : Outcome β → Outcome γ → Prop} {p : Prog Shared α} {q : Prog Node α}
    {f : α → Prog Shared β} {g : α → Prog Node γ} (h : Twin base Eq p q) (he : ∀ e, R (.err e) (.err e))
    (hp : ∀ e, R (.panic e) (.panic e)) (hu : R .ub .ub) (hf : ∀ a, Twin base R (f a) (g a)) :
    Twin base R (p >>= f) (q >>= g) := by
  induction h with
  | done o o' e =>
    subst e
    cases o with
    | ok a => exact hf a
    | err e => exact .done _ _ (he e)
    | panic e => exact .done _ _ (hp e)
    | ub => exact .done _ _ hu
  | step next rest next' rest' h1 h2 _ ih => exact .step _ _ _ _ h1 h2 ih

theorem twin_then {γ : Type} {base : Tree} {p : Prog Shared α} {q : Prog Node α} {f : α → Prog Shared γ} {g : α → Prog Node γ}
    (h : Twin base Eq p q) (hf : ∀ a, Twin base Eq (f a) (g a)) : Twin base Eq (p >>= f) (q >>= g) :=
  h.bind (fun _ => rfl) (fun _ => rfl) rfl hf

theorem twin_lift {base : Tree} (o : Outcome α) : Twin base Eq (Prog.lift o) (Prog.lift o) := .done _ _ rfl

theorem asMain_chain (base : Tree) (d : DerivativeChain) : (asMain base d).main.chain = d.chain := rfl

theorem twin_read {base : Tree} {f : DerivativeChain → Outcome α} {g : Tree → Outcome α} (h : ∀ d, f d = g (asMain base d)) :
    Twin base Eq (Shared.read f) (Node.read g) :=
  .step _ _ _ _ (fun _ => rfl) (fun _ _ e => by cases e; rfl) (fun s => .done _ _ (h s.deriv.data))

theorem twin_write {base : Tree} (f : Chain → Chain) :
    Twin base Eq (Shared.write (Shared.setChain f)) (Node.write (Node.setChain f)) :=
  .step _ _ _ _ (fun _ => rfl) (fun _ _ e => by cases e; rfl) (fun _ => .done _ _ rfl)

theorem twin_readHeight {base : Tree} : Twin base Eq Shared.readHeight Node.readHeight :=
  .step _ _ _ _ (fun s => by cases h : s.deriv.held <;> simp [asNode, h])
    (fun s s' e => by simp only [Option.ite_none_left_eq_some] at e; cases e.2; rfl) (fun _ => .done _ _ rfl)

theorem twin_lock {base : Tree} : Twin base Eq Shared.lock Node.lock :=
  .step _ _ _ _ (fun s => by cases h : s.deriv.held <;> simp [asNode, h])
    (fun s s' e => by simp only [Option.ite_none_left_eq_some] at e; cases e.2; rfl) (fun _ => .done _ _ rfl)

theorem twin_unlock {base : Tree} : Twin base Eq Shared.unlock Node.unlock :=
  .step _ _ _ _ (fun _ => rfl) (fun _ _ e => by cases e; rfl) (fun _ => .done _ _ rfl)

theorem twin_addBlock {base : Tree} (E : Env) (b : DerivativeBlock) :
    Twin base Eq (Shared.addBlock E b) (Node.addBlock E (.derivative b)) := by
  refine twin_then twin_lock fun _ => twin_then (twin_read fun _ => rfl) fun h => ?_
  change Twin base Eq (if b.defaultInfo.height ≠ h then _ else _) (if b.defaultInfo.height ≠ h then _ else _)
  split
  · exact twin_then twin_unlock fun _ => twin_lift _
  · refine twin_then (twin_write _) fun _ => twin_then (twin_write _) fun _ => ?_
    cases h.add U256.one with
    | ok h' => exact twin_then (twin_write _) fun _ => twin_unlock
    | err e => exact twin_then twin_unlock fun _ => twin_then (twin_lift _) fun _ => .done _ _ rfl
    | panic e => exact twin_then twin_unlock fun _ => twin_then (twin_lift _) fun _ => .done _ _ rfl
    | ub => exact twin_then twin_unlock fun _ => twin_then (twin_lift _) fun _ => .done _ _ rfl

theorem twin_findRawByHeight {base : Tree} (k : U256) : Twin base Eq (Shared.findRawByHeight k) (Node.findRawByHeight k) := by
  refine twin_then twin_readHeight fun h => ?_
  split
  · exact .done _ _ rfl
  · exact twin_read fun _ => rfl

theorem twin_findRawByHash {base : Tree} (q : Hash) : Twin base Eq (Shared.findRawByHash q) (Node.findRawByHash q) := by
  refine twin_then (twin_read fun _ => rfl) fun r => ?_
  cases r with
  | none => exact .done _ _ rfl
  | some h => exact twin_then (twin_lift _) fun _ => twin_findRawByHeight _

theorem bind_pure_read (p : Prog Shared (Option Bytes)) : (p >>= fun r => (pure r : Prog Shared (Option Bytes))) = p := by
  induction p with
  | done o => cases o <;> rfl
  | step next rest ih => exact congrArg (Prog.step next) (funext ih)

theorem twin_call {base : Tree} (E : Env) (k : DerivCall) :
    Twin base (fun o o' => o = k.fix o') (k.call.prog E) (k.twin.prog E) := by
  cases k with
  | add b =>
    exact Twin.bind (twin_addBlock E b) (fun _ => rfl) (fun _ => rfl) rfl fun _ => .done _ _ rfl
  | lookup l =>
    cases l with
    | byHeight k =>
      have := Twin.bind (base := base) (R := fun o o' => o = (DerivCall.lookup (.byHeight k)).fix o')
        (f := fun r => (pure r : Prog Shared (Option Bytes))) (g := fun r => (pure (.block r) : Prog Node Reply))
        (twin_findRawByHeight k) (fun _ => rfl) (fun _ => rfl) rfl fun _ => .done _ _ rfl
      rw [bind_pure_read] at this
      exact this
    | byHash q =>
      have := Twin.bind (base := base) (R := fun o o' => o = (DerivCall.lookup (.byHash q)).fix o')
        (f := fun r => (pure r : Prog Shared (Option Bytes))) (g := fun r => (pure (.block r) : Prog Node Reply))
        (twin_findRawByHash q) (fun _ => rfl) (fun _ => rfl) rfl fun _ => .done _ _ rfl
      rw [bind_pure_read] at this
      exact this
    | last =>
      refine .step _ _ _ _ (fun s => by cases h : s.deriv.held <;> simp [asNode, h])
        (fun s s' e => by simp only [Option.ite_none_left_eq_some] at e; cases e.2; rfl) (fun s => ?_)
      change Twin base _ (if s.deriv.data.chain.height.val = 0 then pure none else
          Prog.lift (s.deriv.data.chain.height.sub U256.one) >>= Shared.findRawByHeight)
        ((Prog.lift (s.deriv.data.chain.height.sub U256.one) >>= Node.findRawByHeight) >>= wrap)
      by_cases h0 : s.deriv.data.chain.height.val = 0
      · have e : s.deriv.data.chain.height.sub U256.one = .panic .overflow := by
          unfold U256.sub; rw [if_neg (by rw [h0]; decide)]
        rw [if_pos h0, e]
        exact .done _ _ rfl
      · obtain ⟨k, e⟩ : ∃ k, s.deriv.data.chain.height.sub U256.one = .ok k := by
          unfold U256.sub; rw [if_pos (by change 1 ≤ _; omega)]; exact ⟨_, rfl⟩
        rw [if_neg h0, e]
        refine .step _ _ _ _ (fun s => by cases h : s.deriv.held <;> simp [asNode, h])
          (fun s s' e => by simp only [Option.ite_none_left_eq_some] at e; cases e.2; rfl) (fun t => ?_)
        change Twin base _ (if t.deriv.data.chain.height.val < k.val then pure none else
            Shared.read (fun d => .ok (d.chain.blocks.get k.toBE.val)))
          ((if t.deriv.data.chain.height.val < k.val then pure none else
            Node.read (fun t => .ok (t.main.chain.blocks.get k.toBE.val))) >>= wrap)
        split
        · exact .done _ _ rfl
        · exact .step _ _ _ _ (fun _ => rfl) (fun _ _ e => by cases e; rfl) (fun _ => .done _ _ rfl)

theorem alone_twin (base : Tree) (E : Env) (k : DerivCall) (d : DerivativeChain) :
    (k.alone E d).1 = k.fix (k.twin.alone E (asMain base d)).1 ∧
    asMain base (k.alone E d).2 = (k.twin.alone E (asMain base d)).2 ∧ (k.alone E d).2.genesisHash = d.genesisHash := by
  cases k with
  | add b =>
    refine ⟨?_, rfl, rfl⟩
    show ((Chain.addBlock E b.defaultInfo.height b.dump d.chain).out >>= fun _ => Outcome.ok none) = DerivCall.fix _
      ((Chain.addBlock E b.defaultInfo.height b.dump d.chain).out >>= fun _ => Outcome.ok Reply.nothing)
    cases (Chain.addBlock E b.defaultInfo.height b.dump d.chain).out <;> rfl
  | lookup l =>
    cases l with
    | byHeight k => exact ⟨rfl, rfl, rfl⟩
    | byHash q =>
      refine ⟨?_, rfl, rfl⟩
      show d.chain.findRawByHash q = DerivCall.fix _ (d.chain.findRawByHash q >>= fun r => Outcome.ok (Reply.block r))
      cases d.chain.findRawByHash q <;> rfl
    | last =>
      refine ⟨?_, rfl, rfl⟩
      show (if d.chain.height.val = 0 then Outcome.ok none else
          (d.chain.height.sub U256.one >>= fun i => Outcome.ok (d.chain.findRawByHeight i))) = DerivCall.fix _
        ((d.chain.height.sub U256.one >>= fun i => Outcome.ok (d.chain.findRawByHeight i)) >>= fun r => Outcome.ok (Reply.block r))
      by_cases h0 : d.chain.height.val = 0
      · have e : d.chain.height.sub U256.one = .panic .overflow := by
          unfold U256.sub; rw [if_neg (by rw [h0]; decide)]
        rw [if_pos h0, e]
        rfl
      · obtain ⟨k, e⟩ : ∃ k, d.chain.height.sub U256.one = .ok k := by
          unfold U256.sub; rw [if_pos (by change 1 ≤ _; omega)]; exact ⟨_, rfl⟩
        rw [if_neg h0, e]
        rfl

theorem after_twin (base : Tree) (E : Env) (call : ι → DerivCall) (l : List ι) : ∀ d,
    asMain base (afterDeriv E call d l) = afterCalls E (fun i => (call i).twin) (asMain base d) l ∧
    (afterDeriv E call d l).genesisHash = d.genesisHash := by
  induction l with
  | nil => exact fun d => ⟨rfl, rfl⟩
  | cons i l ih =>
    intro d
    obtain ⟨-, h2, h3⟩ := alone_twin base E (call i) d
    obtain ⟨k1, k2⟩ := ih ((call i).alone E d).2
    refine ⟨k1.trans ?_, k2.trans h3⟩
    rw [h2]; rfl

/-! ## The same execution on a main chain -/

/-- The step as one of a thread that uses the derivative chain. -/
def keepStep (base : Tree) (e : Event (ι ⊕ κ) Shared) : Option (Event ι Node) :=
  e.thread.getLeft?.map fun i => ⟨i, asNode base e.before, asNode base e.after⟩

theorem exec_twin [DecidableEq ι] [DecidableEq κ] {E : Env} {s : Tree} {o : Address} {call : ι → DerivCall}
    {other : κ → Node.AnyCall} {log : List (Event (ι ⊕ κ) Shared)} {c : Config (ι ⊕ κ) Shared (Option Bytes)}
    (h : Exec (bothStart E s o call other) log c) :
    ∃ c', Exec ⟨⟨asMain s (s.handle o), false⟩, fun i => (call i).twin.prog E⟩ (log.filterMap (keepStep s)) c' ∧
      c'.shared = asNode s c.shared ∧ c.shared.deriv.data.genesisHash = (s.handle o).genesisHash ∧
      (∀ i, Twin s (fun o o' => o = (call i).fix o') (c.threads (.inl i)) (c'.threads i)) ∧
      ∀ j, ∃ p, c.threads (.inr j) = Shared.onNode p := by
  induction h with
  | refl => exact ⟨_, .refl, rfl, rfl, fun i => twin_call E (call i), fun j => ⟨(other j).prog E, rfl⟩⟩
  | @step log c i next rest s' _ hi hn ih =>
    obtain ⟨c', h1, h2, h3, h4, h5⟩ := ih
    cases i with
    | inl i =>
      have hw := h4 i
      rw [hi] at hw
      generalize hq : c'.threads i = q at hw
      cases hw with
      | step _ _ next' rest' k1 k2 k3 =>
        refine ⟨⟨asNode s s', Function.update c'.threads i (rest' c'.shared)⟩, ?_, rfl, (k2 _ _ hn).trans h3, fun j => ?_,
          fun j => ?_⟩
        · have hn' : next' c'.shared = some (asNode s s') := by rw [h2, ← k1, hn]; rfl
          have := Exec.step i h1 hq hn'
          rw [h2] at this ⊢
          simpa [List.filterMap_append, keepStep] using this
        · by_cases e : j = i
          · subst e
            simp only [Function.update_self]
            rw [h2]
            exact k3 c.shared
          · dsimp only
            rw [Function.update_of_ne e, Function.update_of_ne (by simpa using e)]
            exact h4 j
        · dsimp only
          rw [Function.update_of_ne (by simp)]
          exact h5 j
    | inr j =>
      obtain ⟨p, hp⟩ := h5 j
      rw [hi] at hp
      cases p with
      | done o => cases hp
      | step n r =>
        simp only [Shared.onNode, Prog.step.injEq] at hp
        obtain ⟨rfl, rfl⟩ := hp
        have hd : s'.deriv = c.shared.deriv := by
          cases hx : n c.shared.node with
          | none => simp [hx] at hn
          | some y => simp only [hx, Option.map_some, Option.some.injEq] at hn; subst hn; rfl
        refine ⟨c', by rw [List.filterMap_append]; simpa [List.filterMap_cons, keepStep] using h1, ?_, ?_, fun i => ?_, fun k => ?_⟩
        · rw [h2]; unfold asNode; rw [hd]
        · show s'.deriv.data.genesisHash = _; rw [hd]; exact h3
        · dsimp only; rw [Function.update_of_ne (by simp)]; exact h4 i
        · by_cases e : k = j
          · subst e
            dsimp only
            rw [Function.update_self]
            exact ⟨_, rfl⟩
          · dsimp only; rw [Function.update_of_ne (by simpa using e)]; exact h5 k

theorem exec_back [DecidableEq ι] {E : Env} {s : Tree} {o : Address} {call : ι → DerivCall}
    {log : List (Event ι Node)} {c : Config ι Node Reply}
    (h : Exec ⟨⟨asMain s (s.handle o), false⟩, fun i => (call i).twin.prog E⟩ log c) :
    ∃ log' c', Exec (bothStart E s o call (fun x : Empty => nomatch x)) log' c' ∧
      log'.map (fun e => e.thread) = log.map (fun e => .inl e.thread) ∧
      c.shared = asNode s c'.shared ∧
      ∀ i, Twin s (fun o o' => o = (call i).fix o') (c'.threads (.inl i)) (c.threads i) := by
  induction h with
  | refl => exact ⟨[], _, .refl, rfl, rfl, fun i => twin_call E (call i)⟩
  | @step log c i next rest s' _ hi hn ih =>
    obtain ⟨log', c', h1, h2, h3, h4⟩ := ih
    have hw := h4 i
    rw [hi] at hw
    generalize hq : c'.threads (.inl i) = q at hw
    cases hw with
    | step next' rest' _ _ k1 k2 k3 =>
      have hx := k1 c'.shared
      rw [← h3, hn] at hx
      cases hy : next' c'.shared with
      | none => rw [hy] at hx; cases hx
      | some y =>
        rw [hy] at hx
        refine ⟨_, _, Exec.step (.inl i) h1 hq hy, by simp [h2], ?_, fun j => ?_⟩
        · simpa using hx.symm
        · by_cases e : j = i
          · subst e
            simp only [Function.update_self]
            rw [h3]
            exact k3 c'.shared
          · dsimp only
            rw [Function.update_of_ne e, Function.update_of_ne (by simpa using e)]
            exact h4 j

theorem asMain_inj {base : Tree} {d d' : DerivativeChain} (h : asMain base d = asMain base d')
    (hg : d.genesisHash = d'.genesisHash) : d = d' := by
  have : d.chain = d'.chain := by rw [← asMain_chain base d, h]; rfl
  cases d; cases d'
  simp only at this hg
  rw [this, hg]

theorem twin_byHash (k : DerivCall) : k.twin.byHash ↔ k.byHash := by
  cases k with
  | add b => exact Iff.rfl
  | lookup l => cases l <;> exact Iff.rfl

theorem twin_adds (k : DerivCall) : k.twin.adds ↔ k.adds := by
  cases k with
  | add b => exact Iff.rfl
  | lookup l => exact Iff.rfl

/-! ## C152 -/

/-- C152, what holds. Any number of threads add blocks to a derivative chain and look blocks up in it, while others use the
node, with any history before. Under every schedule, when all calls on the derivative chain have ended, there is an order of
these calls that explains what they returned and the chain they left; and the order respects which call ended before which
began, except that a lookup by hash may come before lookups of other kinds that had ended when it began.
Missing: this exception (`C152_refuted`). -/
theorem C152_serializable_partial [DecidableEq ι] [Fintype ι] [DecidableEq κ] (E : Env) (s : Tree) (hr : Run E s) (o : Address)
    (call : ι → DerivCall) (other : κ → Node.AnyCall) (log : List (Event (ι ⊕ κ) Shared))
    (c : Config (ι ⊕ κ) Shared (Option Bytes)) (h : Exec (bothStart E s o call other) log c)
    (hm : (s.handle o).chain.height.val + Fintype.card ι + 1 < U256.size) (hall : ∀ i, hasEnded (c.threads (.inl i))) :
    ∃ order, DerivExplains E (s.handle o) call c order ∧
      ∀ i j, EndedFirst log (.inl i) (.inl j) → ¬ MaySlip call i j → Locked.Before order i j := by
  obtain ⟨c', h1, h2, h3, h4, -⟩ := exec_twin h
  obtain ⟨bs, hb⟩ := run_derivHolds hr o (by omega)
  have ended : ∀ i, ∃ o', c'.threads i = .done o' ∧ c.threads (.inl i) = .done ((call i).fix o') := fun i => by
    obtain ⟨o, ho⟩ := hall i
    have hw := h4 i
    rw [ho] at hw
    generalize hq : c'.threads i = q at hw
    cases hw with
    | done _ o' e => exact ⟨o', rfl, by rw [ho, e]⟩
  obtain ⟨k0, order, hex, hbef⟩ := serial_all (s := asMain s (s.handle o)) hb h1 hm
    (fun i => by obtain ⟨o', ho, -⟩ := ended i; exact ⟨_, ho⟩)
  have hst : c.shared.deriv.data = afterDeriv E call (s.handle o) order := by
    refine asMain_inj (base := s) ?_ ?_
    · rw [(after_twin s E call order (s.handle o)).1, ← hex.state, h2]; rfl
    · rw [h3, (after_twin s E call order (s.handle o)).2]
  refine ⟨order, ⟨hex.nodup, hex.all, fun before i after e => ?_, ?_⟩, fun i j hij hp => ?_⟩
  · obtain ⟨o', e1, e2⟩ := ended i
    have := hex.answers before i after e
    rw [e1] at this
    cases this
    rw [e2, (alone_twin s E (call i) _).1, (after_twin s E call before (s.handle o)).1]
  · rw [h2] at k0
    have k0 : c.shared.deriv.held = false := k0
    rw [← hst, ← k0]
  · refine hbef i j ?_ fun hpass => hp ?_
    · obtain ⟨l1, l2, rfl, g1, g2⟩ := hij
      refine ⟨l1.filterMap (keepStep s), l2.filterMap (keepStep s), List.filterMap_append, fun e he => ?_, fun e he => ?_⟩
      · obtain ⟨x, hx, hk⟩ := List.mem_filterMap.mp he
        have := g1 x hx
        cases ht : x.thread with
        | inl y => simp only [keepStep, ht, Sum.getLeft?_inl, Option.map_some, Option.some.injEq] at hk; subst hk; rw [ht] at this; simpa using this
        | inr y => simp [keepStep, ht] at hk
      · obtain ⟨x, hx, hk⟩ := List.mem_filterMap.mp he
        have := g2 x hx
        cases ht : x.thread with
        | inl y => simp only [keepStep, ht, Sum.getLeft?_inl, Option.map_some, Option.some.injEq] at hk; subst hk; rw [ht] at this; simpa using this
        | inr y => simp [keepStep, ht] at hk
    · exact ⟨(twin_byHash _).mp hpass.1, fun q => hpass.2.1 ((twin_byHash _).mpr q), fun q => hpass.2.2 ((twin_adds _).mpr q)⟩

/-- C152 in full. -/
def C152_full : Prop := ∀ (ι : Type) [DecidableEq ι] [Fintype ι] (κ : Type) [DecidableEq κ] (E : Env) (s : Tree) (o : Address)
  (call : ι → DerivCall) (other : κ → Node.AnyCall) (log : List (Event (ι ⊕ κ) Shared))
  (c : Config (ι ⊕ κ) Shared (Option Bytes)), Run E s → (s.handle o).chain.height.val + Fintype.card ι + 1 < U256.size →
  Exec (bothStart E s o call other) log c → (∀ i, hasEnded (c.threads (.inl i))) →
  ∃ order, DerivExplains E (s.handle o) call c order ∧ ∀ i j, EndedFirst log (.inl i) (.inl j) → Locked.Before order i j

/-- Thread 0 adds the block, thread 1 looks it up by its height, thread 2 by its hash. -/
def threeDeriv (E : Env) (b : DerivativeBlock) (i : Fin 3) : DerivCall :=
  if i = 0 then .add b else if i = 1 then .lookup (.byHeight b.defaultInfo.height) else .lookup (.byHash (E.sha256 b.dump))

theorem threeDeriv_twin (E : Env) (b : DerivativeBlock) : (fun i => (threeDeriv E b i).twin) = threeCalls E (.derivative b) := by
  funext i
  unfold threeDeriv threeCalls
  split
  · rfl
  · split <;> rfl

/-- For every block that can be added and whose hash is new, some schedule of the three calls is explained by no order that
respects time. -/
theorem no_derivOrder (E : Env) (s : Tree) (o : Address) (b : DerivativeBlock) (hr : Run E s)
    (hm : (s.handle o).chain.height.val + 1 < U256.size) (hb : b.defaultInfo.height = (s.handle o).chain.height)
    (hnew : (s.handle o).chain.heightReference.get (E.sha256 b.dump).val = none) :
    ∃ log c, Exec (bothStart E s o (threeDeriv E b) (fun x : Empty => nomatch x)) log c ∧
      (∀ i, hasEnded (c.threads (.inl i))) ∧ EndedFirst log (.inl 1) (.inl 2) ∧
      c.threads (.inl 1) = .done (.ok (some b.dump)) ∧ c.threads (.inl 2) = .done (.ok none) ∧
      ¬ ∃ order, DerivExplains E (s.handle o) (threeDeriv E b) c order ∧ Locked.Before order 1 2 := by
  obtain ⟨bs, hH⟩ := run_derivHolds hr o hm
  obtain ⟨log, c, h1, h2, h3, k1, k2⟩ := height_first E (asMain s (s.handle o)) (.derivative b) hm hb hnew
  rw [← threeDeriv_twin] at h1
  obtain ⟨log', c', g1, g2, g3, g4⟩ := exec_back h1
  have ended : ∀ i o', c.threads i = .done o' → c'.threads (.inl i) = .done ((threeDeriv E b i).fix o') := fun i o' ho => by
    have hw := g4 i
    rw [ho] at hw
    generalize hq : c'.threads (.inl i) = q at hw
    cases hw with
    | done o _ e => rw [e]
  refine ⟨log', c', g1, fun i => ?_, ?_, ended 1 _ k1, ended 2 _ k2, ?_⟩
  · obtain ⟨o', ho⟩ := h2 i; exact ⟨_, ended i o' ho⟩
  · obtain ⟨l1, l2, rfl, q1, q2⟩ := h3
    rw [List.map_append] at g2
    obtain ⟨m1, m2, rfl, w1, w2⟩ := List.map_eq_append_iff.mp g2
    refine ⟨m1, m2, rfl, fun e he ht => ?_, fun e he ht => ?_⟩
    · have : e.thread ∈ l2.map fun e => Sum.inl e.thread := w2 ▸ List.mem_map_of_mem he
      obtain ⟨x, hx, hy⟩ := List.mem_map.mp this
      rw [ht] at hy
      exact q1 x hx (Sum.inl.inj hy)
    · have : e.thread ∈ l1.map fun e => Sum.inl e.thread := w1 ▸ List.mem_map_of_mem he
      obtain ⟨x, hx, hy⟩ := List.mem_map.mp this
      rw [ht] at hy
      exact q2 x hx (Sum.inl.inj hy)
  · rintro ⟨order, hex, x, y, z, ho⟩
    have hn := hex.nodup
    have a1 := hex.answers x 1 (y ++ 2 :: z) ho
    have a2 := hex.answers (x ++ 1 :: y) 2 z (by rw [ho]; simp)
    rw [ho] at hn
    rw [ended 1 _ k1] at a1
    rw [ended 2 _ k2] at a2
    refine no_answers (s := asMain s (s.handle o)) (b := .derivative b) hH hm hb hn ?_ ?_
    · rw [← threeDeriv_twin, ← (after_twin s E (threeDeriv E b) x (s.handle o)).1]
      have e1 : (Prog.done (.ok (some b.dump)) : Prog Shared (Option Bytes)) =
        .done (.ok ((afterDeriv E (threeDeriv E b) (s.handle o) x).chain.findRawByHeight b.defaultInfo.height)) := a1
      simp only [Prog.done.injEq, Outcome.ok.injEq] at e1
      exact e1.symm
    · rw [← threeDeriv_twin, ← (after_twin s E (threeDeriv E b) _ (s.handle o)).1]
      have e2 : (Prog.done (.ok none) : Prog Shared (Option Bytes)) =
        .done ((afterDeriv E (threeDeriv E b) (s.handle o) (x ++ 1 :: y)).chain.findRawByHash (E.sha256 b.dump)) := a2
      simp only [Prog.done.injEq] at e2
      exact e2.symm

theorem freshDeriv_run (E : Env) (o : Address) :
    Run E (freshWith E o (newDeriv E)) ∧ (freshWith E o (newDeriv E)).handle o = newDeriv E := by
  refine ⟨?_, Tree.handle_put_self _ _ _⟩
  have := RunWith.call (E := E) (allowed := fun _ => True) _ (.getDerivativeChain o) .fresh trivial
  rwa [show ((Op.getDerivativeChain o).run E (openTree E Disk.empty).final).final = freshWith E o (newDeriv E) from by
    show (Tree.getDerivativeChain E o (openTree E Disk.empty).final).final = _; rw [fresh_get]] at this

/-- C152 is false of the code: in every state, for every derivative block that can be added and whose hash is new, some
schedule of three calls is explained by no order that respects time. A lookup by height has found the block and ended before
the lookup by hash begins, which does not find it. -/
theorem C152_refuted :
    (∀ (E : Env) (s : Tree) (o : Address) (b : DerivativeBlock), Run E s → (s.handle o).chain.height.val + 1 < U256.size →
      b.defaultInfo.height = (s.handle o).chain.height →
      (s.handle o).chain.heightReference.get (E.sha256 b.dump).val = none →
      ∃ log c, Exec (bothStart E s o (threeDeriv E b) (fun x : Empty => nomatch x)) log c ∧
        (∀ i, hasEnded (c.threads (.inl i))) ∧ EndedFirst log (.inl 1) (.inl 2) ∧
        c.threads (.inl 1) = .done (.ok (some b.dump)) ∧ c.threads (.inl 2) = .done (.ok none) ∧
        ¬ ∃ order, DerivExplains E (s.handle o) (threeDeriv E b) c order ∧ Locked.Before order 1 2) ∧
    ¬ C152_full := by
  refine ⟨no_derivOrder, fun hfull => ?_⟩
  obtain ⟨hr, hh⟩ := freshDeriv_run zeroEnv ROOT_PUBLIC_ADDRESS
  obtain ⟨log, c, h1, h2, h3, -, -, h4⟩ := no_derivOrder zeroEnv _ ROOT_PUBLIC_ADDRESS exDerivBlock hr
    (by rw [hh]; exact zero_add_one_lt) (by rw [hh]; rfl) (by rw [hh]; rfl)
  obtain ⟨order, h5, h6⟩ := hfull (Fin 3) Empty _ _ ROOT_PUBLIC_ADDRESS _ _ log c hr (by rw [hh]; decide) h1 h2
  exact h4 ⟨order, h5, h6 1 2 h3⟩

/-- `C152_serializable_partial` is about something: on a new node the three calls can all end, interleaved, with a block
added. -/
example (E : Env) (o : Address) : ∃ (s : Tree) (log : _) (c : Config (Fin 3 ⊕ Empty) Shared (Option Bytes)) (order : List (Fin 3)),
    Run E s ∧ Exec (bothStart E s o (threeDeriv E exDerivBlock) (fun x : Empty => nomatch x)) log c ∧
    (s.handle o).chain.height.val + Fintype.card (Fin 3) + 1 < U256.size ∧ (∀ i, hasEnded (c.threads (.inl i))) ∧
    DerivExplains E (s.handle o) (threeDeriv E exDerivBlock) c order ∧ c.threads (.inl 1) = .done (.ok (some exDerivBlock.dump)) := by
  obtain ⟨hr, hh⟩ := freshDeriv_run E o
  obtain ⟨log, c, h1, h2, -, h3, -, -⟩ := no_derivOrder E _ o exDerivBlock hr
    (by rw [hh]; exact zero_add_one_lt) (by rw [hh]; rfl) (by rw [hh]; rfl)
  have hm : ((freshWith E o (newDeriv E)).handle o).chain.height.val + Fintype.card (Fin 3) + 1 < U256.size := by
    rw [hh]; show 0 + 3 + 1 < U256.size; decide
  obtain ⟨order, ho, -⟩ := C152_serializable_partial E _ hr o _ _ log c h1 hm h2
  exact ⟨_, log, c, order, hr, h1, hm, h2, ho, h3⟩

end BCT.Props
