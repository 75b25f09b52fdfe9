import Verif.Props.Unsafe
/-!
# C166: a damaged balance hurts only the calls that name its account

Two nodes with arbitrary contents that differ only in the balances of some accounts (blockchaintree.rs:107-324,
:326-514): what the calls do on the one and on the other.
-/

namespace BCT.Props
open BCT

/-- The two databases hold the same for every key outside `K`. -/
def SameOff (K : Bytes → Prop) (m m' : KV) : Prop := ∀ k, ¬ K k → m.get k = m'.get k

/-- The two nodes differ at most in the coins of the accounts in `K`, the gas of those in `G`, and the databases of the
last epoch. -/
structure DifferAt (K G : Bytes → Prop) (s t : Tree) : Prop where
  main : s.main = t.main
  files : s.derivFiles = t.derivFiles
  mem : s.derivMem = t.derivMem
  coins : SameOff K s.summary.cur t.summary.cur
  gas : SameOff G s.gas.cur t.gas.cur

/-- The calls that may look at the coins of an account in `K` or the gas of one in `G`. A main block without transactions
is counted among them at every height, although only the summary of an epoch looks at the accounts. -/
def Op.Meets (K G : Bytes → Prop) : Op → Prop
  | .addAmount o _ => K o
  | .setAmount _ _ => False
  | .subAmount o _ => K o
  | .sendAmount o o' _ => K o ∨ K o'
  | .addGas o _ => G o
  | .subGas o _ => G o
  | .sendGas o o' _ => G o ∨ G o'
  | .sendTransaction t => G t.sender.val ∨ K t.sender.val ∨ K t.receiver.val
  | .emitMain _ _ txs _ => txs = []
  | _ => False

/-- Started on related states the action answers the same and ends in related states. -/
def Paired {σ α : Type} (R : σ → σ → Prop) (x : Act σ α) : Prop :=
  ∀ s t, R s t → (x s).out = (x t).out ∧ R (x s).final (x t).final

section
variable {σ α β : Type} {R : σ → σ → Prop}

theorem paired_pure (a : α) : Paired R (Pure.pure a : Act σ α) := fun _ _ h => ⟨rfl, h⟩

theorem paired_lift (o : Outcome α) : Paired R (Act.lift o) := fun _ _ h => ⟨rfl, h⟩

theorem paired_step {f : σ → σ} (hf : ∀ s t, R s t → R (f s) (f t)) : Paired R (Act.step f) := fun s t h => ⟨rfl, hf s t h⟩

theorem paired_bind {x : Act σ α} {f : α → Act σ β} (hx : Paired R x) (hf : ∀ a, Paired R (f a)) : Paired R (x >>= f) := by
  intro s t h
  obtain ⟨h1, h2⟩ := hx s t h
  rw [Act.bind_def]
  unfold Act.bind
  simp only [← h1]
  cases (x s).out with
  | ok a => exact hf a _ _ h2
  | err a => exact ⟨rfl, h2⟩
  | panic a => exact ⟨rfl, h2⟩
  | ub => exact ⟨rfl, h2⟩

/-- Reading the state, for actions that use only what the related states share. -/
theorem paired_get {f : σ → Act σ β} (hf : ∀ s t, R s t → (f s s).out = (f t t).out ∧ R (f s s).final (f t t).final) :
    Paired R (Act.get >>= f) := by
  intro s t h
  rw [Act.get_bind, Act.get_bind]
  exact hf s t h

theorem paired_ite {p : Prop} [Decidable p] {x y : Act σ α} (hx : Paired R x) (hy : Paired R y) : Paired R (if p then x else y) := by
  split <;> assumption

theorem paired_void {x : Act σ α} (hx : Paired R x) : Paired R x.void := fun s t h => by
  obtain ⟨h1, h2⟩ := hx s t h
  exact ⟨by unfold Act.void; rw [h1], h2⟩

end

/-! ## The ledgers -/

theorem SameOff.insert {K : Bytes → Prop} {m m' : KV} (h : SameOff K m m') (k v : Bytes) :
    SameOff K (m.insert k v) (m'.insert k v) := fun q hq => by
  rw [KV.get_insert, KV.get_insert, h q hq]

/-- A closure that, on databases equal off `K`, ends alike. -/
def PairedClosure (K : Bytes → Prop) (c : KV → Outcome KV) : Prop := ∀ m m', SameOff K m m' →
  (∃ r r', c m = .ok r ∧ c m' = .ok r' ∧ SameOff K r r') ∨ (c m = c m' ∧ ∀ r, c m ≠ .ok r)

theorem paired_transact {K : Bytes → Prop} {c : KV → Outcome KV} (hc : PairedClosure K c) :
    Paired (fun d d' : Db => SameOff K d.cur d'.cur) (Ledger.transact c) := by
  intro d d' h
  unfold Ledger.transact
  rw [Act.get_bind, Act.get_bind]
  rcases hc d.cur d'.cur h with ⟨r, r', e, e', hr⟩ | ⟨e, hn⟩
  · rw [e, e']
    exact ⟨rfl, hr⟩
  · rw [← e]
    cases hv : c d.cur with
    | ok r => exact absurd hv (hn r)
    | err a => exact ⟨rfl, h⟩
    | panic a => exact ⟨rfl, h⟩
    | ub => exact ⟨rfl, h⟩

theorem pairedClosure_lift {α : Type} {K : Bytes → Prop} (o : Outcome α) {f : α → KV → Outcome KV}
    (hf : ∀ a, PairedClosure K (f a)) : PairedClosure K fun m => o >>= fun a => f a m := by
  intro m m' h
  cases o with
  | ok a => exact hf a m m' h
  | err e => exact .inr ⟨rfl, fun _ h => by cases h⟩
  | panic e => exact .inr ⟨rfl, fun _ h => by cases h⟩
  | ub => exact .inr ⟨rfl, fun _ h => by cases h⟩

/-- Reading a balance outside `K`. -/
theorem pairedClosure_read {α : Type} {K : Bytes → Prop} {o : Bytes} (ho : ¬ K o) {g : Option Bytes → Outcome α}
    {f : α → KV → Outcome KV} (hf : ∀ a, PairedClosure K (f a)) :
    PairedClosure K fun m => g (m.get o) >>= fun a => f a m := by
  intro m m' h
  simp only [← h o ho]
  exact pairedClosure_lift (g (m.get o)) hf m m' h

theorem pairedClosure_ite {K : Bytes → Prop} {p : Prop} [Decidable p] {c d : KV → Outcome KV} (hc : PairedClosure K c)
    (hd : PairedClosure K d) : PairedClosure K fun m => if p then c m else d m := by
  split <;> assumption

theorem pairedClosure_err (K : Bytes → Prop) (e : Err) : PairedClosure K fun _ => .err e :=
  fun _ _ _ => .inr ⟨rfl, fun _ h => by cases h⟩

theorem pairedClosure_ok {K : Bytes → Prop} {f : KV → KV} (hf : ∀ m m', SameOff K m m' → SameOff K (f m) (f m')) :
    PairedClosure K fun m => .ok (f m) := fun m m' h => .inl ⟨_, _, rfl, rfl, hf m m' h⟩

/-- Walks through a closure: accounts outside `K` may be read, anything may be written. -/
local macro "walk_closure" : tactic => `(tactic| repeat' first
  | exact pairedClosure_err _ _
  | exact pairedClosure_ok fun _ _ h => h.insert _ _
  | exact pairedClosure_ok fun _ _ h => (h.insert _ _).insert _ _
  | refine pairedClosure_ite ?_ ?_
  | refine pairedClosure_read (by assumption) fun _ => ?_
  | refine pairedClosure_lift _ fun _ => ?_)

theorem paired_addClosure {K : Bytes → Prop} {o : Bytes} (ho : ¬ K o) (a : U256) :
    PairedClosure K (Ledger.addClosure o a) := by
  unfold Ledger.addClosure
  walk_closure

theorem paired_setClosure (K : Bytes → Prop) (o : Bytes) (a : U256) : PairedClosure K (Ledger.setClosure o a) := by
  unfold Ledger.setClosure
  walk_closure

theorem paired_subClosure {K : Bytes → Prop} {o : Bytes} (ho : ¬ K o) (a : U256) :
    PairedClosure K (Ledger.subClosure o a) := by
  unfold Ledger.subClosure
  walk_closure

theorem paired_transferClosure {K : Bytes → Prop} {o o' : Bytes} (ho : ¬ K o) (ho' : ¬ K o') (a : U256) :
    PairedClosure K (Ledger.transferClosure o o' a) := by
  unfold Ledger.transferClosure
  walk_closure

/-! ## The node -/

section
variable {K G : Bytes → Prop}

theorem paired_onSummary {c : KV → Outcome KV} (hc : PairedClosure K c) :
    Paired (DifferAt K G) (Tree.onSummary (Ledger.transact c)) := fun s t h => by
  obtain ⟨h1, h2⟩ := paired_transact hc s.summary t.summary h.coins
  exact ⟨h1, ⟨h.main, h.files, h.mem, h2, h.gas⟩⟩

theorem paired_onGas {c : KV → Outcome KV} (hc : PairedClosure G c) :
    Paired (DifferAt K G) (Tree.onGas (Ledger.transact c)) := fun s t h => by
  obtain ⟨h1, h2⟩ := paired_transact hc s.gas t.gas h.gas
  exact ⟨h1, ⟨h.main, h.files, h.mem, h.coins, h2⟩⟩

theorem paired_onMain {α : Type} (x : Act MainChain α) : Paired (DifferAt K G) (Tree.onMain x) := fun s t h => by
  unfold Tree.onMain
  rw [Act.zoom_run, Act.zoom_run, h.main]
  exact ⟨rfl, ⟨rfl, h.files, h.mem, h.coins, h.gas⟩⟩

theorem DifferAt.handle {s t : Tree} (h : DifferAt K G s t) (o : Address) : s.handle o = t.handle o := by
  unfold Tree.handle
  rw [h.files, h.mem]

theorem DifferAt.putHandle {s t : Tree} (h : DifferAt K G s t) (o : Address) (c : DerivativeChain) :
    DifferAt K G (Tree.putHandle o c s) (Tree.putHandle o c t) :=
  ⟨h.main, by unfold Tree.putHandle; rw [h.files], by unfold Tree.putHandle; rw [h.mem], h.coins, h.gas⟩

theorem paired_onDeriv {α : Type} (o : Address) (x : Act DerivativeChain α) : Paired (DifferAt K G) (Tree.onDeriv o x) :=
  fun s t h => by
    unfold Tree.onDeriv
    rw [Act.zoom_run, Act.zoom_run, h.handle o]
    exact ⟨rfl, h.putHandle o _⟩

theorem paired_getDeriv (E : Env) (o : Address) : Paired (DifferAt K G) (Tree.getDerivativeChain E o) := by
  unfold Tree.getDerivativeChain
  refine paired_get fun s t h => ?_
  rw [h.main, h.files, h.mem]
  exact paired_ite (paired_pure _) (paired_bind (paired_lift _) fun _ => paired_bind (paired_lift _) fun _ =>
    paired_bind (paired_lift _) fun c => paired_step fun _ _ h => h.putHandle o c) s t h

theorem paired_sendAmount {o o' : Bytes} (ho : ¬ K o) (ho' : ¬ K o') (a : U256) :
    Paired (DifferAt K G) (Tree.sendAmount o o' a) :=
  paired_ite (paired_pure _) (paired_onSummary (paired_transferClosure ho ho' a))

/-- Walks through a call: the chains may be used, accounts outside `K` and `G` too. -/
local macro "walk_call" : tactic => `(tactic| repeat' first
  | exact paired_lift _
  | exact paired_pure _
  | exact paired_onMain _
  | exact paired_onDeriv _ _
  | exact paired_getDeriv _ _
  | exact paired_step fun _ _ h => ⟨h.main, h.files, h.mem, h.coins, h.gas⟩
  | exact paired_sendAmount (by assumption) (by assumption) _
  | exact paired_onSummary (paired_addClosure (by assumption) _)
  | exact paired_onSummary (paired_subClosure (by assumption) _)
  | exact paired_onSummary (paired_setClosure _ _ _)
  | exact paired_onGas (paired_addClosure (by assumption) _)
  | exact paired_onGas (paired_subClosure (by assumption) _)
  | exact paired_onGas (paired_transferClosure (by assumption) (by assumption) _)
  | refine paired_ite ?_ ?_
  | refine paired_bind ?_ fun _ => ?_)

theorem paired_flush : Paired (DifferAt K G) Tree.flush := by
  unfold Tree.flush
  walk_call

theorem paired_sendTransaction (E : Env) (t : Transaction) (hg : ¬ G t.sender.val) (hs : ¬ K t.sender.val)
    (hr : ¬ K t.receiver.val) : Paired (DifferAt K G) (Tree.sendTransaction E t) := by
  unfold Tree.sendTransaction
  refine paired_get fun s u h => ?_
  have e1 : s.getGas t.sender = u.getGas t.sender := by
    unfold Tree.getGas Db.get; rw [h.gas _ hg]
  have e2 : s.getAmount t.sender = u.getAmount t.sender := by
    unfold Tree.getAmount Db.get; rw [h.coins _ hs]
  rw [e1, e2, h.main]
  refine (?_ : Paired (DifferAt K G) _) s u h
  walk_call

theorem paired_emitMain (E : Env) (p : BytesN 32) (f : Address) (txs : List Hash) (ts : UInt64) (htx : txs ≠ []) :
    Paired (DifferAt K G) (Tree.emitMain E p f txs ts) := by
  have hne : txs.isEmpty = false := by cases txs <;> simp_all
  unfold Tree.emitMain
  refine paired_get fun s u h => ?_
  rw [h.main]
  simp only [hne, Bool.not_false, if_true]
  refine (?_ : Paired (DifferAt K G) _) s u h
  walk_call

theorem paired_emitDerivative (E : Env) (p : BytesN 32) (o : Address) (ts : UInt64) :
    Paired (DifferAt K G) (Tree.emitDerivative E p o ts) := by
  unfold Tree.emitDerivative
  refine paired_bind (paired_getDeriv E o) fun _ => paired_get fun s u h => ?_
  rw [h.handle o, h.main]
  refine (?_ : Paired (DifferAt K G) _) s u h
  walk_call

theorem paired_op (E : Env) (op : Op) (h : ¬ Op.Meets K G op) : Paired (DifferAt K G) (op.run E) := by
  cases op with
  | addBlock b => exact paired_onMain _
  | addNewBlock b txs => exact paired_bind (paired_onMain _) fun _ => paired_onMain _
  | addTransaction t => exact paired_onMain _
  | addTransactions ts => exact paired_onMain _
  | addAmount o a => exact paired_onSummary (paired_addClosure h a)
  | setAmount o a => exact paired_onSummary (paired_setClosure K o a)
  | subAmount o a => exact paired_onSummary (paired_subClosure h a)
  | sendAmount o o' a => exact paired_sendAmount (fun hk => h (.inl hk)) (fun hk => h (.inr hk)) a
  | addGas o a => exact paired_onGas (paired_addClosure h a)
  | subGas o a => exact paired_onGas (paired_subClosure h a)
  | sendGas o o' a => exact paired_onGas (paired_transferClosure (fun hk => h (.inl hk)) (fun hk => h (.inr hk)) a)
  | sendTransaction t =>
    exact paired_sendTransaction E t (fun k => h (.inl k)) (fun k => h (.inr (.inl k))) fun k => h (.inr (.inr k))
  | emitMain p f txs ts => exact paired_void (paired_emitMain E p f txs ts h)
  | emitDerivative p o ts => exact paired_void (paired_emitDerivative E p o ts)
  | getDerivativeChain o => exact paired_getDeriv E o
  | derivAddBlock o b => exact paired_bind (paired_getDeriv E o) fun _ => paired_onDeriv o _
  | derivFlush o => exact paired_bind (paired_getDeriv E o) fun _ => paired_onDeriv o _
  | mainFlush => exact paired_onMain _
  | flush => exact paired_flush

end

/-! ## C166 -/

/-- A series of calls: what each answered, and the node afterwards. -/
def answers (E : Env) : List Op → Tree → List (Outcome Unit) × Tree
  | [], s => ([], s)
  | op :: ops, s => let r := answers E ops (op.run E s).final
    ((op.run E s).out :: r.1, r.2)

/-- C166. Whatever the databases of a node hold, and whatever the entries of some accounts are replaced with: every
series of calls none of which looks at one of these entries is answered, call by call, as without the damage, and
afterwards the nodes again differ only there. Other accounts show the same balances. -/
theorem C166_local (E : Env) (K G : Bytes → Prop) (s t : Tree) (ops : List Op) (h : DifferAt K G s t)
    (hops : ∀ op ∈ ops, ¬ Op.Meets K G op) :
    (answers E ops s).1 = (answers E ops t).1 ∧ DifferAt K G (answers E ops s).2 (answers E ops t).2 ∧
    (∀ o : Address, ¬ K o.val → (answers E ops s).2.getAmount o = (answers E ops t).2.getAmount o) ∧
    ∀ o : Address, ¬ G o.val → (answers E ops s).2.getGas o = (answers E ops t).2.getGas o := by
  have key : (answers E ops s).1 = (answers E ops t).1 ∧ DifferAt K G (answers E ops s).2 (answers E ops t).2 := by
    induction ops generalizing s t with
    | nil => exact ⟨rfl, h⟩
    | cons op ops ih =>
      obtain ⟨h1, h2⟩ := paired_op E op (hops op (by simp)) s t h
      obtain ⟨i1, i2⟩ := ih _ _ h2 fun o ho => hops o (by simp [ho])
      refine ⟨?_, i2⟩
      show (op.run E s).out :: _ = (op.run E t).out :: _
      rw [h1, i1]
  refine ⟨key.1, key.2, fun o ho => ?_, fun o ho => ?_⟩
  · unfold Tree.getAmount Db.get; rw [key.2.coins _ ho]
  · unfold Tree.getGas Db.get; rw [key.2.gas _ ho]

/-- Of the calls left out, two that do depend on the entry: with only the length byte of a number in place of the
balance, a deposit and the reading of the balance panic. Setting the balance, which is not left out, repairs it. -/
theorem C166_damaged (E : Env) (s : Tree) (o : Address) (a : U256) :
    let t : Tree := { s with summary := s.summary.insert o.val [32] }
    DifferAt (· = o.val) (fun _ => False) s t ∧ t.getAmount o = .panic .unwrap ∧
    ((Op.addAmount o.val a).run E t).out = .panic .unwrap ∧
    ((Op.setAmount o.val a).run E t).out = .ok () ∧ ((Op.setAmount o.val a).run E t).final.getAmount o = .ok a := by
  intro t
  have hget : t.summary.cur.get o.val = some [32] := by
    show (s.summary.cur.insert o.val [32]).get o.val = _
    rw [KV.get_insert, if_pos rfl]
  have hbal : Ledger.balance (some [32]) = .panic .unwrap := by rfl
  refine ⟨⟨rfl, rfl, rfl, fun k hk => ?_, fun _ _ => rfl⟩, ?_, ?_, ?_, ?_⟩
  · show _ = (s.summary.cur.insert o.val [32]).get k
    rw [KV.get_insert, if_neg fun e => hk e.symm]
  · unfold Tree.getAmount Db.get
    rw [hget, hbal]
  · show (Ledger.transact (Ledger.addClosure o.val a) t.summary).out = _
    unfold Ledger.transact Ledger.addClosure
    rw [Act.get_bind, hget, hbal]
    rfl
  · show (Ledger.set o.val a t.summary).out = _
    rw [Ledger.set_run]
  · show Ledger.balance ((Ledger.set o.val a t.summary).final.get o.val) = _
    rw [Ledger.set_run]
    show Ledger.balance ((t.summary.cur.insert o.val (Ledger.encode a)).get o.val) = _
    rw [KV.get_insert, if_pos rfl, Ledger.balance_encode]

/-- A damaged account and calls on another one. -/
example (E : Env) (s : Tree) (o : Address) (q : Bytes) (hq : q ≠ o.val) (a : U256) :
    (answers E [.addAmount q a, .flush, .subAmount q a] s).1 =
    (answers E [.addAmount q a, .flush, .subAmount q a] { s with summary := s.summary.insert o.val [32] }).1 :=
  (C166_local E (· = o.val) (fun _ => False) s _ _ (C166_damaged E s o a).1 (by
    intro op h
    simp only [List.mem_cons, List.not_mem_nil, or_false] at h
    rcases h with rfl | rfl | rfl
    · exact hq
    · exact id
    · exact hq)).1

end BCT.Props
