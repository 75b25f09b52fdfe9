import Verif.Lemmas.Send
import Verif.Spec.Ledger
import Verif.Props.Chain
/-!
# C46 – C51: the transaction store and the ledgers of a running node (chain.rs, blockchaintree.rs)
-/

namespace BCT.Props
open BCT

/-! ## C46 -/

/-- The call stores the transaction. -/
def Stores : Op → Transaction → Prop
  | .addTransaction t', t => t' = t
  | .addTransactions ts, t => t ∈ ts
  | .addNewBlock _ ts, t => t ∈ ts
  | .sendTransaction t', t => t' = t
  | _, _ => False

/-- Stored hashes stay. -/
def TxsGrow (s t : Tree) : Prop :=
  ∀ k, (s.main.transactions.get k).isSome → (t.main.transactions.get k).isSome

theorem txsGrow_preord : Act.PreOrd TxsGrow := ⟨fun _ _ h => h, fun h1 h2 k h => h2 k (h1 k h)⟩

theorem txsGrow_onMain {α : Type} {x : Act MainChain α}
    (hx : Act.Rel (fun x y : MainChain => ∀ k, (x.transactions.get k).isSome → (y.transactions.get k).isSome) x) :
    Act.Rel TxsGrow (Tree.onMain x) :=
  Act.rel_zoom hx fun _ _ h1 => h1

theorem mainFlush_grow :
    Act.Rel (fun x y : MainChain => ∀ k, (x.transactions.get k).isSome → (y.transactions.get k).isSome)
      MainChain.flush := by
  have C := Act.rel_closed (R := fun x y : MainChain => ∀ k, (x.transactions.get k).isSome →
    (y.transactions.get k).isSome) ⟨fun _ _ h => h, fun h1 h2 k h => h2 k (h1 k h)⟩
  unfold MainChain.flush MainChain.dumpConfig
  exact C.bind (C.bind (Act.rel_step fun _ _ h => h) fun _ => C.bind (Act.rel_step fun _ _ h => h) fun _ =>
    Act.rel_step fun _ _ h => h) fun _ =>
    C.bind (Act.rel_step fun _ _ h => h) fun _ => C.bind (Act.rel_step fun _ _ h => h) fun _ =>
      Act.rel_step fun _ _ h => h

theorem flush_txsGrow : Act.Rel TxsGrow Tree.flush := by
  have C := Act.rel_closed txsGrow_preord
  unfold Tree.flush
  exact C.bind (txsGrow_onMain mainFlush_grow) fun _ => C.bind (Act.rel_step fun _ _ h => h) fun _ =>
    C.bind (Act.rel_step fun _ _ h => h) fun _ => C.bind (Act.rel_step fun _ _ h => h) fun _ =>
      Act.rel_step fun _ _ h => h

theorem txsGrow_prims (E : Env) : Prims E (fun _ => True) (fun {α} (x : Act Tree α) => Act.Rel TxsGrow x) where
  addBlock b _ := txsGrow_onMain ((mainAddBlock_txs b).mono fun _ _ h k => by rw [h]; exact id)
  addTransaction t := txsGrow_onMain (Act.rel_step fun m k h => by
    show (Db.get _ k).isSome
    rw [Db.get_insert]; split
    · rfl
    · exact h)
  mainFlush := txsGrow_onMain mainFlush_grow
  addAmount _ _ := Act.rel_zoom (Act.rel_true _) fun _ _ _ _ h => h
  setAmount _ _ := Act.rel_zoom (Act.rel_true _) fun _ _ _ _ h => h
  subAmount _ _ := Act.rel_zoom (Act.rel_true _) fun _ _ _ _ h => h
  sendAmount _ _ _ _ := Act.rel_zoom (Act.rel_true _) fun _ _ _ _ h => h
  addGas _ _ := Act.rel_zoom (Act.rel_true _) fun _ _ _ _ h => h
  subGas _ _ := Act.rel_zoom (Act.rel_true _) fun _ _ _ _ h => h
  sendGas _ _ _ := Act.rel_zoom (Act.rel_true _) fun _ _ _ _ h => h
  flush := flush_txsGrow
  rotate := by
    have C := Act.rel_closed txsGrow_preord
    unfold Tree.rotateDbs
    exact C.bind flush_txsGrow fun _ => C.bind (Act.rel_step fun _ _ h => h) fun _ =>
      C.bind (Act.rel_step fun _ _ h => h) fun _ => C.bind (Act.rel_step fun _ _ h => h) fun _ =>
        Act.rel_step fun _ _ h => h
  getDeriv o := by
    have C := Act.rel_closed txsGrow_preord
    unfold Tree.getDerivativeChain
    refine C.bind C.get fun _ => ?_
    split
    · exact C.pure _
    · exact C.bind (C.lift _) fun _ => C.bind (C.lift _) fun _ => C.bind (C.lift _) fun _ =>
        Act.rel_step fun _ _ h => h
  derivAdd _ _ := Act.rel_zoom (Act.rel_true _) fun _ _ _ _ h => h
  derivFlush _ := Act.rel_zoom (Act.rel_true _) fun _ _ _ _ h => h

theorem later_txsGrow {E : Env} {s t : Tree} (h : Later E s t) : TxsGrow s t := by
  induction h with
  | refl => exact fun _ h => h
  | call s' op _ ih =>
    exact fun k h => (Op.sat (txsGrow_prims E) (Act.rel_closed txsGrow_preord) op op.adds_true s').1 k (ih k h)

theorem addTx_stores (E : Env) (t : Transaction) (s : Tree) :
    ((Tree.onMain (MainChain.addTransaction E t) s).final.main.transactions.get (E.sha256 t.dump).val).isSome := by
  rw [addTx_run]
  simp [Tree.withTx]

theorem addTxs_stores (E : Env) (ts : List Transaction) (t : Transaction) (ht : t ∈ ts) (s : Tree) :
    ((Tree.onMain (MainChain.addTransactions E ts) s).final.main.transactions.get (E.sha256 t.dump).val).isSome := by
  unfold Tree.onMain MainChain.addTransactions
  rw [Act.zoom_forEach onMain_lens]
  induction ts generalizing s with
  | nil => simp at ht
  | cons a ts ih =>
    unfold Act.forEach
    change (Act.bind (Tree.onMain (MainChain.addTransaction E a)) _ s).final.main.transactions.get _ |>.isSome
    have hb := Act.bind_ok (f := fun _ => Act.forEach ts fun b => Tree.onMain (MainChain.addTransaction E b))
      (addTx_run E s a)
    change Act.bind _ _ _ = _ at hb
    rw [show (Act.bind (Tree.onMain (MainChain.addTransaction E a)) (fun _ => Act.forEach ts fun b =>
      Act.zoom (fun x => x.main) (fun m t => { t with main := m }) (MainChain.addTransaction E b)) s) = _ from hb]
    rcases List.mem_cons.mp ht with rfl | ht
    · have C := Act.rel_closed txsGrow_preord
      have hg : Act.Rel TxsGrow (Act.forEach ts fun b => Tree.onMain (MainChain.addTransaction E b)) :=
        C.forEach fun b => (txsGrow_prims E).addTransaction b
      refine (hg (s.withTx E t)).1 _ ?_
      have := addTx_stores E t s
      rwa [addTx_run] at this
    · exact ih ht (s.withTx E a)

theorem stores_ok {E : Env} {s : Tree} {op : Op} {t : Transaction} (hr : Run E s) (h : Stores op t)
    (hok : (op.run E s).out = .ok ()) :
    ((op.run E s).final.main.transactions.get (E.sha256 t.dump).val).isSome := by
  cases op <;> try exact h.elim
  case addTransaction t' => cases h; exact addTx_stores E t s
  case addTransactions ts => exact addTxs_stores E ts t h s
  case addNewBlock b ts =>
    change (Tree.addNewBlock E b ts s).out = _ at hok
    change ((Tree.addNewBlock E b ts s).final.main.transactions.get _).isSome
    unfold Tree.addNewBlock at hok ⊢
    rcases Act.bind_cases (Tree.onMain (MainChain.addBlock E b)) (fun _ => Tree.onMain (MainChain.addTransactions E ts)) s with
      ⟨a, h1, h2, _⟩ | ⟨_, _, _, h2⟩
    · rw [h2]; exact addTxs_stores E ts t h _
    · exact absurd hok (h2 ())
  case sendTransaction t' =>
    cases h
    have hi := run_storeInv hr
    change (Tree.sendTransaction E t s).out = _ at hok
    change ((Tree.sendTransaction E t s).final.main.transactions.get _).isSome
    rcases sendTransaction_cases E s t hi.summary.1 hi.gas.1 with ⟨_, _, _, _, _, h2, _⟩ | ⟨_, _, _, _, _, h2⟩ | ⟨_, _, h1, h2⟩
    · rw [h2]; simp [Tree.sent, Tree.withTx]
    · rw [h2] at hok; cases hok
    · rw [h2] at hok; exact absurd hok (h1 ())

/-- The transaction as read back: its hash recomputed, an empty payload missing (C10). -/
def asRead (E : Env) (t : Transaction) : Transaction :=
  { t with hash := E.sha256 t.dump, data := if t.data = some [] then none else t.data }

theorem getTransaction_dump {E : Env} {m : MainChain} {h : Hash} {t : Transaction}
    (hm : m.getTransactionRaw h = some t.dump) : m.getTransaction E h = .ok (some (asRead E t)) := by
  unfold MainChain.getTransaction
  rw [hm]
  have hd : t.dump = Headers.transaction.toU8 :: t.dump.drop 1 := by rw [Transaction.dump_eq]; rfl
  have hh : t.dump.head?.getD 10 = Headers.transaction.toU8 := by rw [hd]; rfl
  have hl : 1 ≤ t.dump.length := by rw [hd]; simp
  have hs : sliceFrom t.dump 1 = .ok (t.dump.drop 1) := by unfold sliceFrom; rw [if_pos hl]
  have hp := C10_transaction_roundtrip_exact E { t with hash := E.sha256 t.dump } rfl
  change Transaction.parse E (t.dump.drop 1) = _ at hp
  simp only [hh, ne_eq, not_true_eq_false, if_false, hs, Outcome.ok_bind]
  rw [hp]
  rfl

/-- C46. A stored transaction is found under the digest of its bytes, at once and after any further calls (or
the digest of two different stored dumps is the same). -/
theorem C46_found_by_hash (E : Env) (s s' : Tree) (op : Op) (t : Transaction) (hr : Run E s) (hs : Stores op t)
    (hok : (op.run E s).out = .ok ()) (hl : Later E (op.run E s).final s') :
    (s'.main.getTransactionRaw (E.sha256 t.dump) = some t.dump ∧
      s'.main.getTransaction E (E.sha256 t.dump) = .ok (some (asRead E t)) ∧
      s'.main.transactionExists (E.sha256 t.dump) = true) ∨
    ∃ t' : Transaction, t'.dump ≠ t.dump ∧ E.sha256 t'.dump = E.sha256 t.dump := by
  have h1 := later_txsGrow hl _ (stores_ok hr hs hok)
  have hr' : ∀ {x y}, Run E x → Later E x y → Run E y := by
    intro x y hx hy
    induction hy with
    | refl => exact hx
    | call y op _ ih => exact .call _ _ ih trivial
  have hi := run_storeInv (hr' (.call s op hr trivial) hl)
  obtain ⟨v, hv⟩ := Option.isSome_iff_exists.mp h1
  obtain ⟨h2, t', rfl⟩ := hi.txs.1 _ _ hv
  by_cases hd : t'.dump = t.dump
  · left
    have hraw : s'.main.getTransactionRaw (E.sha256 t.dump) = some t.dump := by rw [← hd]; rw [hd]; rw [← hd]; exact hd ▸ hv
    exact ⟨hraw, getTransaction_dump hraw, by unfold MainChain.transactionExists; rw [hv]; rfl⟩
  · exact .inr ⟨t', hd, (Subtype.ext h2).symm⟩

/-- C46. Every entry of the store is a transaction under the digest of its bytes. -/
theorem C46_keyed (E : Env) (s : Tree) (hr : Run E s) (h : Hash) (raw : Bytes)
    (hraw : s.main.getTransactionRaw h = some raw) :
    E.sha256 raw = h ∧ ∃ t : Transaction, raw = t.dump ∧ s.main.getTransaction E h = .ok (some (asRead E t)) := by
  obtain ⟨h1, t, rfl⟩ := (run_storeInv hr).txs.1 _ _ hraw
  exact ⟨(Subtype.ext h1).symm, t, rfl, getTransaction_dump hraw⟩

example (E : Env) : Run E (openTree E Disk.empty).final ∧ Stores (.addTransactions [exTx]) exTx ∧
    ((Op.addTransactions [exTx]).run E (openTree E Disk.empty).final).out = .ok () :=
  ⟨.fresh, by simp [Stores], rfl⟩

/-! ## C47 -/

/-- What a balance database shows: the answers of `get_amount` / `get_gas`. -/
def Shows (d : Db) (f : Spec.Accounts) : Prop := ∀ k, ∃ a, Ledger.balance (d.get k) = .ok a ∧ a.val = f k

theorem shows_amt {d : Db} (hd : d.cur.Dec) : Shows d (fun k => (d.cur.amt k).val) :=
  fun k => ⟨_, hd.balance k, rfl⟩

theorem shows_eq {d : Db} {f : Spec.Accounts} (h : Shows d f) : f = fun k => (d.cur.amt k).val := by
  funext k
  obtain ⟨a, h1, h2⟩ := h k
  unfold KV.amt
  rw [← h2, show d.cur.get k = d.get k from rfl, h1]

theorem shows_of {d : Db} {f : Spec.Accounts} (hd : d.cur.Dec) (h : ∀ k, f k = (d.cur.amt k).val) : Shows d f :=
  (funext h : f = _) ▸ shows_amt hd

/-- Calls on the coin ledger, as the specification sees them. -/
def coinCall : Op → Option Spec.LedgerCall
  | .addAmount o a => some (.add o a.val)
  | .setAmount o a => some (.set o a.val)
  | .subAmount o a => some (.sub o a.val)
  | .sendAmount s t a => some (.send s t a.val)
  | _ => none

/-- Calls on the gas ledger, as the specification sees them; a transfer to oneself is left out (C49). -/
def gasCall : Op → Option Spec.LedgerCall
  | .addGas o a => some (.add o a.val)
  | .subGas o a => some (.sub o a.val)
  | .sendGas s t a => if s = t then none else some (.send s t a.val)
  | _ => none

/-- A database call refines a call of the specification. -/
def Refines (x : Act Db Unit) (c : Spec.LedgerCall) : Prop := ∀ (d : Db) (f : Spec.Accounts), d.cur.Dec → Shows d f →
  Shows (x d).final (c.run f) ∧ ((x d).out = .ok () ↔ (c.apply f).isSome) ∧
  ((x d).out = .ok () ∨ ∃ p, x d = ⟨.panic p, d, []⟩)

theorem shows_insert {d : Db} (hd : d.cur.Dec) (o : Bytes) (a : U256) :
    Shows (d.insert o (Ledger.encode a)) (Spec.Accounts.update (fun k => (d.cur.amt k).val) o a.val) := by
  refine shows_of (hd.insert _ _) fun k => ?_
  change _ = ((d.cur.insert o (Ledger.encode a)).amt k).val
  rw [KV.amt_insert]
  unfold Spec.Accounts.update
  by_cases h : k = o
  · rw [if_pos h, if_pos h.symm]
  · rw [if_neg h, if_neg (fun e : o = k => h e.symm)]

theorem refines_add (o : Bytes) (a : U256) : Refines (Ledger.add o a) (.add o a.val) := by
  intro d f hd hf
  have := shows_eq hf
  subst this
  unfold Spec.LedgerCall.run
  rw [Spec.LedgerCall.apply_add]
  rcases Ledger.add_run hd o a with ⟨h, e⟩ | ⟨h, e⟩
  · rw [e, if_pos (show _ + _ < 2 ^ 256 from h)]
    exact ⟨shows_insert hd o ⟨_, h⟩, by simp, .inl rfl⟩
  · rw [e, if_neg (show ¬ _ + _ < 2 ^ 256 from h)]
    exact ⟨hf, by simp, .inr ⟨_, rfl⟩⟩

theorem refines_set (o : Bytes) (a : U256) : Refines (Ledger.set o a) (.set o a.val) := by
  intro d f hd hf
  have := shows_eq hf
  subst this
  rw [Ledger.set_run]
  exact ⟨shows_insert hd o a, by simp [Spec.LedgerCall.apply], .inl rfl⟩

theorem refines_sub (o : Bytes) (a : U256) : Refines (Ledger.sub o a) (.sub o a.val) := by
  intro d f hd hf
  have := shows_eq hf
  subst this
  unfold Spec.LedgerCall.run
  rw [Spec.LedgerCall.apply_sub]
  rcases Ledger.sub_run hd o a with ⟨h, e⟩ | ⟨h, e⟩
  · rw [e, if_pos h]
    exact ⟨shows_insert hd o ⟨_, Ledger.sub_lt⟩, by simp, .inl rfl⟩
  · rw [e, if_neg (Nat.not_le.mpr h)]
    exact ⟨hf, by simp, .inr ⟨_, rfl⟩⟩

theorem refines_transfer (s t : Bytes) (a : U256) (hst : s ≠ t) : Refines (Ledger.transfer s t a) (.send s t a.val) := by
  intro d f hd hf
  have := shows_eq hf
  subst this
  unfold Spec.LedgerCall.run
  rw [Spec.LedgerCall.apply_send, if_neg hst]
  rcases Ledger.transfer_run hd s t a with ⟨h, hlt, e⟩ | ⟨h, e⟩ | ⟨h, hlt, e⟩
  · rw [e, if_pos ⟨h, hlt⟩]
    refine ⟨shows_of (Ledger.moved_dec hd _ _ _ _) fun k => ?_, by simp, .inl rfl⟩
    change _ = ((Ledger.moved d.cur s t a hlt).amt k).val
    rw [Ledger.moved_amt _ hst]
    simp only [Option.getD_some, Spec.Accounts.update]
    by_cases h1 : k = t
    · subst h1
      rw [if_pos rfl, if_neg (fun e => hst e.symm), if_pos rfl]
    · rw [if_neg h1, if_neg h1]
  · rw [e, if_neg (fun x => absurd x.1 (Nat.not_le.mpr h))]
    exact ⟨hf, by simp, .inr ⟨_, rfl⟩⟩
  · rw [e, if_neg (fun x => hlt x.2)]
    exact ⟨hf, by simp, .inr ⟨_, rfl⟩⟩

theorem refines_self (s : Bytes) (a : U256) : Refines (pure ()) (.send s s a.val) := by
  intro d f hd hf
  unfold Spec.LedgerCall.run
  rw [Spec.LedgerCall.apply_send, if_pos rfl]
  exact ⟨hf, by simp, .inl rfl⟩

/-- A coin call is a call on the coin database. -/
theorem coinCall_onSummary {op : Op} {c : Spec.LedgerCall} (h : coinCall op = some c) (E : Env) :
    ∃ x : Act Db Unit, op.run E = Tree.onSummary x ∧ Refines x c := by
  cases op <;> simp only [coinCall, Option.some.injEq, reduceCtorEq] at h
  case addAmount o a => exact ⟨_, rfl, h ▸ refines_add o a⟩
  case setAmount o a => exact ⟨_, rfl, h ▸ refines_set o a⟩
  case subAmount o a => exact ⟨_, rfl, h ▸ refines_sub o a⟩
  case sendAmount s t a =>
    by_cases hst : s = t
    · subst hst
      refine ⟨pure (), ?_, h ▸ refines_self s a⟩
      change Tree.sendAmount s s a = _
      unfold Tree.sendAmount
      rw [if_pos rfl]
      rfl
    · refine ⟨_, ?_, h ▸ refines_transfer s t a hst⟩
      change Tree.sendAmount s t a = _
      unfold Tree.sendAmount
      rw [if_neg hst]

theorem gasCall_onGas {op : Op} {c : Spec.LedgerCall} (h : gasCall op = some c) (E : Env) :
    ∃ x : Act Db Unit, op.run E = Tree.onGas x ∧ Refines x c := by
  cases op <;> simp only [gasCall, Option.some.injEq, reduceCtorEq] at h
  case addGas o a => exact ⟨_, rfl, h ▸ refines_add o a⟩
  case subGas o a => exact ⟨_, rfl, h ▸ refines_sub o a⟩
  case sendGas s t a =>
    by_cases hst : s = t
    · rw [if_pos hst] at h; cases h
    · rw [if_neg hst, Option.some.injEq] at h
      exact ⟨_, rfl, h ▸ refines_transfer s t a hst⟩

/-- C47. In every state of a running node both ledgers can be read at every address. -/
theorem C47_readable (E : Env) (s : Tree) (hr : Run E s) : (∃ f, Shows s.summary f) ∧ ∃ g, Shows s.gas g :=
  ⟨⟨_, shows_amt (run_storeInv hr).summary.1⟩, ⟨_, shows_amt (run_storeInv hr).gas.1⟩⟩

/-- C47. A coin call does to the coins what the call on the map does, succeeds exactly when that is possible,
panics without any effect otherwise, and touches nothing else. -/
theorem C47_coin_call (E : Env) (s : Tree) (op : Op) (c : Spec.LedgerCall) (f : Spec.Accounts) (hr : Run E s)
    (hc : coinCall op = some c) (hf : Shows s.summary f) :
    Shows (op.run E s).final.summary (c.run f) ∧ ((op.run E s).out = .ok () ↔ (c.apply f).isSome) ∧
    ((op.run E s).out = .ok () ∨ ∃ p, op.run E s = ⟨.panic p, s, []⟩) ∧
    (op.run E s).final = { s with summary := (op.run E s).final.summary } := by
  obtain ⟨x, e, hx⟩ := coinCall_onSummary hc E
  obtain ⟨h1, h2, h3⟩ := hx s.summary f (run_storeInv hr).summary.1 hf
  rw [e]
  unfold Tree.onSummary
  rw [Act.zoom_run]
  refine ⟨h1, h2, ?_, rfl⟩
  rcases h3 with h3 | ⟨p, h3⟩
  · exact .inl h3
  · right; refine ⟨p, ?_⟩; rw [h3]; rfl

/-- C47. The same for gas. -/
theorem C47_gas_call (E : Env) (s : Tree) (op : Op) (c : Spec.LedgerCall) (f : Spec.Accounts) (hr : Run E s)
    (hc : gasCall op = some c) (hf : Shows s.gas f) :
    Shows (op.run E s).final.gas (c.run f) ∧ ((op.run E s).out = .ok () ↔ (c.apply f).isSome) ∧
    ((op.run E s).out = .ok () ∨ ∃ p, op.run E s = ⟨.panic p, s, []⟩) ∧
    (op.run E s).final = { s with gas := (op.run E s).final.gas } := by
  obtain ⟨x, e, hx⟩ := gasCall_onGas hc E
  obtain ⟨h1, h2, h3⟩ := hx s.gas f (run_storeInv hr).gas.1 hf
  rw [e]
  unfold Tree.onGas
  rw [Act.zoom_run]
  refine ⟨h1, h2, ?_, rfl⟩
  rcases h3 with h3 | ⟨p, h3⟩
  · exact .inl h3
  · right; refine ⟨p, ?_⟩; rw [h3]; rfl

/-- The state after a list of calls. -/
def runAll (E : Env) (s : Tree) (ops : List Op) : Tree := ops.foldl (fun s op => (op.run E s).final) s

/-- C47. Any sequence of ledger calls from any state of a running node: both ledgers show what the maps contain. -/
theorem C47_history (E : Env) (s : Tree) (f g : Spec.Accounts) (ops : List Op) (hr : Run E s)
    (hf : Shows s.summary f) (hg : Shows s.gas g)
    (hops : ∀ op ∈ ops, (coinCall op).isSome ∨ (gasCall op).isSome) :
    Run E (runAll E s ops) ∧
    Shows (runAll E s ops).summary ((ops.filterMap coinCall).foldl (fun f c => c.run f) f) ∧
    Shows (runAll E s ops).gas ((ops.filterMap gasCall).foldl (fun f c => c.run f) g) ∧
    (runAll E s ops).main = s.main := by
  induction ops generalizing s f g with
  | nil => exact ⟨hr, hf, hg, rfl⟩
  | cons op ops ih =>
    have ho := hops op List.mem_cons_self
    have hrest := fun o h => hops o (List.mem_cons_of_mem _ h)
    rw [List.filterMap_cons, List.filterMap_cons]
    cases hc : coinCall op with
    | some c =>
      have hgn : gasCall op = none := by cases op <;> first | rfl | simp [coinCall] at hc
      rw [hgn]
      obtain ⟨h1, _, _, h4⟩ := C47_coin_call E s op c f hr hc hf
      have := ih (op.run E s).final (c.run f) g (.call _ _ hr trivial) h1 (by rw [h4]; exact hg) hrest
      refine ⟨this.1, this.2.1, this.2.2.1, ?_⟩
      rw [show runAll E s (op :: ops) = runAll E (op.run E s).final ops from rfl, this.2.2.2, h4]
    | none =>
      cases hgc : gasCall op with
      | none => rw [hc, hgc] at ho; simp at ho
      | some c =>
        obtain ⟨h1, _, _, h4⟩ := C47_gas_call E s op c g hr hgc hg
        have := ih (op.run E s).final f (c.run g) (.call _ _ hr trivial) (by rw [h4]; exact hf) h1 hrest
        refine ⟨this.1, this.2.1, this.2.2.1, ?_⟩
        rw [show runAll E s (op :: ops) = runAll E (op.run E s).final ops from rfl, this.2.2.2, h4]

/-- C47. What a fresh node shows: unknown addresses hold zero. -/
theorem C47_start (E : Env) :
    Shows (openTree E Disk.empty).final.summary
      (Spec.Accounts.update (fun _ => 0) ROOT_PUBLIC_ADDRESS.val 50010000000000000000000000) ∧
    Shows (openTree E Disk.empty).final.gas (fun _ => 0) := by
  rw [(openTree_fresh E).2]
  exact ⟨shows_insert (d := Db.open' KV.empty) KV.dec_empty _ _, fun k => ⟨_, rfl, rfl⟩⟩

/-- Two accounts: sender `A`, receiver `B`. -/
def exA : Bytes := List.replicate 33 1
def exB : Bytes := List.replicate 33 2

example : (coinCall (.sendAmount exA exB U256.one)).isSome ∧
    (Spec.LedgerCall.apply (.send exA exB 1) (Spec.Accounts.update (fun _ => 0) exA 5)).isSome ∧
    (Spec.LedgerCall.send exA exB 1).run (Spec.Accounts.update (fun _ => 0) exA 5) exA = 4 ∧
    (Spec.LedgerCall.send exA exB 1).run (Spec.Accounts.update (fun _ => 0) exA 5) exB = 1 := by decide +kernel

/-! ## C48 -/

theorem supply_total {d : Db} {f : Spec.Accounts} (_ : d.cur.Dec) (hf : Shows d f) : Spec.Total f d.cur.supply := by
  have := shows_eq hf
  subst this
  refine ⟨d.cur.entries.map (·.1), ?_, fun q hq => ?_, ?_⟩
  · have hs : d.cur.entries.Pairwise (fun a b => bytesLt a.1 b.1 = true) := d.cur.sorted
    unfold List.Nodup
    rw [List.pairwise_map]
    refine hs.imp fun {a b} h e => ?_
    rw [e, bytesLt_irrefl] at h
    cases h
  · cases h : d.cur.get q with
    | none =>
      refine absurd ?_ hq
      simp only [KV.amt, h, Ledger.balance]; rfl
    | some v => exact List.mem_map.mpr ⟨_, KV.mem_entries.mpr h, rfl⟩
  · unfold KV.supply
    rw [List.map_map]
    congr 1
    refine List.map_congr_left fun e he => ?_
    have := KV.mem_entries.mp (show (e.1, e.2) ∈ d.cur.entries from he)
    simp only [Function.comp, KV.amt, this, storedAmount]
    cases Ledger.balance (some e.2) <;> rfl

theorem total_iff {d : Db} {f : Spec.Accounts} {n : Nat} (hd : d.cur.Dec) (hf : Shows d f) :
    Spec.Total f n ↔ n = d.cur.supply :=
  ⟨fun h => h.unique (supply_total hd hf), fun h => h ▸ supply_total hd hf⟩

/-- Coin transfers. -/
def IsTransfer : Op → Prop
  | .sendAmount _ _ _ => True
  | .sendTransaction _ => True
  | _ => False

theorem transfer_supply_inv {E : Env} {s : Tree} {op : Op} (hi : StoreInv E s) (ho : IsTransfer op) :
    ∀ t, t = (op.run E s).final ∨ t ∈ (op.run E s).trace → t.summary.cur.supply = s.summary.cur.supply := by
  cases op <;> try exact ho.elim
  case sendAmount a b n =>
    change ∀ t, t = (Tree.sendAmount a b n s).final ∨ t ∈ (Tree.sendAmount a b n s).trace → _
    unfold Tree.sendAmount
    split
    · intro t ht
      rcases ht with rfl | ht
      · rfl
      · simp at ht
    · rename_i hne
      unfold Tree.onSummary
      rw [Act.zoom_run]
      rcases Ledger.transfer_run hi.summary.1 a b n with ⟨h, hlt, e⟩ | ⟨h, e⟩ | ⟨h, hlt, e⟩ <;> rw [e] <;> intro t ht
      · have := Ledger.moved_supply s.summary.cur hne n hlt h
        rcases ht with rfl | ht
        · exact this
        · rw [List.mem_singleton.mp ht]; exact this
      all_goals
        rcases ht with rfl | ht
        · rfl
        · simp at ht
  case sendTransaction tx =>
    change ∀ t, t = (Tree.sendTransaction E tx s).final ∨ t ∈ (Tree.sendTransaction E tx s).trace → _
    rcases sendTransaction_cases E s tx hi.summary.1 hi.gas.1 with ⟨l, fee, h, ha, _, h2, h3⟩ | ⟨_, _, _, _, _, e⟩ | ⟨_, _, _, e⟩
    · have hp := paid_supply s.summary tx h (by have := ha.coins; omega)
      rw [h2, h3]
      intro t ht
      rcases ht with rfl | ht
      · exact hp
      · split at ht
        · simp only [List.mem_cons, List.not_mem_nil, or_false] at ht
          rcases ht with rfl | rfl
          · rfl
          · exact hp
        · simp only [List.mem_cons, List.not_mem_nil, or_false] at ht
          rcases ht with rfl | rfl | rfl
          · rfl
          · exact hp
          · exact hp
    · rw [e]; intro t ht
      rcases ht with rfl | ht
      · rfl
      · rw [List.mem_singleton.mp ht]; rfl
    · rw [e]; intro t ht
      rcases ht with rfl | ht
      · rfl
      · simp at ht

theorem transfer_supply {E : Env} {s : Tree} {op : Op} (hr : Run E s) (ho : IsTransfer op) :
    ∀ t, t = (op.run E s).final ∨ t ∈ (op.run E s).trace → t.summary.cur.supply = s.summary.cur.supply :=
  transfer_supply_inv (run_storeInv hr) ho

/-- C48. The sum of all coin balances is the same after a transfer and at every moment during it, whatever the
outcome. -/
theorem C48_transfers_conserve (E : Env) (s t : Tree) (op : Op) (f : Spec.Accounts) (n : Nat) (hr : Run E s)
    (ho : IsTransfer op) (ht : t = (op.run E s).final ∨ t ∈ (op.run E s).trace) (hf : Shows s.summary f)
    (hn : Spec.Total f n) : ∃ f', Shows t.summary f' ∧ Spec.Total f' n := by
  have hi := run_storeInv hr
  have hi' : StoreInv E t := by
    rcases ht with rfl | ht
    · exact (Op.storeInv E op s).1 hi
    · exact (Op.storeInv E op s).2 t ht hi
  refine ⟨_, shows_amt hi'.summary.1, ?_⟩
  rw [total_iff hi'.summary.1 (shows_amt hi'.summary.1), transfer_supply hr ho t ht]
  exact (total_iff hi.summary.1 hf).mp hn

/-- C48. The sum of all coins exists in every state. -/
theorem C48_sum_exists (E : Env) (s : Tree) (hr : Run E s) (f : Spec.Accounts) (hf : Shows s.summary f) :
    ∃ n, Spec.Total f n ∧ ∀ m, Spec.Total f m → m = n :=
  ⟨_, supply_total (run_storeInv hr).summary.1 hf, fun _ hm => hm.unique (supply_total (run_storeInv hr).summary.1 hf)⟩

example : IsTransfer (.sendTransaction exTx) ∧ IsTransfer (.sendAmount exA exB U256.one) ∧
    Spec.Total (Spec.Accounts.update (fun _ => 0) exA 5) 5 :=
  ⟨trivial, trivial, [exA], by decide, fun q hq => by
    unfold Spec.Accounts.update at hq
    split at hq
    · simp [*]
    · exact absurd rfl hq, by decide +kernel⟩

/-! ## C49 -/

/-- C49 at full strength. -/
def C49_full : Prop := ∀ (E : Env) (s : Tree) (a b : Bytes) (n : U256) (g g' : Spec.Accounts) (k : Nat), Run E s →
  Shows s.gas g → Shows ((Op.sendGas a b n).run E s).final.gas g' → Spec.Total g k → Spec.Total g' k

theorem sendGas_op (E : Env) (s : Tree) (a b : Bytes) (n : U256) :
    (Op.sendGas a b n).run E s = ⟨(Ledger.transfer a b n s.gas).out, { s with gas := (Ledger.transfer a b n s.gas).final },
      (Ledger.transfer a b n s.gas).trace.map (fun d => { s with gas := d })⟩ := rfl

/-- C49 for two different accounts (missing: a transfer to oneself). -/
theorem C49_gas_conserved_partial (E : Env) (s : Tree) (a b : Bytes) (n : U256) (g g' : Spec.Accounts) (k : Nat)
    (hr : Run E s) (hab : a ≠ b) (hg : Shows s.gas g) (hg' : Shows ((Op.sendGas a b n).run E s).final.gas g')
    (hk : Spec.Total g k) : Spec.Total g' k := by
  have hi := run_storeInv hr
  have hi' := (Op.storeInv E (.sendGas a b n) s).1 hi
  rw [total_iff hi'.gas.1 hg', (total_iff hi.gas.1 hg).mp hk, sendGas_op]
  rcases Ledger.transfer_run hi.gas.1 a b n with ⟨h, hlt, e⟩ | ⟨h, e⟩ | ⟨h, hlt, e⟩ <;> rw [e]
  exact (Ledger.moved_supply s.gas.cur hab n hlt h).symm

/-- What a gas transfer to oneself does: it succeeds and creates the amount. -/
theorem C49_self_transfer_mints (E : Env) (s : Tree) (a : Bytes) (n : U256) (g : Spec.Accounts) (k : Nat)
    (hr : Run E s) (hg : Shows s.gas g) (hk : Spec.Total g k) (h1 : n.val ≤ g a) (h2 : g a + n.val < 2 ^ 256) :
    ((Op.sendGas a a n).run E s).out = .ok () ∧
    Shows ((Op.sendGas a a n).run E s).final.gas (g.update a (g a + n.val)) ∧
    Spec.Total (g.update a (g a + n.val)) (k + n.val) := by
  have hi := run_storeInv hr
  have hi' := (Op.storeInv E (.sendGas a a n) s).1 hi
  have hkk := (total_iff hi.gas.1 hg).mp hk
  have := shows_eq hg
  subst this
  have key : ∃ hlt : (s.gas.cur.amt a).val + n.val < U256.size,
      (Op.sendGas a a n).run E s = ⟨.ok (), { s with gas := s.gas.commit (fun _ => Ledger.moved s.gas.cur a a n hlt) },
        [{ s with gas := s.gas.commit (fun _ => Ledger.moved s.gas.cur a a n hlt) }]⟩ := by
    rw [sendGas_op]
    rcases Ledger.transfer_run hi.gas.1 a a n with ⟨h, hlt, e⟩ | ⟨h, e⟩ | ⟨h, hlt, e⟩
    · exact ⟨hlt, by rw [e]; rfl⟩
    · simp only at h1; omega
    · exact absurd h2 hlt
  obtain ⟨hlt, e⟩ := key
  have hsh : Shows ((Op.sendGas a a n).run E s).final.gas
      (Spec.Accounts.update (fun k => (s.gas.cur.amt k).val) a ((s.gas.cur.amt a).val + n.val)) := by
    refine shows_of hi'.gas.1 fun q => ?_
    rw [e]
    change _ = ((Ledger.moved s.gas.cur a a n hlt).amt q).val
    unfold Ledger.moved Spec.Accounts.update
    rw [KV.amt_insert, KV.amt_insert]
    by_cases h : q = a
    · rw [if_pos h, if_pos h.symm]
    · rw [if_neg h, if_neg (fun e : a = q => h e.symm), if_neg (fun e : a = q => h e.symm)]
  refine ⟨by rw [e], hsh, ?_⟩
  rw [total_iff hi'.gas.1 hsh, e]
  change _ = (Ledger.moved s.gas.cur a a n hlt).supply
  unfold Ledger.moved
  have e1 := s.gas.cur.supply_insert a ⟨(s.gas.cur.amt a).val - n.val, Ledger.sub_lt⟩
  have e2 := (s.gas.cur.insert a (Ledger.encode ⟨(s.gas.cur.amt a).val - n.val, Ledger.sub_lt⟩)).supply_insert a ⟨_, hlt⟩
  rw [KV.amt_insert, if_pos rfl] at e2
  simp only at e1 e2 h1
  omega

/-- A node whose account `A` has gas. -/
theorem exGas (E : Env) : Run E ((Op.addGas exA (U256.ofNat 100)).run E (openTree E Disk.empty).final).final ∧
    Shows ((Op.addGas exA (U256.ofNat 100)).run E (openTree E Disk.empty).final).final.gas
      (Spec.Accounts.update (fun _ => 0) exA 100) := by
  refine ⟨.call _ _ .fresh trivial, ?_⟩
  have := (C47_gas_call E _ (.addGas exA (U256.ofNat 100)) (.add exA 100) (fun _ => 0) .fresh rfl (C47_start E).2).1
  simpa [Spec.LedgerCall.run, Spec.LedgerCall.apply] using this

/-- C49 is false of the code. -/
theorem C49_refuted : ¬ C49_full := by
  intro h
  obtain ⟨h1, h2⟩ := exGas idEnv
  have ht : Spec.Total (Spec.Accounts.update (fun _ => 0) exA 100) 100 := ⟨[exA], by decide, fun q hq => by
    unfold Spec.Accounts.update at hq
    split at hq
    · simp [*]
    · exact absurd rfl hq, by decide +kernel⟩
  have hu : Spec.Accounts.update (fun _ => 0) exA 100 exA = 100 := by decide +kernel
  obtain ⟨_, h3, h4⟩ := C49_self_transfer_mints idEnv _ exA (U256.ofNat 40) _ 100 h1 h2 ht
    (by rw [hu]; decide) (by rw [hu]; decide)
  have := (h idEnv _ exA exA (U256.ofNat 40) _ _ 100 h1 h2 h3 ht).unique h4
  revert this
  decide

/-! ## C50 -/

/-- The payer and the amount of a withdrawal or transfer. -/
def spends (s : Tree) : Op → Option (Bytes × U256 × Db)
  | .subAmount o a => some (o, a, s.summary)
  | .sendAmount o _ a => some (o, a, s.summary)
  | .subGas o a => some (o, a, s.gas)
  | .sendGas o _ a => some (o, a, s.gas)
  | _ => none

/-- C50 at full strength. -/
def C50_full : Prop := ∀ (E : Env) (s : Tree) (op : Op) (o : Bytes) (a b : U256) (d : Db), Run E s →
  spends s op = some (o, a, d) → Ledger.balance (d.get o) = .ok b → b.val < a.val →
  (op.run E s).out ≠ .ok () ∧ (op.run E s).final = s

/-- C50 except for coin transfers to oneself: the call panics and nothing at all has changed. -/
theorem C50_no_overspending_partial (E : Env) (s : Tree) (op : Op) (o : Bytes) (a b : U256) (d : Db) (hr : Run E s)
    (hs : spends s op = some (o, a, d)) (hb : Ledger.balance (d.get o) = .ok b) (hlt : b.val < a.val)
    (hself : ∀ x n, op ≠ .sendAmount x x n) :
    op.run E s = ⟨.panic .unwrap, s, []⟩ := by
  have hi := run_storeInv hr
  cases op <;> simp only [spends, Option.some.injEq, reduceCtorEq, Prod.mk.injEq] at hs
  case subAmount x n =>
    obtain ⟨rfl, rfl, rfl⟩ := hs
    change Tree.onSummary (Ledger.sub x n) s = _
    unfold Tree.onSummary; rw [Act.zoom_run]
    have := hi.summary.1.balance x
    rw [show s.summary.cur.get x = s.summary.get x from rfl, hb] at this
    cases this
    rcases Ledger.sub_run hi.summary.1 x n with ⟨h, _⟩ | ⟨_, e⟩
    · omega
    · rw [e]; rfl
  case subGas x n =>
    obtain ⟨rfl, rfl, rfl⟩ := hs
    change Tree.onGas (Ledger.sub x n) s = _
    unfold Tree.onGas; rw [Act.zoom_run]
    have := hi.gas.1.balance x
    rw [show s.gas.cur.get x = s.gas.get x from rfl, hb] at this
    cases this
    rcases Ledger.sub_run hi.gas.1 x n with ⟨h, _⟩ | ⟨_, e⟩
    · omega
    · rw [e]; rfl
  case sendAmount x y n =>
    obtain ⟨rfl, rfl, rfl⟩ := hs
    have hne : x ≠ y := fun e => hself x n (by rw [e])
    change Tree.sendAmount x y n s = _
    unfold Tree.sendAmount Tree.onSummary; rw [if_neg hne, Act.zoom_run]
    have := hi.summary.1.balance x
    rw [show s.summary.cur.get x = s.summary.get x from rfl, hb] at this
    cases this
    rcases Ledger.transfer_run hi.summary.1 x y n with ⟨h, _⟩ | ⟨_, e⟩ | ⟨h, _⟩
    · omega
    · rw [e]; rfl
    · omega
  case sendGas x y n =>
    obtain ⟨rfl, rfl, rfl⟩ := hs
    change Tree.onGas (Ledger.transfer x y n) s = _
    unfold Tree.onGas; rw [Act.zoom_run]
    have := hi.gas.1.balance x
    rw [show s.gas.cur.get x = s.gas.get x from rfl, hb] at this
    cases this
    rcases Ledger.transfer_run hi.gas.1 x y n with ⟨h, _⟩ | ⟨_, e⟩ | ⟨h, _⟩
    · omega
    · rw [e]; rfl
    · omega

/-- C50 is false of the code: any coin transfer to oneself reports success (and changes nothing). -/
theorem C50_refuted : (∀ (E : Env) (s : Tree) (x : Bytes) (n : U256),
    (Op.sendAmount x x n).run E s = ⟨.ok (), s, []⟩) ∧ ¬ C50_full := by
  have key : ∀ (E : Env) (s : Tree) (x : Bytes) (n : U256), (Op.sendAmount x x n).run E s = ⟨.ok (), s, []⟩ := by
    intro E s x n
    change Tree.sendAmount x x n s = _
    unfold Tree.sendAmount
    rw [if_pos rfl]; rfl
  refine ⟨key, fun h => ?_⟩
  obtain ⟨b, h1, h2⟩ := (C47_start idEnv).1 exA
  have h3 : b.val = 0 := by rw [h2]; decide +kernel
  have := (h idEnv _ (.sendAmount exA exA U256.one) exA U256.one b _ .fresh rfl h1 (by rw [h3]; decide)).1
  rw [key] at this
  exact this rfl

example (E : Env) : ∃ b : U256, Run E (openTree E Disk.empty).final ∧
    spends (openTree E Disk.empty).final (.subGas exA U256.one) = some (exA, U256.one, (openTree E Disk.empty).final.gas) ∧
    Ledger.balance ((openTree E Disk.empty).final.gas.get exA) = .ok b ∧ b.val < U256.one.val := by
  obtain ⟨b, h1, h2⟩ := (C47_start E).2 exA
  exact ⟨b, .fresh, rfl, h1, by rw [h2]; decide⟩

/-! ## C51 -/

/-- C51. If the coin supply fits in 256 bits, a transfer the payer can afford succeeds. -/
theorem C51_funded_transfer (E : Env) (s : Tree) (a b : Bytes) (n : U256) (f : Spec.Accounts) (k : Nat)
    (hr : Run E s) (hf : Shows s.summary f) (hk : Spec.Total f k) (hfit : k < 2 ^ 256) (hn : n.val ≤ f a) :
    ((Op.sendAmount a b n).run E s).out = .ok () ∧
    Shows ((Op.sendAmount a b n).run E s).final.summary
      (if a = b then f else (f.update a (f a - n.val)).update b (f b + n.val)) := by
  have hi := run_storeInv hr
  have hk' := (total_iff hi.summary.1 hf).mp hk
  have happ : Spec.LedgerCall.apply (.send a b n.val) f =
      some (if a = b then f else (f.update a (f a - n.val)).update b (f b + n.val)) := by
    unfold Spec.LedgerCall.apply
    by_cases hab : a = b
    · simp only [if_pos hab]
    · simp only [if_neg hab]
      have h1 := KV.amt_add_le_supply s.summary.cur hab
      have := shows_eq hf
      subst this
      rw [if_pos ⟨hn, by simp only at hn ⊢; omega⟩]
  obtain ⟨h1, h2, _, _⟩ := C47_coin_call E s (.sendAmount a b n) (.send a b n.val) f hr rfl hf
  refine ⟨h2.mpr (by rw [happ]; rfl), ?_⟩
  unfold Spec.LedgerCall.run at h1
  rw [happ] at h1
  exact h1

example (E : Env) : ∃ f k, Shows (openTree E Disk.empty).final.summary f ∧ Spec.Total f k ∧ k < 2 ^ 256 ∧
    (U256.ofNat 7).val ≤ f ROOT_PUBLIC_ADDRESS.val := by
  refine ⟨_, _, (C47_start E).1, ⟨[ROOT_PUBLIC_ADDRESS.val], by simp, fun q hq => ?_,
    by simp only [List.map_cons, List.map_nil, List.sum_cons, List.sum_nil, Spec.Accounts.update, if_pos]; rfl⟩, ?_, ?_⟩
  · unfold Spec.Accounts.update at hq
    split at hq
    · simp [*]
    · exact absurd rfl hq
  · decide
  · rw [show Spec.Accounts.update (fun _ => 0) ROOT_PUBLIC_ADDRESS.val 50010000000000000000000000 ROOT_PUBLIC_ADDRESS.val =
      50010000000000000000000000 from if_pos rfl]
    decide

end BCT.Props
