import Verif.Props.Send
import Verif.Props.Frame
import Verif.Props.Life
/-!
# C122, C123: where gas comes from and where it goes
-/

namespace BCT.Props
open BCT

/-! ## C122 -/

/-- What can be observed of a node over time when only the allowed calls are made: it is opened, called, stopped or
crashes at any moment, and is opened again, as in `Life`. -/
inductive LifeWith (E : Env) (allowed : Op → Prop) : Moment → Prop where
  | start : LifeWith E allowed (.down Disk.empty)
  | opening (d : Disk) (t : Tree) : LifeWith E allowed (.down d) → t ∈ (openTree E d).trace → LifeWith E allowed (.busy t)
  | opened (d : Disk) : LifeWith E allowed (.down d) → (openTree E d).out = .ok () →
      LifeWith E allowed (.idle (openTree E d).final)
  | running (s t : Tree) (op : Op) : LifeWith E allowed (.idle s) → allowed op → t ∈ (op.run E s).trace →
      LifeWith E allowed (.busy t)
  | call (s : Tree) (op : Op) : LifeWith E allowed (.idle s) → allowed op → LifeWith E allowed (.idle (op.run E s).final)
  | crashIdle (s : Tree) (d : Disk) : LifeWith E allowed (.idle s) → Crash s d → LifeWith E allowed (.down d)
  | crashBusy (s : Tree) (d : Disk) : LifeWith E allowed (.busy s) → Crash s d → LifeWith E allowed (.down d)

theorem LifeWith.life {E : Env} {A : Op → Prop} {m : Moment} (h : LifeWith E A m) : Life E m := by
  induction h with
  | start => exact .start
  | opening d t _ ht ih => exact .opening d t ih ht
  | opened d _ ho ih => exact .opened d ih ho
  | running s t op _ _ ht ih => exact .running s t op ih ht
  | call s op _ _ ih => exact .call s op ih
  | crashIdle s d _ hc ih => exact .crashIdle s d ih hc
  | crashBusy s d _ hc ih => exact .crashBusy s d ih hc

/-- A gas database that decodes and is empty of gas. -/
def KV.NoGas (m : KV) : Prop := m.Dec ∧ m.supply = 0

theorem KV.NoGas.amt {m : KV} (h : KV.NoGas m) (k : Bytes) : (m.amt k).val = 0 := by
  have := m.amt_le_supply k
  have := h.2
  omega

theorem KV.NoGas.insert {m : KV} (h : KV.NoGas m) (k : Bytes) (a : U256) (ha : a.val = 0) :
    KV.NoGas (m.insert k (Ledger.encode a)) := by
  refine ⟨h.1.insert _ _, ?_⟩
  have := m.supply_insert k a
  have := h.amt k
  have := h.2
  omega

/-- Taking gas leaves a database without gas without gas. -/
theorem sub_noGas (o : Bytes) (a : U256) :
    Act.Rel (fun x y : Db => x.All KV.NoGas → y.All KV.NoGas) (Ledger.sub o a) := by
  intro d
  refine ⟨fun h => ?_, fun t ht h => ?_⟩ <;> rcases Ledger.sub_run h.1.1 o a with ⟨hle, e⟩ | ⟨hlt, e⟩
  · rw [e]; exact h.commit (h.1.insert _ _ (by show _ - _ = 0; have := h.1.amt o; omega))
  · rw [e]; exact h
  · rw [e] at ht; rw [List.mem_singleton.mp ht]
    exact h.commit (h.1.insert _ _ (by show _ - _ = 0; have := h.1.amt o; omega))
  · rw [e] at ht; simp at ht

theorem moved_noGas {m : KV} (hm : KV.NoGas m) (s t : Bytes) (a : U256) (h : (m.amt t).val + a.val < U256.size)
    (ha : a.val ≤ (m.amt s).val) : KV.NoGas (Ledger.moved m s t a h) := by
  have h1 := hm.amt s
  have h2 := hm.amt t
  exact (hm.insert s _ (by show _ - _ = 0; omega)).insert t _ (by show _ + _ = 0; omega)

/-- Moving gas leaves a database without gas without gas. -/
theorem transfer_noGas (s t : Bytes) (a : U256) :
    Act.Rel (fun x y : Db => x.All KV.NoGas → y.All KV.NoGas) (Ledger.transfer s t a) := by
  intro d
  refine ⟨fun h => ?_, fun t' ht h => ?_⟩ <;>
    rcases Ledger.transfer_run h.1.1 s t a with ⟨hle, hlt, e⟩ | ⟨hlt, e⟩ | ⟨_, hlt, e⟩
  · rw [e]; exact h.commit (moved_noGas h.1 s t a hlt hle)
  · rw [e]; exact h
  · rw [e]; exact h
  · rw [e] at ht; rw [List.mem_singleton.mp ht]; exact h.commit (moved_noGas h.1 s t a hlt hle)
  · rw [e] at ht; simp at ht
  · rw [e] at ht; simp at ht

/-- The node has no gas anywhere, nor on its disk. -/
def NoGas (t : Tree) : Prop := t.gas.All KV.NoGas

section
variable {E : Env}

/-- What keeps a node without gas. -/
abbrev Keeps {α : Type} (x : Act Tree α) : Prop := Act.Rel (fun s t => NoGas s → NoGas t) x

theorem keeps_onMain {α : Type} (x : Act MainChain α) : Keeps (Tree.onMain x) :=
  Act.rel_zoom (Act.rel_true x) fun _ _ _ h => h

theorem keeps_onSummary (x : Act Db Unit) : Keeps (Tree.onSummary x) :=
  Act.rel_zoom (Act.rel_true x) fun _ _ _ h => h

theorem keeps_onDeriv {α : Type} (o : Address) (x : Act DerivativeChain α) : Keeps (Tree.onDeriv o x) :=
  Act.rel_zoom (Act.rel_true x) fun _ _ _ h => h

theorem keeps_onGas {x : Act Db Unit} (hx : Act.Rel (fun x y : Db => x.All KV.NoGas → y.All KV.NoGas) x) :
    Keeps (Tree.onGas x) :=
  Act.rel_zoom hx fun _ _ h1 h2 => h1 h2

theorem keeps_closed : Act.Closed (fun {α} (x : Act Tree α) => Keeps x) := Act.rel_closed (Act.inv_preord NoGas)

theorem keeps_flush : Keeps Tree.flush := by
  have C := keeps_closed
  unfold Tree.flush
  exact C.bind (keeps_onMain _) fun _ => C.bind (Act.rel_step fun _ h => h) fun _ =>
    C.bind (Act.rel_step fun _ h => h) fun _ => C.bind (Act.rel_step fun _ h => Db.All.flush h) fun _ =>
      Act.rel_step fun _ h => h

theorem keeps_rotate : Keeps Tree.rotateDbs := by
  have C := keeps_closed
  unfold Tree.rotateDbs
  exact C.bind keeps_flush fun _ => C.bind (Act.rel_step fun _ h => h) fun _ =>
    C.bind (Act.rel_step fun _ h => h) fun _ => C.bind (Act.rel_step fun _ h => h) fun _ => Act.rel_step fun _ h => h

theorem keeps_getDeriv (o : Address) : Keeps (Tree.getDerivativeChain E o) := by
  have C := keeps_closed
  unfold Tree.getDerivativeChain
  refine C.bind C.get fun _ => ?_
  split
  · exact C.pure _
  · exact C.bind (C.lift _) fun _ => C.bind (C.lift _) fun _ => C.bind (C.lift _) fun _ => Act.rel_step fun _ h => h

theorem keeps_sendAmount (s t : Bytes) (a : U256) : Keeps (Tree.sendAmount s t a) := by
  unfold Tree.sendAmount
  split
  · exact keeps_closed.pure ()
  · exact keeps_onSummary _

/-- The calls that give gas to somebody. -/
def GivesGas : Op → Prop
  | .addGas _ _ => True
  | _ => False

/-- Every call but `add_gas` keeps a node without gas, at every moment of the call. -/
theorem keeps_op (op : Op) (ho : ¬ GivesGas op) : Keeps (op.run E) := by
  have C := keeps_closed
  cases op with
  | addBlock b => exact keeps_onMain _
  | addNewBlock b txs => exact C.bind (keeps_onMain _) fun _ => keeps_onMain _
  | addTransaction t => exact keeps_onMain _
  | addTransactions ts => exact keeps_onMain _
  | addAmount o a => exact keeps_onSummary _
  | setAmount o a => exact keeps_onSummary _
  | subAmount o a => exact keeps_onSummary _
  | sendAmount s t a => exact keeps_sendAmount s t a
  | addGas o a => exact absurd trivial ho
  | subGas o a => exact keeps_onGas (sub_noGas o a)
  | sendGas s t a => exact keeps_onGas (transfer_noGas s t a)
  | sendTransaction tx =>
    show Keeps (Tree.sendTransaction E tx)
    unfold Tree.sendTransaction
    refine C.bind C.get fun t => C.bind (C.lift _) fun g => C.bind (C.lift _) fun a => C.bind (C.lift _) fun r => ?_
    split
    · exact C.lift _
    · refine C.bind (C.lift _) fun _ => C.bind (C.lift _) fun _ => C.bind (C.lift _) fun _ => C.bind (C.lift _) fun _ => ?_
      split
      · exact C.lift _
      · exact C.bind (keeps_onMain _) fun _ => C.bind (keeps_sendAmount _ _ _) fun _ => keeps_onGas (sub_noGas _ _)
  | emitMain p f txs ts =>
    refine C.void (x := Tree.emitMain E p f txs ts) ?_
    unfold Tree.emitMain
    refine C.bind C.get fun t => C.bind (C.lift _) fun _ => C.bind (C.lift _) fun _ => C.bind (C.lift _) fun _ => ?_
    split
    · exact C.lift _
    · refine C.bind (C.lift _) fun _ => C.bind (C.lift _) fun _ => C.bind (C.lift _) fun _ => C.bind ?_ fun _ =>
        C.bind (keeps_onMain _) fun _ => C.pure _
      split
      · split
        · exact C.lift _
        · exact C.bind (C.lift _) fun _ => C.bind keeps_rotate fun _ => C.bind (keeps_onSummary _) fun _ => C.pure _
      · split
        · exact C.lift _
        · exact C.bind (C.lift _) fun _ => C.pure _
  | emitDerivative p f ts =>
    refine C.void (x := Tree.emitDerivative E p f ts) ?_
    unfold Tree.emitDerivative
    refine C.bind (keeps_getDeriv f) fun _ => C.bind C.get fun t => C.bind (C.lift _) fun _ =>
      C.bind (C.lift _) fun r => C.bind (C.lift _) fun _ => ?_
    split
    · exact C.lift _
    · exact C.bind (C.lift _) fun _ => C.bind (keeps_onDeriv f _) fun _ => C.pure _
  | getDerivativeChain o => exact keeps_getDeriv o
  | derivAddBlock o b => exact C.bind (keeps_getDeriv o) fun _ => keeps_onDeriv o _
  | derivFlush o => exact C.bind (keeps_getDeriv o) fun _ => keeps_onDeriv o _
  | mainFlush => exact keeps_onMain _
  | flush => exact keeps_flush

theorem keeps_new : Keeps (Tree.new E) :=
  Tree.new_rel (Act.inv_preord NoGas) (fun _ h => h) (fun _ _ _ h => h) (keeps_onMain _) (keeps_onSummary _)

/-- A node that was never given gas has none. -/
theorem lifeWith_noGas {m : Moment} (h : LifeWith E (fun op => ¬ GivesGas op) m) :
    match m with
    | .idle t => NoGas t
    | .busy t => NoGas t
    | .down d => KV.NoGas d.gas := by
  induction h with
  | start => exact ⟨KV.dec_empty, rfl⟩
  | opening d t _ ht ih => exact (keeps_new d.boot).2 t ht (Db.all_open ih)
  | opened d _ _ ih => exact (keeps_new d.boot).1 (Db.all_open ih)
  | running s t op _ ho ht ih => exact (keeps_op op ho s).2 t ht ih
  | call s op _ ho ih => exact (keeps_op op ho s).1 ih
  | crashIdle s d _ hd ih => exact ih.2 _ hd.gas
  | crashBusy s d _ hd ih => exact ih.2 _ hd.gas

end

/-- C122. A node on which nobody ever called `add_gas`, through all calls, crashes and openings: every account has no
gas, and `send_transaction` refuses every transaction and changes nothing. -/
theorem C122_no_gas_no_transactions (E : Env) (s : Tree) (h : LifeWith E (fun op => ¬ GivesGas op) (.idle s)) :
    (∀ a, s.getGas a = .ok U256.zero) ∧
    ∀ tx, (∀ u, ((Op.sendTransaction tx).run E s).out ≠ .ok u) ∧ ((Op.sendTransaction tx).run E s).final = s ∧
      ((Op.sendTransaction tx).run E s).trace = [] := by
  have hz : NoGas s := lifeWith_noGas h
  have hi : StoreInv E s := life_storeInv h.life
  refine ⟨fun a => ?_, fun tx => ?_⟩
  · have hb : s.getGas a = .ok (s.gas.cur.amt a.val) := hi.gas.1.balance _
    rw [hb]
    exact congrArg Outcome.ok (U256.ext (hz.1.amt _))
  · have hno : ¬ ∃ last fee, Admitted s tx last fee := by
      rintro ⟨last, fee, ha⟩
      have h1 := ha.gas
      rw [hz.1.amt] at h1
      have h2 : gasCost tx = 625000000000 * tx.getDumpSize := rfl
      have h3 : 139 ≤ tx.getDumpSize := by unfold Transaction.getDumpSize; omega
      omega
    rcases sendTransaction_cases E s tx hi.summary.1 hi.gas.1 with ⟨l, fee, _, ha, _⟩ | ⟨l, fee, ha, _⟩ | ⟨_, o, ho, e⟩
    · exact absurd ⟨l, fee, ha⟩ hno
    · exact absurd ⟨l, fee, ha⟩ hno
    · rw [send_op, e]
      exact ⟨ho, rfl, rfl⟩

/-- C122 is about something: on a node nobody gave gas to, an account with coins has its transaction refused; with gas
the same transaction is accepted (`funded`). -/
example (E : Env) : ∃ s, LifeWith E (fun op => ¬ GivesGas op) (.idle s) ∧
    s.getAmount exTx.sender = .ok (U256.ofNat 1000000000) ∧ (∀ u, ((Op.sendTransaction exTx).run E s).out ≠ .ok u) := by
  have h0 : LifeWith E (fun op => ¬ GivesGas op) (.idle (openTree E Disk.empty).final) :=
    .opened _ .start (openTree_fresh E).1
  have h1 := LifeWith.call _ (.setAmount exTx.sender.val (U256.ofNat 1000000000)) h0 (fun h => h)
  refine ⟨_, h1, ?_, ((C122_no_gas_no_transactions E _ h1).2 exTx).1⟩
  have h2 := (C47_coin_call E _ (.setAmount exTx.sender.val (U256.ofNat 1000000000)) (.set exTx.sender.val 1000000000) _
    .fresh rfl (C47_start E).1).1
  obtain ⟨a, ha, hb⟩ := h2 exTx.sender.val
  refine Eq.trans ha (congrArg _ (U256.ext ?_))
  rw [hb]
  simp [Spec.LedgerCall.run, Spec.LedgerCall.apply, Spec.Accounts.update]
  rfl

/-! ## C123 -/

/-- The gas a call that succeeded brings in. A transfer to oneself brings in what it moves. -/
def gasIn : Op → Nat
  | .addGas _ a => a.val
  | .sendGas a b n => if a = b then n.val else 0
  | _ => 0

/-- The gas a call that succeeded uses up. -/
def gasOut : Op → Nat
  | .subGas _ a => a.val
  | .sendTransaction tx => 625000000000 * tx.getDumpSize
  | _ => 0

/-- The sum of `f` over the calls of a history that succeed. -/
def overCalls (E : Env) (f : Op → Nat) : Tree → List Op → Nat
  | _, [] => 0
  | s, op :: ops => (match (op.run E s).out with | .ok _ => f op | _ => 0) + overCalls E f (op.run E s).final ops

theorem gas_books_step (E : Env) (op : Op) (s : Tree) (hi : StoreInv E s) :
    (op.run E s).final.gas.cur.supply + (match (op.run E s).out with | .ok _ => gasOut op | _ => 0) =
      s.gas.cur.supply + (match (op.run E s).out with | .ok _ => gasIn op | _ => 0) := by
  by_cases hg : mayChange op .gas
  · cases op <;> simp only [mayChange, reduceCtorEq, or_false, false_or] at hg
    case addGas o a =>
      have e : (Op.addGas o a).run E s = Tree.onGas (Ledger.add o a) s := rfl
      rw [e]
      unfold Tree.onGas
      rw [Act.zoom_run]
      rcases Ledger.add_run hi.gas.1 o a with ⟨hlt, e⟩ | ⟨hlt, e⟩ <;> rw [e]
      · have := s.gas.cur.supply_insert o ⟨_, hlt⟩
        show (s.gas.cur.insert o _).supply + 0 = s.gas.cur.supply + a.val
        simp only at this
        omega
    case subGas o a =>
      have e : (Op.subGas o a).run E s = Tree.onGas (Ledger.sub o a) s := rfl
      rw [e]
      unfold Tree.onGas
      rw [Act.zoom_run]
      rcases Ledger.sub_run hi.gas.1 o a with ⟨hle, e⟩ | ⟨hlt, e⟩ <;> rw [e]
      · have := s.gas.cur.supply_insert o ⟨(s.gas.cur.amt o).val - a.val, Ledger.sub_lt⟩
        show (s.gas.cur.insert o _).supply + a.val = s.gas.cur.supply + 0
        simp only at this
        omega
    case sendGas a b n =>
      rw [sendGas_op]
      rcases Ledger.transfer_run hi.gas.1 a b n with ⟨h, hlt, e⟩ | ⟨h, e⟩ | ⟨h, hlt, e⟩ <;> rw [e]
      show (Ledger.moved s.gas.cur a b n hlt).supply + 0 = s.gas.cur.supply + (if a = b then n.val else 0)
      by_cases hab : a = b
      · subst hab
        rw [if_pos rfl]
        have h1 := s.gas.cur.supply_insert a ⟨(s.gas.cur.amt a).val - n.val, Ledger.sub_lt⟩
        have h2 := (s.gas.cur.insert a (Ledger.encode ⟨(s.gas.cur.amt a).val - n.val, Ledger.sub_lt⟩)).supply_insert a ⟨_, hlt⟩
        rw [KV.amt_insert, if_pos rfl] at h2
        unfold Ledger.moved
        simp only at h1 h2 ⊢
        omega
      · rw [if_neg hab, Ledger.moved_supply s.gas.cur hab n hlt h]
    case sendTransaction tx =>
      rw [send_op]
      rcases sendTransaction_cases E s tx hi.summary.1 hi.gas.1 with ⟨l, fee, h, ha, h1, h2, _⟩ | ⟨l, fee, ha, _, _, e⟩ | ⟨_, o, ho, e⟩
      · rw [h1, h2]
        have h3 := s.gas.cur.supply_insert tx.sender.val
          ⟨(s.gas.cur.amt tx.sender.val).val - gasCost tx, Nat.lt_of_le_of_lt (Nat.sub_le _ _) (U256.lt _)⟩
        have h4 := ha.gas
        have h5 : gasCost tx = 625000000000 * tx.getDumpSize := rfl
        show (s.gas.cur.insert tx.sender.val _).supply + 625000000000 * tx.getDumpSize = s.gas.cur.supply + 0
        simp only at h3
        omega
      · rw [e]; rfl
      · rw [e]
        cases o with
        | ok u => exact absurd rfl (ho u)
        | _ => rfl
  · have hs : (op.run E s).final.gas.cur = s.gas.cur := (C104_frame E op .gas hg s).1
    rw [hs]
    have h1 : gasIn op = 0 := by cases op <;> first | rfl | exact absurd rfl hg
    have h2 : gasOut op = 0 := by
      cases op <;> first | rfl | exact absurd rfl hg | exact absurd (.inr (.inr rfl)) hg
    rw [h1, h2]

/-- C123. The books of gas balance. After any history of calls, succeeding or failing, from any state of a running
node: the gas there is, with what was used up by successful `sub_gas` and accepted transactions, is the gas there was,
with what successful `add_gas` gave and what successful transfers to oneself moved. -/
theorem C123_gas_books (E : Env) (s : Tree) (ops : List Op) (hr : Run E s) (g g' : Spec.Accounts) (n n' : Nat)
    (hg : Shows s.gas g) (hn : Spec.Total g n) (hg' : Shows (runAll E s ops).gas g') (hn' : Spec.Total g' n') :
    n' + overCalls E gasOut s ops = n + overCalls E gasIn s ops := by
  have key : ∀ (ops : List Op) (s : Tree), StoreInv E s → StoreInv E (runAll E s ops) ∧
      (runAll E s ops).gas.cur.supply + overCalls E gasOut s ops = s.gas.cur.supply + overCalls E gasIn s ops := by
    intro ops
    induction ops with
    | nil => exact fun s hi => ⟨hi, rfl⟩
    | cons op ops ih =>
      intro s hi
      obtain ⟨h1, h2⟩ := ih _ ((Op.storeInv E op s).1 hi)
      refine ⟨h1, ?_⟩
      have h3 := gas_books_step E op s hi
      show (runAll E (op.run E s).final ops).gas.cur.supply + (_ + overCalls E gasOut (op.run E s).final ops) =
        _ + (_ + overCalls E gasIn (op.run E s).final ops)
      omega
  have hi := run_storeInv hr
  obtain ⟨h1, h2⟩ := key ops s hi
  rw [(total_iff hi.gas.1 hg).mp hn, (total_iff h1.gas.1 hg').mp hn']
  exact h2

/-- C123. On a node started empty, on which no gas was sent to oneself: all gas there is was granted by `add_gas`, and
accepted transactions cost no more gas than was granted. -/
theorem C123_granted (E : Env) (ops : List Op) (hops : ∀ a n, Op.sendGas a a n ∉ ops) (g : Spec.Accounts) (n : Nat)
    (hg : Shows (runAll E (openTree E Disk.empty).final ops).gas g) (hn : Spec.Total g n) :
    n + overCalls E gasOut (openTree E Disk.empty).final ops =
      overCalls E (fun | .addGas _ a => a.val | _ => 0) (openTree E Disk.empty).final ops := by
  have h0 : Spec.Total (fun _ => 0) 0 := ⟨[], List.nodup_nil, fun _ h => absurd rfl h, rfl⟩
  have h1 := C123_gas_books E _ ops .fresh _ g 0 n (C47_start E).2 h0 hg hn
  rw [h1, Nat.zero_add]
  suffices ∀ s, overCalls E gasIn s ops = overCalls E (fun | .addGas _ a => a.val | _ => 0) s ops from this _
  clear h1 hg hn
  induction ops with
  | nil => exact fun _ => rfl
  | cons op ops ih =>
    intro s
    unfold overCalls
    rw [ih (fun a n h => hops a n (List.mem_cons_of_mem _ h))]
    have : gasIn op = (fun | .addGas _ a => a.val | _ => 0 : Op → Nat) op := by
      cases op with
      | sendGas a b n =>
        show (if a = b then n.val else 0) = 0
        rw [if_neg]
        rintro rfl
        exact hops a n List.mem_cons_self
      | _ => rfl
    rw [this]

/-- C123 on a history: of the gas granted, some pays for a transaction, and some is made by sending it to oneself. -/
example (E : Env) : ∃ s, Run E s ∧ Shows s.gas fundedGas ∧
    overCalls E gasIn s [.sendTransaction exTx, .sendGas exTx.sender.val exTx.sender.val (U256.ofNat 5)] = 5 ∧
    overCalls E gasOut s [.sendTransaction exTx, .sendGas exTx.sender.val exTx.sender.val (U256.ofNat 5)] =
      625000000000 * 145 := by
  obtain ⟨s, h1, h2, h3, _, l, h5, h6⟩ := funded E U256.zero
  have hok : ((Op.sendTransaction exTx).run E s).out = .ok () :=
    (C53_admission E s exTx _ _ h1 h2 h3).mpr ⟨funded_affordable _ h5 h6 exTx rfl rfl (by decide),
      .inr (by rw [funded_receiver]; decide)⟩
  obtain ⟨s', rfl, _, _, _, h7, _⟩ := (C52_effect E s exTx _ _ h1 h2 h3).1 hok
  have hr : Run E ((Op.sendTransaction exTx).run E s).final := .call s _ h1 trivial
  have hsz : exTx.getDumpSize = 145 := by decide +kernel
  have hb : Spec.Accounts.update fundedGas exTx.sender.val
      (fundedGas exTx.sender.val - 625000000000 * exTx.getDumpSize) exTx.sender.val = 1000000000000000000 - 625000000000 * 145 := by
    rw [funded_gas, hsz]; unfold Spec.Accounts.update; rw [if_pos rfl]
  have hok2 := (C49_self_transfer_mints E _ exTx.sender.val (U256.ofNat 5) _ _ hr h7
    (supply_total (run_storeInv hr).gas.1 h7) (by rw [hb]; decide) (by rw [hb]; decide)).1
  refine ⟨s, h1, h3, ?_, ?_⟩
  · unfold overCalls overCalls overCalls
    rw [hok, hok2]
    simp [gasIn]; decide
  · unfold overCalls overCalls overCalls
    rw [hok, hok2]
    simp [gasOut, hsz]

end BCT.Props
