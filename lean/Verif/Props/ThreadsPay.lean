import Verif.Props.ThreadsSend
import Verif.Props.ThreadsSerial
/-!
# C131: transactions of different senders, sent at once (blockchaintree.rs:484-514)
-/

namespace BCT.Props
open BCT

variable {ι : Type}

/-! ## The calls -/

/-- What threads call. -/
inductive Errand where
  | send (tx : Transaction)
  | lookup (l : Node.Lookup)
  | brief (x : Brief)

/-- The call in a thread. -/
def Errand.prog (E : Env) : Errand → Prog Node Reply
  | .send tx => do Node.sendTransaction E tx; pure .nothing
  | .lookup l => do let r ← l.prog; pure (.block r)
  | .brief x => x.prog E

/-- What the call returns and leaves behind when it is made alone, by the sequential functions. -/
def Errand.alone (E : Env) : Errand → Tree → Outcome Reply × Tree
  | .send tx, s => let r := Tree.sendTransaction E tx s; (r.out >>= fun _ => .ok .nothing, r.final)
  | .lookup l, s => (lookAlone l s.main >>= fun r => .ok (.block r), s)
  | .brief x, s => x.alone E s

/-- The state after the calls of these threads, one after the other. -/
def afterErrands (E : Env) (call : ι → Errand) (s : Tree) : List ι → Tree
  | [] => s
  | i :: l => afterErrands E call ((call i).alone E s).2 l

/-- The call does not meddle with the transaction: it stores nothing under its hash, takes no coins from its sender and
leaves the sender's gas alone. -/
def Brief.LeavesAlone (E : Env) (tx : Transaction) : Brief → Prop
  | .addTransaction t => E.sha256 t.dump ≠ E.sha256 tx.dump
  | .addAmount _ _ => True
  | .subAmount o _ => o ≠ tx.sender.val
  | .setAmount o _ => o ≠ tx.sender.val
  | .sendAmount a _ _ => a ≠ tx.sender.val
  | .getAmount _ => True
  | .addGas o _ => o ≠ tx.sender.val
  | .subGas o _ => o ≠ tx.sender.val
  | .sendGas a b _ => a ≠ tx.sender.val ∧ b ≠ tx.sender.val
  | .getGas o => o ≠ tx.sender

/-- No two transactions have the same sender or the same hash, and the other calls do not meddle with them. -/
structure Apart (E : Env) (call : ι → Errand) : Prop where
  senders : ∀ i j tx tx', i ≠ j → call i = .send tx → call j = .send tx' → tx.sender ≠ tx'.sender
  hashes : ∀ i j tx tx', i ≠ j → call i = .send tx → call j = .send tx' → E.sha256 tx.dump ≠ E.sha256 tx'.dump
  others : ∀ i j tx x, call i = .send tx → call j = .brief x → x.LeavesAlone E tx

/-- Two nodes hold the same: everything but what a crash may leave of transactions and gas, which remembers the order of
writes. -/
structure SameContents (s t : Tree) : Prop where
  chain : s.main.chain = t.main.chain
  transactions : s.main.transactions.cur = t.main.transactions.cur
  summary : s.summary = t.summary
  oldSummary : s.oldSummary = t.oldSummary
  gas : s.gas.cur = t.gas.cur
  oldGas : s.oldGas = t.oldGas
  derivFiles : s.derivFiles = t.derivFiles
  derivMem : s.derivMem = t.derivMem

/-! ## The order so far -/

theorem afterErrands_append (E : Env) (call : ι → Errand) (l l' : List ι) : ∀ s,
    afterErrands E call s (l ++ l') = afterErrands E call (afterErrands E call s l) l' := by
  induction l with
  | nil => intro s; rfl
  | cons i l ih => intro s; exact ih _

theorem afterErrands_last (E : Env) (call : ι → Errand) (s : Tree) (l : List ι) (i : ι) :
    afterErrands E call s (l ++ [i]) = ((call i).alone E (afterErrands E call s l)).2 := by
  rw [afterErrands_append]; rfl

/-- What thread `j` has returned or will return. -/
def Settles (E : Env) (s : Tree) (call : ι → Errand) (order : List ι) (j : ι) (o : Outcome Reply) : Prop :=
  ∃ pre post, order = pre ++ j :: post ∧ o = ((call j).alone E (afterErrands E call s pre)).1

theorem Settles.append {E : Env} {s : Tree} {call : ι → Errand} {order : List ι} {j : ι} {o : Outcome Reply}
    (h : Settles E s call order j o) (i : ι) : Settles E s call (order ++ [i]) j o := by
  obtain ⟨pre, post, rfl, rfl⟩ := h
  exact ⟨pre, post ++ [i], by simp, rfl⟩

theorem settles_last (E : Env) (s : Tree) (call : ι → Errand) (order : List ι) (i : ι) :
    Settles E s call (order ++ [i]) i ((call i).alone E (afterErrands E call s order)).1 := ⟨order, [], rfl, rfl⟩

theorem Settles.mem {E : Env} {s : Tree} {call : ι → Errand} {order : List ι} {j : ι} {o : Outcome Reply}
    (h : Settles E s call order j o) : j ∈ order := by
  obtain ⟨pre, post, rfl, _⟩ := h; simp

/-! ## Reading the chain -/

/-- As long as nobody holds the lock and the chain is `ch`, the program only reads until it has become `q`. -/
inductive Reading {α : Type} (ch : Chain) (q : Prog Node α) : Prog Node α → Prop where
  | here : Reading ch q q
  | step {next : Node → Option Node} {rest : Node → Prog Node α} :
      (∀ n : Node, n.held = false → n.data.main.chain = ch → next n = some n) →
      (∀ n : Node, n.held = false → n.data.main.chain = ch → Reading ch q (rest n)) → Reading ch q (.step next rest)

theorem Reading.bind {α β : Type} {ch : Chain} {p q : Prog Node α} (h : Reading ch q p) (f : α → Prog Node β) :
    Reading ch (q >>= f) (p >>= f) := by
  induction h with
  | here => exact .here
  | step h1 _ ih => exact .step h1 ih

theorem Reading.trans {α : Type} {ch : Chain} {p q r : Prog Node α} (h : Reading ch q p) (h' : Reading ch r q) :
    Reading ch r p := by
  induction h with
  | here => exact h'
  | step h1 _ ih => exact .step h1 ih

theorem reading_height (ch : Chain) : Reading ch (.done (.ok ch.height)) Node.readHeight := by
  refine .step (fun n hn _ => by simp [hn]) (fun n _ hc => ?_)
  rw [hc]; exact .here

theorem reading_read {α : Type} (ch : Chain) (f : Tree → Outcome α) (o : Outcome α)
    (h : ∀ t : Tree, t.main.chain = ch → f t = o) : Reading ch (.done o) (Node.read f) := by
  refine .step (fun n _ _ => rfl) (fun n _ hc => ?_)
  rw [h n.data hc]; exact .here

theorem reading_byHeight (m : MainChain) (k : U256) :
    Reading m.chain (.done (.ok (m.findRawByHeight k))) (Node.findRawByHeight k) := by
  refine ((reading_height m.chain).bind _).trans ?_
  change Reading _ _ (if m.chain.height.val < k.val then _ else _)
  unfold MainChain.findRawByHeight Chain.findRawByHeight
  split
  · exact .here
  · exact reading_read _ _ _ (fun t ht => by rw [ht])

theorem reading_last (m : MainChain) : Reading m.chain (.done m.getLastRawBlock) Node.getLastRawBlock := by
  refine ((reading_height m.chain).bind _).trans ?_
  change Reading _ _ (Prog.lift (m.chain.height.sub U256.one) >>= Node.findRawByHeight)
  unfold MainChain.getLastRawBlock
  cases m.chain.height.sub U256.one with
  | ok i => exact reading_byHeight m i
  | _ => exact .here

theorem reading_lastBlock (m : MainChain) : Reading m.chain (.done m.getLastBlock) Node.getLastBlock := by
  refine ((reading_last m).bind _).trans ?_
  unfold MainChain.getLastBlock
  cases m.getLastRawBlock <;> exact .here

theorem reading_byHash (m : MainChain) (h : Hash) : Reading m.chain (.done (m.findRawByHash h)) (Node.findRawByHash h) := by
  refine ((reading_read m.chain _ (.ok (m.chain.heightReference.get h.val)) (fun t ht => by rw [ht])).bind _).trans ?_
  unfold MainChain.findRawByHash Chain.findRawByHash
  change Reading _ _ (match m.chain.heightReference.get h.val with | none => _ | some h => _)
  cases m.chain.heightReference.get h.val with
  | none => exact .here
  | some b =>
    change Reading _ _ (Prog.lift (U256.fromBE b) >>= Node.findRawByHeight)
    change Reading _ (.done (U256.fromBE b >>= fun k => .ok (m.findRawByHeight k))) _
    cases U256.fromBE b with
    | ok k => exact reading_byHeight m k
    | _ => exact .here

theorem reading_lookup (m : MainChain) (l : Node.Lookup) : Reading m.chain (.done (lookAlone l m)) l.prog := by
  cases l with
  | byHeight k => exact reading_byHeight m k
  | byHash h => exact reading_byHash m h
  | last => exact reading_last m

/-! ## `send_transaction` -/

/-- The checks of `send_transaction`, given the gas and the coins of the sender. They return the gas to pay. -/
def sendChecks (tx : Transaction) (g a : U256) (m : MainChain) : Outcome U256 := do
  let gasRequired ← BYTE_GAS_PRICE.mulNat tx.getDumpSize
  if g.val < gasRequired.val then .err .treeNewTransaction
  else do
    let last ← m.getLastBlock
    let lastBlock ← Outcome.ofOption last
    let fee ← recalculateFee lastBlock.info.difficulty
    let needed ← fee.add tx.amount
    if a.val < needed.val then .err .treeNewTransaction
    else pure gasRequired

/-- `send_transaction` once it has read the sender's gas. -/
def afterGas (E : Env) (tx : Transaction) (senderGas : U256) : Prog Node Unit := do
  let senderAmount ← Node.read (fun t => t.getAmount tx.sender)
  let gasRequired ← .lift (BYTE_GAS_PRICE.mulNat tx.getDumpSize)
  if senderGas.val < gasRequired.val then .lift (.err .treeNewTransaction)
  else do
    let last ← Node.getLastBlock
    let lastBlock ← .lift (Outcome.ofOption last)
    let fee ← .lift (recalculateFee lastBlock.info.difficulty)
    let needed ← .lift (fee.add tx.amount)
    if senderAmount.val < needed.val then .lift (.err .treeNewTransaction)
    else sendRest E tx gasRequired

/-- `send_transaction` once it has read the sender's gas and coins. -/
def afterAmount (E : Env) (tx : Transaction) (senderGas senderAmount : U256) : Prog Node Unit := do
  let gasRequired ← .lift (BYTE_GAS_PRICE.mulNat tx.getDumpSize)
  if senderGas.val < gasRequired.val then .lift (.err .treeNewTransaction)
  else do
    let last ← Node.getLastBlock
    let lastBlock ← .lift (Outcome.ofOption last)
    let fee ← .lift (recalculateFee lastBlock.info.difficulty)
    let needed ← .lift (fee.add tx.amount)
    if senderAmount.val < needed.val then .lift (.err .treeNewTransaction)
    else sendRest E tx gasRequired

theorem reading_checks (E : Env) (tx : Transaction) (g a : U256) (m : MainChain) :
    Reading m.chain (Prog.lift (sendChecks tx g a m) >>= sendRest E tx) (afterAmount E tx g a) := by
  unfold afterAmount sendChecks
  cases BYTE_GAS_PRICE.mulNat tx.getDumpSize with
  | ok r =>
    change Reading _ (Prog.lift (if _ then _ else _) >>= _) (if _ then _ else _)
    split
    · exact .here
    · refine ((reading_lastBlock m).bind _).trans ?_
      cases m.getLastBlock with
      | ok last =>
        change Reading _ _ (Prog.lift (Outcome.ofOption last) >>= _)
        simp only [Outcome.ok_bind]
        cases Outcome.ofOption last with
        | ok b =>
          change Reading _ _ (Prog.lift (recalculateFee b.info.difficulty) >>= _)
          simp only [Outcome.ok_bind]
          cases recalculateFee b.info.difficulty with
          | ok fee =>
            change Reading _ _ (Prog.lift (fee.add tx.amount) >>= _)
            simp only [Outcome.ok_bind]
            cases fee.add tx.amount with
            | ok needed =>
              change Reading _ _ (if _ then _ else _)
              simp only [Outcome.ok_bind]
              split <;> exact .here
            | _ => exact .here
          | _ => exact .here
        | _ => exact .here
      | _ => exact .here
  | _ => exact .here

theorem send_eq (E : Env) (tx : Transaction) (s : Tree) (hc : s.summary.cur.Dec) (hg : s.gas.cur.Dec) :
    Tree.sendTransaction E tx s =
      (Act.lift (sendChecks tx (s.gas.cur.amt tx.sender.val) (s.summary.cur.amt tx.sender.val) s.main) >>=
        Tree.sendChecked E tx) s := by
  have hgas : s.getGas tx.sender = .ok (s.gas.cur.amt tx.sender.val) := hg.balance _
  have hcoin : s.getAmount tx.sender = .ok (s.summary.cur.amt tx.sender.val) := hc.balance _
  unfold Tree.sendTransaction sendChecks
  simp only [Act.get_bind, hgas, hcoin, Act.lift_ok_bind]
  cases BYTE_GAS_PRICE.mulNat tx.getDumpSize with
  | ok r =>
    simp only [Outcome.ok_bind, Act.lift_ok_bind]
    split
    · rfl
    · cases s.main.getLastBlock with
      | ok last =>
        simp only [Outcome.ok_bind, Act.lift_ok_bind]
        cases Outcome.ofOption last with
        | ok b =>
          simp only [Outcome.ok_bind, Act.lift_ok_bind]
          cases recalculateFee b.info.difficulty with
          | ok fee =>
            simp only [Outcome.ok_bind, Act.lift_ok_bind]
            cases fee.add tx.amount with
            | ok needed =>
              simp only [Outcome.ok_bind, Act.lift_ok_bind]
              split <;> rfl
            | _ => rfl
          | _ => rfl
        | _ => rfl
      | _ => rfl
  | _ => rfl

theorem sendChecks_ok {tx : Transaction} {g a v : U256} {m : MainChain} (h : sendChecks tx g a m = .ok v) :
    v.val = gasCost tx ∧ gasCost tx ≤ g.val ∧ tx.amount.val ≤ a.val ∧
    ∀ a' : U256, a.val ≤ a'.val → ∀ m' : MainChain, m'.chain = m.chain → sendChecks tx g a' m' = .ok v := by
  unfold sendChecks at h
  cases hr : BYTE_GAS_PRICE.mulNat tx.getDumpSize with
  | ok r =>
    simp only [hr, Outcome.ok_bind] at h
    have hrv : r.val = gasCost tx := by
      unfold U256.mulNat at hr
      split at hr
      · cases hr; rfl
      · cases hr
    split at h
    · cases h
    · rename_i hlt
      cases hl : m.getLastBlock with
      | ok last =>
        simp only [hl, Outcome.ok_bind] at h
        cases hb : Outcome.ofOption last with
        | ok b =>
          simp only [hb, Outcome.ok_bind] at h
          cases hf : recalculateFee b.info.difficulty with
          | ok fee =>
            simp only [hf, Outcome.ok_bind] at h
            cases ha : fee.add tx.amount with
            | ok needed =>
              simp only [ha, Outcome.ok_bind] at h
              split at h
              · cases h
              · rename_i hn
                cases h
                have hnv : needed.val = fee.val + tx.amount.val := by
                  unfold U256.add at ha
                  split at ha
                  · cases ha; rfl
                  · cases ha
                refine ⟨hrv, by omega, by omega, fun a' ha' m' hm' => ?_⟩
                have hl' : m'.getLastBlock = .ok last := by
                  rw [← hl]
                  unfold MainChain.getLastBlock MainChain.getLastRawBlock MainChain.findRawByHeight
                  rw [hm']
                unfold sendChecks
                simp only [hr, hl', hb, hf, ha, Outcome.ok_bind, if_neg hlt]
                rw [if_neg (by omega)]
                rfl
            | _ => simp [ha] at h
          | _ => simp [hf] at h
        | _ => simp [hb] at h
      | _ => simp [hl] at h
  | _ => simp [hr] at h

/-! ## Where the threads are -/

/-- What `send_transaction` returns in the end. -/
def replied (_ : Unit) : Prog Node Reply := pure .nothing

/-- How far a thread has come. -/
inductive Phase where
  /-- it has not begun -/
  | fresh
  /-- it sends a transaction and has read the sender's gas -/
  | looking
  /-- it has read the sender's coins, and the checks will let the transaction pass -/
  | cleared
  /-- it has stored the transaction -/
  | stored
  /-- it has moved the coins: the call has taken effect, only the gas is to be paid -/
  | charging
  /-- the call has taken effect, and all there is to come are reads that do not matter -/
  | settled

/-- A thread in the phase, after the calls of `order` have taken effect and led to `S`. -/
def InPhase (E : Env) (s : Tree) (call : ι → Errand) (order : List ι) (i : ι) (p : Prog Node Reply) : Phase → Prop
  | .fresh => i ∉ order ∧ p = (call i).prog E
  | .looking => i ∉ order ∧ ∃ tx, call i = .send tx ∧
      p = afterGas E tx ((afterErrands E call s order).gas.cur.amt tx.sender.val) >>= replied
  | .cleared => i ∉ order ∧ ∃ tx v, call i = .send tx ∧
      sendChecks tx ((afterErrands E call s order).gas.cur.amt tx.sender.val)
        ((afterErrands E call s order).summary.cur.amt tx.sender.val) (afterErrands E call s order).main = .ok v ∧
      Reading (afterErrands E call s order).main.chain (sendRest E tx v >>= replied) p
  | .stored => i ∉ order ∧ ∃ tx v, call i = .send tx ∧
      sendChecks tx ((afterErrands E call s order).gas.cur.amt tx.sender.val)
        ((afterErrands E call s order).summary.cur.amt tx.sender.val) (afterErrands E call s order).main = .ok v ∧
      p = (Node.onTree (Tree.sendAmount tx.sender.val tx.receiver.val tx.amount) >>= fun _ => payStep tx v) >>= replied
  | .charging => ∃ tx v, call i = .send tx ∧ v.val = gasCost tx ∧ p = payStep tx v >>= replied ∧
      Settles E s call order i (.ok .nothing)
  | .settled => ∃ o, Reading (afterErrands E call s order).main.chain (.done o) p ∧ Settles E s call order i o

/-- The node the threads share, beside the node `S` after the calls that have taken effect: transactions are stored early
and gas is charged late. -/
structure Beside (E : Env) (call : ι → Errand) (phase : ι → Phase) (n S : Tree) : Prop where
  chain : n.main.chain = S.main.chain
  summary : n.summary = S.summary
  oldSummary : n.oldSummary = S.oldSummary
  oldGas : n.oldGas = S.oldGas
  derivFiles : n.derivFiles = S.derivFiles
  derivMem : n.derivMem = S.derivMem
  early : ∀ i tx, call i = .send tx → phase i = .stored → n.main.transactions.get (E.sha256 tx.dump).val = some tx.dump
  txs : ∀ k, (∀ i tx, call i = .send tx → phase i = .stored → (E.sha256 tx.dump).val ≠ k) →
    n.main.transactions.get k = S.main.transactions.get k
  late : ∀ i tx, call i = .send tx → phase i = .charging → gasCost tx ≤ (n.gas.cur.amt tx.sender.val).val ∧
    S.gas.get tx.sender.val = some (Ledger.encode ⟨(n.gas.cur.amt tx.sender.val).val - gasCost tx,
      Nat.lt_of_le_of_lt (Nat.sub_le _ _) (U256.lt _)⟩)
  gas : ∀ k, (∀ i tx, call i = .send tx → phase i = .charging → tx.sender.val ≠ k) → n.gas.get k = S.gas.get k
  coinDec : S.summary.cur.Dec
  gasDec : n.gas.cur.Dec
  gasDec' : S.gas.cur.Dec

theorem Beside.amt {E : Env} {call : ι → Errand} {phase : ι → Phase} {n S : Tree} (h : Beside E call phase n S) {k : Bytes}
    (hk : ∀ i tx, call i = .send tx → phase i = .charging → tx.sender.val ≠ k) : n.gas.cur.amt k = S.gas.cur.amt k := by
  have := h.gas k hk
  unfold Db.get at this
  unfold KV.amt
  rw [this]

/-- A thread that was neither storing nor charging goes on without doing so. -/
theorem Beside.phase [DecidableEq ι] {E : Env} {call : ι → Errand} {phase : ι → Phase} {n S : Tree}
    (h : Beside E call phase n S) (i : ι) (p : Phase) (h1 : phase i ≠ .stored) (h2 : phase i ≠ .charging)
    (h3 : p ≠ .stored) (h4 : p ≠ .charging) : Beside E call (Function.update phase i p) n S := by
  have key : ∀ j q, (q = Phase.stored ∨ q = Phase.charging) → (Function.update phase i p j = q ↔ phase j = q) := by
    intro j q hq
    by_cases hj : j = i
    · subst hj
      rw [Function.update_self]
      rcases hq with rfl | rfl
      · exact ⟨fun h => absurd h h3, fun h => absurd h h1⟩
      · exact ⟨fun h => absurd h h4, fun h => absurd h h2⟩
    · rw [Function.update_of_ne hj]
  exact { h with
    early := fun j tx hc hp => h.early j tx hc ((key j _ (.inl rfl)).mp hp)
    txs := fun k hk => h.txs k fun j tx hc hp => hk j tx hc ((key j _ (.inl rfl)).mpr hp)
    late := fun j tx hc hp => h.late j tx hc ((key j _ (.inr rfl)).mp hp)
    gas := fun k hk => h.gas k fun j tx hc hp => hk j tx hc ((key j _ (.inr rfl)).mpr hp) }

/-! ## Brief calls beside transactions -/

/-- A call on a ledger that reads and writes only the accounts in `P`. -/
structure Local (P : Bytes → Prop) (y : Act Db Unit) : Prop where
  out : ∀ d e : Db, d.cur.Dec → e.cur.Dec → (∀ k, P k → d.get k = e.get k) → (y d).out = (y e).out
  inside : ∀ d e : Db, d.cur.Dec → e.cur.Dec → (∀ k, P k → d.get k = e.get k) →
    ∀ k, P k → (y d).final.get k = (y e).final.get k
  outside : ∀ d : Db, d.cur.Dec → ∀ k, ¬ P k → (y d).final.get k = d.get k
  dec : ∀ d : Db, d.cur.Dec → (y d).final.cur.Dec

theorem amt_of_get {d e : Db} {k : Bytes} (h : d.get k = e.get k) : d.cur.amt k = e.cur.amt k := by
  unfold Db.get at h
  unfold KV.amt
  rw [h]

theorem local_add (o : Bytes) (a : U256) : Local (· = o) (Ledger.add o a) := by
  refine ⟨fun d e hd he h => ?_, fun d e hd he h k hk => ?_, fun d hd k hk => ?_, fun d hd => ?_⟩
  · have := amt_of_get (h o rfl)
    rcases Ledger.add_run hd o a with ⟨h1, e1⟩ | ⟨h1, e1⟩ <;> rcases Ledger.add_run he o a with ⟨h2, e2⟩ | ⟨h2, e2⟩ <;>
      simp only [e1, e2]
    · exact absurd (this ▸ h1) h2
    · exact absurd (this ▸ h2) h1
  · have ha := amt_of_get (h o rfl)
    have := h k hk
    rcases Ledger.add_run hd o a with ⟨h1, e1⟩ | ⟨h1, e1⟩ <;> rcases Ledger.add_run he o a with ⟨h2, e2⟩ | ⟨h2, e2⟩ <;>
      simp only [e1, e2]
    · rw [Db.get_insert, Db.get_insert, if_pos hk.symm, if_pos hk.symm]
      simp only [ha]
    · exact absurd (ha ▸ h1) h2
    · exact absurd (ha ▸ h2) h1
    · exact this
  · rcases Ledger.add_run hd o a with ⟨h1, e1⟩ | ⟨h1, e1⟩ <;> simp only [e1]
    rw [Db.get_insert, if_neg (fun h => hk h.symm)]
  · rcases Ledger.add_run hd o a with ⟨h1, e1⟩ | ⟨h1, e1⟩ <;> simp only [e1]
    · exact hd.insert _ _
    · exact hd

theorem local_sub (o : Bytes) (a : U256) : Local (· = o) (Ledger.sub o a) := by
  refine ⟨fun d e hd he h => ?_, fun d e hd he h k hk => ?_, fun d hd k hk => ?_, fun d hd => ?_⟩
  · have := amt_of_get (h o rfl)
    rcases Ledger.sub_run hd o a with ⟨h1, e1⟩ | ⟨h1, e1⟩ <;> rcases Ledger.sub_run he o a with ⟨h2, e2⟩ | ⟨h2, e2⟩ <;>
      simp only [e1, e2]
    · rw [this] at h1; omega
    · rw [this] at h1; omega
  · have ha := amt_of_get (h o rfl)
    have := h k hk
    rcases Ledger.sub_run hd o a with ⟨h1, e1⟩ | ⟨h1, e1⟩ <;> rcases Ledger.sub_run he o a with ⟨h2, e2⟩ | ⟨h2, e2⟩ <;>
      simp only [e1, e2]
    · rw [Db.get_insert, Db.get_insert, if_pos hk.symm, if_pos hk.symm]
      simp only [ha]
    · rw [ha] at h1; omega
    · rw [ha] at h1; omega
    · exact this
  · rcases Ledger.sub_run hd o a with ⟨h1, e1⟩ | ⟨h1, e1⟩ <;> simp only [e1]
    rw [Db.get_insert, if_neg (fun h => hk h.symm)]
  · rcases Ledger.sub_run hd o a with ⟨h1, e1⟩ | ⟨h1, e1⟩ <;> simp only [e1]
    · exact hd.insert _ _
    · exact hd

theorem local_transfer (x y : Bytes) (a : U256) : Local (fun k => k = x ∨ k = y) (Ledger.transfer x y a) := by
  have hget : ∀ (d : Db) (h : (d.cur.amt y).val + a.val < U256.size) (k : Bytes),
      (d.commit (fun _ => Ledger.moved d.cur x y a h)).get k =
        if y = k then some (Ledger.encode ⟨_, h⟩) else
        if x = k then some (Ledger.encode ⟨(d.cur.amt x).val - a.val, Ledger.sub_lt⟩) else d.get k := by
    intro d h k
    change ((d.cur.insert _ _).insert _ _).get k = _
    rw [KV.get_insert, KV.get_insert]
    rfl
  refine ⟨fun d e hd he h => ?_, fun d e hd he h k hk => ?_, fun d hd k hk => ?_, fun d hd => ?_⟩
  · have hx := amt_of_get (h x (.inl rfl))
    have hy := amt_of_get (h y (.inr rfl))
    rcases Ledger.transfer_run hd x y a with ⟨h1, h2, e1⟩ | ⟨h1, e1⟩ | ⟨h1, h2, e1⟩ <;>
      rcases Ledger.transfer_run he x y a with ⟨h3, h4, e2⟩ | ⟨h3, e2⟩ | ⟨h3, h4, e2⟩ <;> simp only [e1, e2] <;>
      (rw [hx] at h1; try rw [hy] at h2) <;> omega
  · have hx := amt_of_get (h x (.inl rfl))
    have hy := amt_of_get (h y (.inr rfl))
    have := h k hk
    rcases Ledger.transfer_run hd x y a with ⟨h1, h2, e1⟩ | ⟨h1, e1⟩ | ⟨h1, h2, e1⟩ <;>
      rcases Ledger.transfer_run he x y a with ⟨h3, h4, e2⟩ | ⟨h3, e2⟩ | ⟨h3, h4, e2⟩ <;> simp only [e1, e2]
    · rw [hget, hget, this]
      simp only [hx, hy]
    all_goals first
      | exact this
      | (exfalso; rw [hx] at h1; try rw [hy] at h2
         omega)
  · rcases Ledger.transfer_run hd x y a with ⟨h1, h2, e1⟩ | ⟨h1, e1⟩ | ⟨h1, h2, e1⟩ <;> simp only [e1]
    rw [hget, if_neg (fun h => hk (.inr h.symm)), if_neg (fun h => hk (.inl h.symm))]
  · rcases Ledger.transfer_run hd x y a with ⟨h1, h2, e1⟩ | ⟨h1, e1⟩ | ⟨h1, h2, e1⟩ <;> simp only [e1]
    · exact Ledger.moved_dec hd _ _ _ _
    · exact hd
    · exact hd

/-- A call on gas that does not concern the senders of transactions. -/
theorem Beside.onGas {E : Env} {call : ι → Errand} {phase : ι → Phase} {n S : Tree} (h : Beside E call phase n S)
    {P : Bytes → Prop} {y : Act Db Unit} (hy : Local P y) (hP : ∀ i tx, call i = .send tx → ¬ P tx.sender.val) :
    (Tree.onGas y n).out = (Tree.onGas y S).out ∧ Beside E call phase (Tree.onGas y n).final (Tree.onGas y S).final := by
  have hk : ∀ k, P k → n.gas.get k = S.gas.get k := fun k hk => h.gas k fun i tx hc _ e => hP i tx hc (e ▸ hk)
  refine ⟨hy.out _ _ h.gasDec h.gasDec' hk, { h with
    late := fun i tx hc hp => ?_, gas := fun k hk' => ?_, gasDec := hy.dec _ h.gasDec, gasDec' := hy.dec _ h.gasDec' }⟩
  · obtain ⟨h1, h2⟩ := h.late i tx hc hp
    have e1 := hy.outside n.gas h.gasDec _ (hP i tx hc)
    have e2 := hy.outside S.gas h.gasDec' _ (hP i tx hc)
    have e3 : (y n.gas).final.cur.amt tx.sender.val = n.gas.cur.amt tx.sender.val := amt_of_get e1
    change gasCost tx ≤ ((y n.gas).final.cur.amt tx.sender.val).val ∧ (y S.gas).final.get tx.sender.val = some
      (Ledger.encode ⟨((y n.gas).final.cur.amt tx.sender.val).val - gasCost tx, _⟩)
    rw [e2]
    simp only [e3]
    exact ⟨h1, h2⟩
  · change (y n.gas).final.get k = (y S.gas).final.get k
    by_cases hp : P k
    · exact hy.inside _ _ h.gasDec h.gasDec' hk k hp
    · rw [hy.outside _ h.gasDec k hp, hy.outside _ h.gasDec' k hp]
      exact h.gas k hk'

/-- A call on coins. -/
theorem Beside.onSummary {E : Env} {call : ι → Errand} {phase : ι → Phase} {n S : Tree} (h : Beside E call phase n S)
    {y : Act Db Unit} (hy : ∀ d : Db, d.cur.Dec → (y d).final.cur.Dec) :
    (Tree.onSummary y n).out = (Tree.onSummary y S).out ∧
    Beside E call phase (Tree.onSummary y n).final (Tree.onSummary y S).final := by
  refine ⟨?_, { h with summary := ?_, coinDec := hy _ h.coinDec }⟩
  · change (y n.summary).out = (y S.summary).out
    rw [h.summary]
  · change (y n.summary).final = (y S.summary).final
    rw [h.summary]

theorem set_dec (o : Bytes) (a : U256) (d : Db) (hd : d.cur.Dec) : (Ledger.set o a d).final.cur.Dec := by
  rw [Ledger.set_run]; exact hd.insert _ _

theorem Beside.brief {E : Env} {call : ι → Errand} {phase : ι → Phase} {n S : Tree} (h : Beside E call phase n S) (x : Brief)
    (hx : ∀ i tx, call i = .send tx → x.LeavesAlone E tx) :
    (x.alone E n).1 = (x.alone E S).1 ∧ Beside E call phase (x.alone E n).2 (x.alone E S).2 := by
  have same : ∀ (o o' : Outcome Unit), o = o' → (o >>= fun _ => (.ok .nothing : Outcome Reply)) =
      (o' >>= fun _ => .ok .nothing) := fun _ _ e => e ▸ rfl
  cases x with
  | addTransaction t =>
    refine ⟨rfl, { h with early := fun i tx hc hp => ?_, txs := fun k hk => ?_ }⟩
    · change (n.main.transactions.insert _ _).get _ = _
      rw [Db.get_insert, if_neg (fun e => hx i tx hc (Subtype.ext e))]
      exact h.early i tx hc hp
    · change (n.main.transactions.insert _ _).get _ = (S.main.transactions.insert _ _).get _
      rw [Db.get_insert, Db.get_insert, h.txs k hk]
  | addAmount o a => exact (h.onSummary (local_add o a).dec).imp_left (same _ _)
  | subAmount o a => exact (h.onSummary (local_sub o a).dec).imp_left (same _ _)
  | setAmount o a => exact (h.onSummary (set_dec o a)).imp_left (same _ _)
  | sendAmount a b v =>
    simp only [Brief.alone, Tree.sendAmount]
    split
    · exact ⟨rfl, h⟩
    · exact (h.onSummary (local_transfer a b v).dec).imp_left (same _ _)
  | getAmount o =>
    refine ⟨?_, h⟩
    simp only [Brief.alone, Tree.getAmount, h.summary]
  | addGas o a => exact (h.onGas (local_add o a) (fun i tx hc e => hx i tx hc e.symm)).imp_left (same _ _)
  | subGas o a => exact (h.onGas (local_sub o a) (fun i tx hc e => hx i tx hc e.symm)).imp_left (same _ _)
  | sendGas a b v =>
    exact (h.onGas (local_transfer a b v) (fun i tx hc e => e.elim (fun e => (hx i tx hc).1 e.symm)
      (fun e => (hx i tx hc).2 e.symm))).imp_left (same _ _)
  | getGas o =>
    refine ⟨?_, h⟩
    simp only [Brief.alone, Tree.getGas]
    rw [h.gas o.val (fun i tx hc _ e => hx i tx hc (Subtype.ext e.symm))]

/-! ## What a call leaves alone -/

/-- For someone about to send the transaction the second state is as good as the first. -/
structure AsGood (tx : Transaction) (s t : Tree) : Prop where
  gas : t.gas.cur.amt tx.sender.val = s.gas.cur.amt tx.sender.val
  coins : (s.summary.cur.amt tx.sender.val).val ≤ (t.summary.cur.amt tx.sender.val).val

theorem asGood_onSummary {tx : Transaction} {s : Tree} {y : Act Db Unit}
    (h : (s.summary.cur.amt tx.sender.val).val ≤ ((y s.summary).final.cur.amt tx.sender.val).val) :
    AsGood tx s (Tree.onSummary y s).final := ⟨rfl, h⟩

theorem asGood_onGas {tx : Transaction} {s : Tree} {P : Bytes → Prop} {y : Act Db Unit} (hy : Local P y)
    (hd : s.gas.cur.Dec) (h : ¬ P tx.sender.val) : AsGood tx s (Tree.onGas y s).final :=
  ⟨amt_of_get (hy.outside s.gas hd _ h), Nat.le_refl _⟩

theorem transfer_up {d : Db} (hd : d.cur.Dec) {a b q : Bytes} (hab : a ≠ b) (hq : q ≠ a) (v : U256) :
    (d.cur.amt q).val ≤ ((Ledger.transfer a b v d).final.cur.amt q).val := by
  rcases Ledger.transfer_run hd a b v with ⟨h1, h2, e1⟩ | ⟨h1, e1⟩ | ⟨h1, h2, e1⟩ <;> simp only [e1]
  · change _ ≤ ((Ledger.moved d.cur a b v h2).amt q).val
    rw [Ledger.moved_amt _ hab, if_neg hq]
    split
    · rename_i e; subst e; omega
    · exact Nat.le_refl _
  · exact Nat.le_refl _
  · exact Nat.le_refl _

theorem brief_asGood {E : Env} {tx : Transaction} {x : Brief} (hx : x.LeavesAlone E tx) {s : Tree} (hc : s.summary.cur.Dec)
    (hg : s.gas.cur.Dec) : AsGood tx s (x.alone E s).2 := by
  cases x with
  | addTransaction t => exact ⟨rfl, Nat.le_refl _⟩
  | addAmount o a =>
    refine asGood_onSummary ?_
    rcases Ledger.add_run hc o a with ⟨h1, e1⟩ | ⟨h1, e1⟩ <;> simp only [e1]
    · change _ ≤ ((s.summary.cur.insert _ _).amt _).val
      rw [KV.amt_insert]
      split
      · rename_i e; subst e; exact Nat.le_add_right _ _
      · exact Nat.le_refl _
    · exact Nat.le_refl _
  | subAmount o a =>
    exact asGood_onSummary (Nat.le_of_eq (congrArg U256.val (amt_of_get ((local_sub o a).outside _ hc _ (Ne.symm hx))).symm))
  | setAmount o a =>
    refine asGood_onSummary ?_
    rw [Ledger.set_run]
    change _ ≤ ((s.summary.cur.insert _ _).amt _).val
    rw [KV.amt_insert, if_neg hx]
  | sendAmount a b v =>
    simp only [Brief.alone, Tree.sendAmount]
    split
    · exact ⟨rfl, Nat.le_refl _⟩
    · rename_i hab
      exact asGood_onSummary (transfer_up hc hab (Ne.symm hx) v)
  | getAmount o => exact ⟨rfl, Nat.le_refl _⟩
  | addGas o a => exact asGood_onGas (local_add o a) hg (Ne.symm hx)
  | subGas o a => exact asGood_onGas (local_sub o a) hg (Ne.symm hx)
  | sendGas a b v => exact asGood_onGas (local_transfer a b v) hg (fun e => e.elim (Ne.symm hx.1) (Ne.symm hx.2))
  | getGas o => exact ⟨rfl, Nat.le_refl _⟩

/-- A transaction the checks let pass, sent alone. -/
theorem send_passes {E : Env} {tx : Transaction} {s : Tree} (hc : s.summary.cur.Dec) (hg : s.gas.cur.Dec) {v : U256}
    (h : sendChecks tx (s.gas.cur.amt tx.sender.val) (s.summary.cur.amt tx.sender.val) s.main = .ok v) :
    (∃ hf, (Errand.send tx).alone E s = (.ok .nothing, s.sent E tx hf)) ∨
    (tx.sender ≠ tx.receiver ∧ ¬ (s.summary.cur.amt tx.receiver.val).val + tx.amount.val < U256.size ∧
      (Errand.send tx).alone E s = (.panic .overflow, s.withTx E tx)) := by
  obtain ⟨h1, h2, h3, -⟩ := sendChecks_ok h
  have hmul : gasCost tx < U256.size := Nat.lt_of_le_of_lt h2 (U256.lt _)
  have hv : v = ⟨gasCost tx, hmul⟩ := U256.ext h1
  simp only [Errand.alone]
  rw [send_eq E tx s hc hg, h, Act.lift_ok_bind, hv]
  rcases sendChecked_run E s tx hc hg hmul h2 h3 with ⟨hf, e1, e2, -⟩ | ⟨e1, e2, e3⟩
  · left
    refine ⟨hf, ?_⟩
    rw [e1, e2]; rfl
  · right
    refine ⟨e1, e2, ?_⟩
    rw [e3]; rfl

/-- A transaction the checks refuse, sent alone. -/
theorem send_fails {E : Env} {tx : Transaction} {s : Tree} (hc : s.summary.cur.Dec) (hg : s.gas.cur.Dec)
    (h : ∀ v, sendChecks tx (s.gas.cur.amt tx.sender.val) (s.summary.cur.amt tx.sender.val) s.main ≠ .ok v) :
    ((Errand.send tx).alone E s).2 = s ∧
    Prog.lift (sendChecks tx (s.gas.cur.amt tx.sender.val) (s.summary.cur.amt tx.sender.val) s.main) >>= (fun v =>
      sendRest E tx v) >>= replied = .done ((Errand.send tx).alone E s).1 := by
  simp only [Errand.alone]
  rw [send_eq E tx s hc hg]
  cases hk : sendChecks tx (s.gas.cur.amt tx.sender.val) (s.summary.cur.amt tx.sender.val) s.main with
  | ok v => exact absurd hk (h v)
  | err e => exact ⟨rfl, rfl⟩
  | panic e => exact ⟨rfl, rfl⟩
  | ub => exact ⟨rfl, rfl⟩

theorem send_asGood {E : Env} {tx tx' : Transaction} (hne : tx.sender ≠ tx'.sender) {s : Tree} (hc : s.summary.cur.Dec)
    (hg : s.gas.cur.Dec) : AsGood tx' s ((Errand.send tx).alone E s).2 := by
  have hne' : tx'.sender.val ≠ tx.sender.val := fun e => hne (Subtype.ext e.symm)
  cases hk : sendChecks tx (s.gas.cur.amt tx.sender.val) (s.summary.cur.amt tx.sender.val) s.main with
  | ok v =>
    rcases send_passes (E := E) hc hg hk with ⟨hf, e⟩ | ⟨_, _, e⟩
    · rw [e]
      refine ⟨?_, ?_⟩
      · change (s.gas.cur.insert _ _).amt _ = _
        rw [KV.amt_insert, if_neg (Ne.symm hne')]
      · change _ ≤ ((paid s.summary tx hf).cur.amt _).val
        unfold paid
        split
        · exact Nat.le_refl _
        · rename_i hs
          change _ ≤ ((Ledger.moved _ _ _ _ _).amt _).val
          rw [Ledger.moved_amt _ (fun e => hs (Subtype.ext e)), if_neg hne']
          split
          · rename_i e; rw [e]; omega
          · exact Nat.le_refl _
    · rw [e]; exact ⟨rfl, Nat.le_refl _⟩
  | err e => rw [(send_fails hc hg (fun v h => by rw [hk] at h; cases h)).1]; exact ⟨rfl, Nat.le_refl _⟩
  | panic e => rw [(send_fails hc hg (fun v h => by rw [hk] at h; cases h)).1]; exact ⟨rfl, Nat.le_refl _⟩
  | ub => rw [(send_fails hc hg (fun v h => by rw [hk] at h; cases h)).1]; exact ⟨rfl, Nat.le_refl _⟩

theorem errand_asGood {E : Env} {call : ι → Errand} (ha : Apart E call) {i j : ι} (hij : i ≠ j) {tx : Transaction}
    (hj : call j = .send tx) {s : Tree} (hc : s.summary.cur.Dec) (hg : s.gas.cur.Dec) :
    AsGood tx s ((call i).alone E s).2 := by
  cases hi : call i with
  | send tx' => exact send_asGood (ha.senders i j tx' tx hij hi hj) hc hg
  | lookup l => exact ⟨rfl, Nat.le_refl _⟩
  | brief x => exact brief_asGood (ha.others j i tx x hj hi) hc hg

/-- No call here touches the chain. -/
theorem errand_chain (E : Env) (k : Errand) {s : Tree} (hc : s.summary.cur.Dec) (hg : s.gas.cur.Dec) :
    (k.alone E s).2.main.chain = s.main.chain := by
  cases k with
  | send tx =>
    cases hk : sendChecks tx (s.gas.cur.amt tx.sender.val) (s.summary.cur.amt tx.sender.val) s.main with
    | ok v =>
      rcases send_passes (E := E) hc hg hk with ⟨hf, e⟩ | ⟨_, _, e⟩ <;> rw [e] <;> rfl
    | err e => rw [(send_fails hc hg (fun v h => by rw [hk] at h; cases h)).1]
    | panic e => rw [(send_fails hc hg (fun v h => by rw [hk] at h; cases h)).1]
    | ub => rw [(send_fails hc hg (fun v h => by rw [hk] at h; cases h)).1]
  | lookup l => rfl
  | brief x => exact (x.blind E id s).2

/-! ## One step -/

/-- A thread that does not move while the call of another takes effect. -/
theorem InPhase.other {E : Env} {s : Tree} {call : ι → Errand} (ha : Apart E call) {order : List ι} {i j : ι} (hij : i ≠ j)
    {p : Prog Node Reply} {ph : Phase} (h : InPhase E s call order j p ph)
    (hc : (afterErrands E call s order).summary.cur.Dec) (hg : (afterErrands E call s order).gas.cur.Dec) :
    InPhase E s call (order ++ [i]) j p ph := by
  have hch := errand_chain E (call i) hc hg
  have hmem : j ∉ order → j ∉ order ++ [i] := fun h hj => by
    rcases List.mem_append.mp hj with hj | hj
    · exact h hj
    · exact hij (List.mem_singleton.mp hj).symm
  have hchk : ∀ {tx v}, call j = .send tx →
      sendChecks tx ((afterErrands E call s order).gas.cur.amt tx.sender.val)
        ((afterErrands E call s order).summary.cur.amt tx.sender.val) (afterErrands E call s order).main = .ok v →
      sendChecks tx ((afterErrands E call s (order ++ [i])).gas.cur.amt tx.sender.val)
        ((afterErrands E call s (order ++ [i])).summary.cur.amt tx.sender.val)
        (afterErrands E call s (order ++ [i])).main = .ok v := by
    intro tx v hj hk
    have hgood := errand_asGood ha hij hj hc hg
    rw [afterErrands_last, hgood.gas]
    exact (sendChecks_ok hk).2.2.2 _ hgood.coins _ hch
  cases ph with
  | fresh => exact ⟨hmem h.1, h.2⟩
  | looking =>
    obtain ⟨h0, tx, hj, hp⟩ := h
    refine ⟨hmem h0, tx, hj, ?_⟩
    rw [afterErrands_last, (errand_asGood ha hij hj hc hg).gas]
    exact hp
  | cleared =>
    obtain ⟨h0, tx, v, hj, hk, hp⟩ := h
    refine ⟨hmem h0, tx, v, hj, hchk hj hk, ?_⟩
    rw [afterErrands_last, hch]
    exact hp
  | stored =>
    obtain ⟨h0, tx, v, hj, hk, hp⟩ := h
    exact ⟨hmem h0, tx, v, hj, hchk hj hk, hp⟩
  | charging =>
    obtain ⟨tx, v, hj, hk, hp, hs⟩ := h
    exact ⟨tx, v, hj, hk, hp, hs.append i⟩
  | settled =>
    obtain ⟨o, hp, hs⟩ := h
    refine ⟨o, ?_, hs.append i⟩
    rw [afterErrands_last, hch]
    exact hp

/-- The state of an execution. -/
structure Going (E : Env) (s : Tree) (call : ι → Errand) (order : List ι) (phase : ι → Phase)
    (c : Config ι Node Reply) : Prop where
  free : c.shared.held = false
  nodup : order.Nodup
  beside : Beside E call phase c.shared.data (afterErrands E call s order)
  threads : ∀ i, InPhase E s call order i (c.threads i) (phase i)

theorem nodup_snoc {order : List ι} (h : order.Nodup) {i : ι} (hi : i ∉ order) : (order ++ [i]).Nodup := by
  rw [List.nodup_append]
  refine ⟨h, (by simp), fun a ha b hb => ?_⟩
  rw [List.mem_singleton.mp hb]
  rintro rfl
  exact hi ha

/-- The call of thread `i` has not yet taken effect and does not now. -/
theorem Going.stay [DecidableEq ι] {E : Env} {s : Tree} {call : ι → Errand} {order : List ι} {phase : ι → Phase}
    {c : Config ι Node Reply} (h : Going E s call order phase c) {i : ι} {n : Node} {p : Prog Node Reply} {ph : Phase}
    (hn : n.held = false) (hb : Beside E call (Function.update phase i ph) n.data (afterErrands E call s order))
    (hp : InPhase E s call order i p ph) :
    Going E s call order (Function.update phase i ph) ⟨n, Function.update c.threads i p⟩ := by
  refine ⟨hn, h.nodup, hb, fun j => ?_⟩
  by_cases hj : j = i
  · subst hj
    simp only [Function.update_self]
    exact hp
  · simp only [Function.update_of_ne hj]
    exact h.threads j

/-- The call of thread `i` takes effect. -/
theorem Going.move [DecidableEq ι] {E : Env} {s : Tree} {call : ι → Errand} (ha : Apart E call) {order : List ι}
    {phase : ι → Phase} {c : Config ι Node Reply} (h : Going E s call order phase c) {i : ι} (hi : i ∉ order) {n : Node}
    {p : Prog Node Reply} {ph : Phase} (hn : n.held = false)
    (hb : Beside E call (Function.update phase i ph) n.data ((call i).alone E (afterErrands E call s order)).2)
    (hp : InPhase E s call (order ++ [i]) i p ph) :
    Going E s call (order ++ [i]) (Function.update phase i ph) ⟨n, Function.update c.threads i p⟩ := by
  refine ⟨hn, nodup_snoc h.nodup hi, ?_, fun j => ?_⟩
  · rw [afterErrands_last]; exact hb
  · by_cases hj : j = i
    · subst hj
      simp only [Function.update_self]
      exact hp
    · simp only [Function.update_of_ne hj]
      exact (h.threads j).other ha (Ne.symm hj) h.beside.coinDec h.beside.gasDec'

theorem tree_eq_of_shared {n : Node} (h : n.held = false) : n = ⟨n.data, false⟩ := by cases n; cases h; rfl

theorem Beside.self_phase [DecidableEq ι] {E : Env} {call : ι → Errand} {phase : ι → Phase} {n S : Tree}
    (h : Beside E call phase n S) {i : ι} {ph : Phase} (hp : phase i = ph) : Beside E call (Function.update phase i ph) n S := by
  rw [← hp, Function.update_eq_self]; exact h

/-- A transaction is stored. -/
theorem Beside.store [DecidableEq ι] {E : Env} {call : ι → Errand} (ha : Apart E call) {phase : ι → Phase} {n S : Tree}
    (h : Beside E call phase n S) {i : ι} {tx : Transaction} (hi : call i = .send tx) (hp : phase i = .cleared) :
    Beside E call (Function.update phase i .stored) (n.withTx E tx) S := by
  have hch : ∀ j, Function.update phase i .stored j = .charging ↔ phase j = .charging := by
    intro j
    by_cases hj : j = i
    · subst hj; rw [Function.update_self, hp]; simp
    · rw [Function.update_of_ne hj]
  refine { h with early := fun j tx' hc hq => ?_, txs := fun k hk => ?_,
                  late := fun j tx' hc hq => h.late j tx' hc ((hch j).mp hq),
                  gas := fun k hk => h.gas k fun j tx' hc hq => hk j tx' hc ((hch j).mpr hq) }
  · change (n.main.transactions.insert _ _).get _ = _
    rw [Db.get_insert]
    by_cases hj : j = i
    · subst hj
      rw [hi] at hc
      cases hc
      rw [if_pos rfl]
    · rw [if_neg (fun e => ha.hashes i j tx tx' (Ne.symm hj) hi hc (Subtype.ext e))]
      rw [Function.update_of_ne hj] at hq
      exact h.early j tx' hc hq
  · change (n.main.transactions.insert _ _).get _ = _
    rw [Db.get_insert, if_neg (hk i tx hi (Function.update_self _ _ _))]
    refine h.txs k fun j tx' hc hq => hk j tx' hc ?_
    by_cases hj : j = i
    · subst hj; rw [hp] at hq; cases hq
    · rw [Function.update_of_ne hj]; exact hq

/-- A stored transaction takes effect on the stored transactions. -/
theorem Beside.stored_txs [DecidableEq ι] {E : Env} {call : ι → Errand} {phase : ι → Phase} {n S : Tree}
    (h : Beside E call phase n S) {i : ι} {tx : Transaction} (hi : call i = .send tx) (hp : phase i = .stored) (ph : Phase)
    (hph : ph ≠ .stored) :
    (∀ j tx', call j = .send tx' → Function.update phase i ph j = .stored →
      n.main.transactions.get (E.sha256 tx'.dump).val = some tx'.dump) ∧
    ∀ k, (∀ j tx', call j = .send tx' → Function.update phase i ph j = .stored → (E.sha256 tx'.dump).val ≠ k) →
      n.main.transactions.get k = (S.withTx E tx).main.transactions.get k := by
  refine ⟨fun j tx' hc hq => ?_, fun k hk => ?_⟩
  · by_cases hj : j = i
    · subst hj; rw [Function.update_self] at hq; exact absurd hq hph
    · rw [Function.update_of_ne hj] at hq; exact h.early j tx' hc hq
  · change _ = (S.main.transactions.insert _ _).get _
    rw [Db.get_insert]
    split
    · rename_i e
      rw [← e]
      exact h.early i tx hi hp
    · rename_i e
      refine h.txs k fun j tx' hc hq => ?_
      by_cases hj : j = i
      · subst hj; rw [hi] at hc; cases hc; exact e
      · exact hk j tx' hc (by rw [Function.update_of_ne hj]; exact hq)

/-- The coins of a stored transaction cannot be moved. -/
theorem Beside.overflow [DecidableEq ι] {E : Env} {call : ι → Errand} {phase : ι → Phase} {n S : Tree}
    (h : Beside E call phase n S) {i : ι} {tx : Transaction} (hi : call i = .send tx) (hp : phase i = .stored) :
    Beside E call (Function.update phase i .settled) n (S.withTx E tx) := by
  have hch : ∀ j, Function.update phase i .settled j = .charging ↔ phase j = .charging := by
    intro j
    by_cases hj : j = i
    · subst hj; rw [Function.update_self, hp]; simp
    · rw [Function.update_of_ne hj]
  obtain ⟨h1, h2⟩ := h.stored_txs hi hp .settled (by simp)
  exact { h with early := h1, txs := h2, late := fun j tx' hc hq => h.late j tx' hc ((hch j).mp hq),
                 gas := fun k hk => h.gas k fun j tx' hc hq => hk j tx' hc ((hch j).mpr hq) }

theorem paid_dec {d : Db} (hd : d.cur.Dec) (tx : Transaction) (h) : (paid d tx h).cur.Dec := by
  unfold paid
  split
  · exact hd
  · exact Ledger.moved_dec hd _ _ _ _

/-- The coins of a stored transaction are moved. -/
theorem Beside.pay [DecidableEq ι] {E : Env} {call : ι → Errand} (ha : Apart E call) {phase : ι → Phase} {n S : Tree}
    (h : Beside E call phase n S) {i : ι} {tx : Transaction} (hi : call i = .send tx) (hp : phase i = .stored)
    (hg : gasCost tx ≤ (S.gas.cur.amt tx.sender.val).val) (hf) (hf') :
    Beside E call (Function.update phase i .charging) { n with summary := paid n.summary tx hf } (S.sent E tx hf') := by
  obtain ⟨h1, h2⟩ := h.stored_txs hi hp .charging (by simp)
  have hown : n.gas.cur.amt tx.sender.val = S.gas.cur.amt tx.sender.val := by
    refine h.amt fun j tx' hc hq e => ?_
    by_cases hj : j = i
    · subst hj; rw [hp] at hq; cases hq
    · exact ha.senders j i tx' tx hj hc hi (Subtype.ext e)
  have hsame : paid n.summary tx hf = paid S.summary tx hf' := by simp only [h.summary]
  refine { h with summary := hsame, early := h1, txs := h2, late := fun j tx' hc hq => ?_, gas := fun k hk => ?_,
                  coinDec := paid_dec h.coinDec tx hf', gasDec' := h.gasDec'.insert _ _ }
  · change gasCost tx' ≤ (n.gas.cur.amt tx'.sender.val).val ∧ (S.gas.insert _ _).get _ = _
    rw [Db.get_insert]
    by_cases hj : j = i
    · subst hj
      rw [hi] at hc
      cases hc
      rw [if_pos rfl]
      simp only [hown]
      exact ⟨hg, trivial⟩
    · rw [if_neg (fun e => ha.senders i j tx tx' (Ne.symm hj) hi hc (Subtype.ext e))]
      rw [Function.update_of_ne hj] at hq
      exact h.late j tx' hc hq
  · change n.gas.get k = (S.gas.insert _ _).get _
    rw [Db.get_insert, if_neg (hk i tx hi (Function.update_self _ _ _))]
    refine h.gas k fun j tx' hc hq => hk j tx' hc ?_
    by_cases hj : j = i
    · subst hj; exact Function.update_self _ _ _
    · rw [Function.update_of_ne hj]; exact hq

/-- The gas of a transaction is paid. -/
theorem Beside.charge [DecidableEq ι] {E : Env} {call : ι → Errand} (ha : Apart E call) {phase : ι → Phase} {n S : Tree}
    (h : Beside E call phase n S) {i : ι} {tx : Transaction} (hi : call i = .send tx) (hp : phase i = .charging) :
    Beside E call (Function.update phase i .settled) { n with gas := charged n.gas tx } S := by
  have hst : ∀ j, Function.update phase i .settled j = .stored ↔ phase j = .stored := by
    intro j
    by_cases hj : j = i
    · subst hj; rw [Function.update_self, hp]; simp
    · rw [Function.update_of_ne hj]
  have hother : ∀ j tx', j ≠ i → call j = .send tx' → tx.sender.val ≠ tx'.sender.val := fun j tx' hj hc e =>
    ha.senders i j tx tx' (Ne.symm hj) hi hc (Subtype.ext e)
  refine { h with early := fun j tx' hc hq => h.early j tx' hc ((hst j).mp hq),
                  txs := fun k hk => h.txs k fun j tx' hc hq => hk j tx' hc ((hst j).mpr hq),
                  late := fun j tx' hc hq => ?_, gas := fun k hk => ?_, gasDec := h.gasDec.insert _ _ }
  · by_cases hj : j = i
    · subst hj; rw [Function.update_self] at hq; cases hq
    · rw [Function.update_of_ne hj] at hq
      have e : (charged n.gas tx).cur.amt tx'.sender.val = n.gas.cur.amt tx'.sender.val := by
        change (n.gas.cur.insert _ _).amt _ = _
        rw [KV.amt_insert, if_neg (hother j tx' hj hc)]
      simp only [e]
      exact h.late j tx' hc hq
  · change (n.gas.insert _ _).get k = _
    rw [Db.get_insert]
    split
    · rename_i e
      rw [← e]
      exact (h.late i tx hi hp).2.symm
    · rename_i e
      refine h.gas k fun j tx' hc hq => ?_
      by_cases hj : j = i
      · subst hj; rw [hi] at hc; cases hc; exact e
      · exact hk j tx' hc (by rw [Function.update_of_ne hj]; exact hq)

theorem onTree_bind_step {α β : Type} (x : Act Tree α) (f : α → Prog Node β) :
    ∃ next rest, (Node.onTree x >>= f) = .step next rest ∧
      (∀ n : Node, next n = some ⟨(x n.data).final, n.held⟩) ∧
      ∀ n : Node, rest n = (Prog.done (x n.data).out : Prog Node α) >>= f := ⟨_, _, rfl, fun _ => rfl, fun _ => rfl⟩

theorem bind_assoc_prog {σ α β γ : Type} (p : Prog σ α) (f : α → Prog σ β) (g : β → Prog σ γ) :
    (p >>= f) >>= g = p >>= fun a => f a >>= g := by
  induction p with
  | done o => cases o <;> rfl
  | step next rest ih => exact congrArg (Prog.step next) (funext ih)

/-- Moving the coins of a transaction that the checks have let pass. -/
theorem move_coins {tx : Transaction} {n : Tree} (hc : n.summary.cur.Dec)
    (h : tx.amount.val ≤ (n.summary.cur.amt tx.sender.val).val) :
    (∃ hf, (Tree.sendAmount tx.sender.val tx.receiver.val tx.amount n).out = .ok () ∧
      (Tree.sendAmount tx.sender.val tx.receiver.val tx.amount n).final = { n with summary := paid n.summary tx hf }) ∨
    (tx.sender ≠ tx.receiver ∧ ¬ (n.summary.cur.amt tx.receiver.val).val + tx.amount.val < U256.size ∧
      (Tree.sendAmount tx.sender.val tx.receiver.val tx.amount n).out = .panic .overflow ∧
      (Tree.sendAmount tx.sender.val tx.receiver.val tx.amount n).final = n) := by
  by_cases hs : tx.sender = tx.receiver
  · left
    refine ⟨.inl hs, ?_⟩
    unfold Tree.sendAmount paid
    rw [if_pos (by rw [hs]), dif_pos hs]
    exact ⟨rfl, rfl⟩
  · by_cases hf : (n.summary.cur.amt tx.receiver.val).val + tx.amount.val < U256.size
    · left
      refine ⟨.inr hf, ?_⟩
      obtain ⟨h1, h2⟩ := sendAmount_ok hc hs h hf
      refine ⟨h1, ?_⟩
      rw [h2]
      unfold paid
      rw [dif_neg hs]
    · right
      refine ⟨hs, hf, ?_⟩
      unfold Tree.sendAmount
      rw [if_neg (fun e => hs (Subtype.ext e))]
      rcases Ledger.transfer_run hc tx.sender.val tx.receiver.val tx.amount with ⟨_, h2, _⟩ | ⟨h1, _⟩ | ⟨_, _, e⟩
      · exact absurd h2 hf
      · omega
      · simp only [Tree.onSummary, Act.zoom, e]
        exact ⟨trivial, trivial⟩

/-- One step of one thread. -/
theorem Going.step [DecidableEq ι] {E : Env} {s : Tree} {call : ι → Errand} (ha : Apart E call) {order : List ι}
    {phase : ι → Phase} {c : Config ι Node Reply} (h : Going E s call order phase c) {i : ι}
    {next : Node → Option Node} {rest : Node → Prog Node Reply} {s' : Node} (hi : c.threads i = .step next rest)
    (hn : next c.shared = some s') :
    ∃ order' phase', Going E s call order' phase' ⟨s', Function.update c.threads i (rest c.shared)⟩ ∧
      (order' = order ∨ i ∉ order ∧ order' = order ++ [i]) := by
  have hth := h.threads i
  rw [hi] at hth
  have hb := h.beside
  have hfree := h.free
  generalize hS : afterErrands E call s order = S at hb
  obtain ⟨hcS, hgS, hgn⟩ : S.summary.cur.Dec ∧ S.gas.cur.Dec ∧ c.shared.data.gas.cur.Dec := ⟨hb.coinDec, hb.gasDec', hb.gasDec⟩
  have hread : ∀ {q : Prog Node Reply}, Reading S.main.chain q (.step next rest) →
      q = .step next rest ∨ (s' = c.shared ∧ Reading S.main.chain q (rest c.shared)) := by
    intro q hq
    cases hq with
    | here => exact .inl rfl
    | step h1 h2 =>
      rw [h1 c.shared hfree hb.chain] at hn
      cases hn
      exact .inr ⟨rfl, h2 _ hfree hb.chain⟩
  cases hph : phase i with
  | fresh =>
    rw [hph] at hth
    obtain ⟨h0, hp⟩ := hth
    cases hk : call i with
    | send tx =>
      rw [hk] at hp
      change _ = Prog.step _ _ at hp
      cases hp
      cases hn
      refine ⟨order, Function.update phase i .looking, h.stay hfree ?_ ⟨h0, tx, hk, ?_⟩, .inl rfl⟩
      · rw [hS]; exact hb.phase i _ (by simp [hph]) (by simp [hph]) (by simp) (by simp)
      · have hown : c.shared.data.gas.cur.amt tx.sender.val = S.gas.cur.amt tx.sender.val := by
          refine hb.amt fun j tx' hc hq e => ?_
          by_cases hj : j = i
          · subst hj; rw [hph] at hq; cases hq
          · exact ha.senders j i tx' tx hj hc hk (Subtype.ext e)
        have hget : c.shared.data.getGas tx.sender = .ok (S.gas.cur.amt tx.sender.val) := by
          rw [← hown]; exact hgn.balance _
        change ((Prog.done (c.shared.data.getGas tx.sender) : Prog Node U256) >>= fun g => afterGas E tx g) >>= replied = _
        rw [hget, hS]
        rfl
    | lookup l =>
      have hr : Reading S.main.chain (.done ((call i).alone E S).1) ((call i).prog E) := by
        have := (reading_lookup S.main l).bind (fun r => (pure (.block r) : Prog Node Reply))
        rw [hk]
        refine this.trans ?_
        simp only [Errand.alone]
        cases lookAlone l S.main <;> exact .here
      rw [← hp] at hr
      rcases hread hr with e | ⟨rfl, hr⟩
      · cases e
      · refine ⟨order ++ [i], Function.update phase i .settled, h.move ha h0 hfree ?_
          ⟨_, ?_, settles_last E s call order i⟩, .inr ⟨h0, rfl⟩⟩
        · rw [hS]
          have : ((call i).alone E S).2 = S := by rw [hk]; rfl
          rw [this]
          exact hb.phase i _ (by simp [hph]) (by simp [hph]) (by simp) (by simp)
        · rw [afterErrands_last, hS, errand_chain E _ hcS hgS]
          exact hr
    | brief x =>
      obtain ⟨next', rest', e1, e2, e3⟩ := x.step E
      rw [hk] at hp
      change _ = x.prog E at hp
      rw [e1] at hp
      cases hp
      rw [e2] at hn
      cases hn
      obtain ⟨k1, k2⟩ := hb.brief x (fun j tx hj => ha.others j i tx x hj hk)
      refine ⟨order ++ [i], Function.update phase i .settled, h.move ha h0 hfree ?_
          ⟨_, ?_, settles_last E s call order i⟩, .inr ⟨h0, rfl⟩⟩
      · rw [hS, hk]
        exact k2.phase i _ (by simp [hph]) (by simp [hph]) (by simp) (by simp)
      · rw [hS, hk, e3, k1]
        exact .here
  | looking =>
    rw [hph] at hth
    obtain ⟨h0, tx, hk, hp⟩ := hth
    change _ = Prog.step _ _ at hp
    cases hp
    cases hn
    have hget : c.shared.data.getAmount tx.sender = .ok (S.summary.cur.amt tx.sender.val) := by
      unfold Tree.getAmount
      rw [hb.summary]
      exact hcS.balance _
    have hrest : ((Prog.done (c.shared.data.getAmount tx.sender) : Prog Node U256) >>= fun a =>
        afterAmount E tx (S.gas.cur.amt tx.sender.val) a) >>= replied =
        afterAmount E tx (S.gas.cur.amt tx.sender.val) (S.summary.cur.amt tx.sender.val) >>= replied := by
      rw [hget]; rfl
    have hr := (reading_checks E tx (S.gas.cur.amt tx.sender.val) (S.summary.cur.amt tx.sender.val) S.main).bind replied
    rw [← hrest] at hr
    by_cases hok : ∃ v, sendChecks tx (S.gas.cur.amt tx.sender.val) (S.summary.cur.amt tx.sender.val) S.main = .ok v
    · obtain ⟨v, hv⟩ := hok
      refine ⟨order, Function.update phase i .cleared, h.stay hfree ?_ ⟨h0, tx, v, hk, by rw [hS]; exact hv, ?_⟩, .inl rfl⟩
      · rw [hS]; exact hb.phase i _ (by simp [hph]) (by simp [hph]) (by simp) (by simp)
      · rw [hv] at hr
        rw [hS]
        exact hr
    · obtain ⟨f1, f2⟩ := send_fails (E := E) hcS hgS (fun v hv => hok ⟨v, hv⟩)
      refine ⟨order ++ [i], Function.update phase i .settled, h.move ha h0 hfree ?_
          ⟨_, ?_, settles_last E s call order i⟩, .inr ⟨h0, rfl⟩⟩
      · rw [hS, hk, f1]
        exact hb.phase i _ (by simp [hph]) (by simp [hph]) (by simp) (by simp)
      · rw [afterErrands_last, hS, errand_chain E _ hcS hgS, hk, ← f2]
        exact hr
  | cleared =>
    rw [hph] at hth
    obtain ⟨h0, tx, v, hk, hv, hr⟩ := hth
    rw [hS] at hv hr
    rcases hread hr with e | ⟨rfl, hr⟩
    · change Prog.step _ _ = _ at e
      cases e
      cases hn
      refine ⟨order, Function.update phase i .stored, h.stay hfree ?_ ⟨h0, tx, v, hk, by rw [hS]; exact hv, rfl⟩, .inl rfl⟩
      rw [hS]
      exact hb.store ha hk hph
    · refine ⟨order, Function.update phase i .cleared, h.stay hfree ?_
        ⟨h0, tx, v, hk, by rw [hS]; exact hv, by rw [hS]; exact hr⟩, .inl rfl⟩
      rw [hS]
      exact hb.self_phase hph
  | stored =>
    rw [hph] at hth
    obtain ⟨h0, tx, v, hk, hv, hp⟩ := hth
    rw [hS] at hv
    rw [bind_assoc_prog] at hp
    obtain ⟨next', rest', e1, e2, e3⟩ := onTree_bind_step (Tree.sendAmount tx.sender.val tx.receiver.val tx.amount)
      (fun _ => payStep tx v >>= replied)
    rw [e1] at hp
    cases hp
    rw [e2] at hn
    cases hn
    obtain ⟨c1, c2, c3, -⟩ := sendChecks_ok hv
    have hcn : c.shared.data.summary.cur.Dec := by rw [hb.summary]; exact hcS
    rcases move_coins hcn (tx := tx) (by rw [hb.summary]; exact c3) with ⟨hf, m1, m2⟩ | ⟨m0, m1, m2, m3⟩
    · rcases send_passes (E := E) hcS hgS hv with ⟨hf', e⟩ | ⟨d1, d2, _⟩
      · refine ⟨order ++ [i], Function.update phase i .charging, h.move ha h0 hfree ?_
          ⟨tx, v, hk, c1, ?_, ?_⟩, .inr ⟨h0, rfl⟩⟩
        · rw [hS, hk, e, m2]
          exact hb.pay ha hk hph c2 hf hf'
        · rw [e3, m1]; rfl
        · have := settles_last E s call order i
          rw [hS, hk, e] at this
          exact this
      · exfalso
        rw [hb.summary] at hf
        exact hf.elim d1 d2
    · rcases send_passes (E := E) hcS hgS hv with ⟨hf', _⟩ | ⟨d1, d2, e⟩
      · exfalso
        rw [hb.summary] at m1
        exact hf'.elim m0 m1
      · refine ⟨order ++ [i], Function.update phase i .settled, h.move ha h0 hfree ?_
          ⟨_, ?_, settles_last E s call order i⟩, .inr ⟨h0, rfl⟩⟩
        · rw [hS, hk, e, m3]
          exact hb.overflow hk hph
        · rw [hS, hk, e, e3, m2]
          exact .here
  | charging =>
    rw [hph] at hth
    obtain ⟨tx, v, hk, hv, hp, hset⟩ := hth
    obtain ⟨next', rest', e1, e2, e3⟩ := onTree_bind_step (Tree.subGas tx.sender.val v) replied
    change _ = Node.onTree (Tree.subGas tx.sender.val v) >>= replied at hp
    rw [e1] at hp
    cases hp
    rw [e2] at hn
    cases hn
    obtain ⟨l1, -⟩ := hb.late i tx hk hph
    rcases Ledger.sub_run hgn tx.sender.val v with ⟨_, e⟩ | ⟨hlt, _⟩
    · refine ⟨order, Function.update phase i .settled, h.stay hfree ?_ ⟨_, ?_, hset⟩, .inl rfl⟩
      · rw [hS]
        have : (Tree.subGas tx.sender.val v c.shared.data).final = { c.shared.data with gas := charged c.shared.data.gas tx } := by
          simp only [Tree.subGas, Tree.onGas, Act.zoom, e, charged, hv]
        simp only [this]
        exact hb.charge ha hk hph
      · rw [e3]
        simp only [Tree.subGas, Tree.onGas, Act.zoom, e]
        exact .here
    · omega
  | settled =>
    rw [hph] at hth
    obtain ⟨o, hr, hset⟩ := hth
    rw [hS] at hr
    rcases hread hr with e | ⟨rfl, hr⟩
    · cases e
    · refine ⟨order, Function.update phase i .settled, h.stay hfree ?_ ⟨o, by rw [hS]; exact hr, hset⟩, .inl rfl⟩
      rw [hS]
      exact hb.self_phase hph

/-- The order respects which call ended before which began. -/
def KeepsTime (log : List (Event ι Node)) (order : List ι) : Prop :=
  ∀ i j, EndedFirst log i j → i ∈ order → j ∈ order → Locked.Before order i j

theorem exec_going [DecidableEq ι] {E : Env} {s : Tree} (hr : Run E s) {call : ι → Errand} (ha : Apart E call)
    {log : List (Event ι Node)} {c : Config ι Node Reply} (h : Exec ⟨⟨s, false⟩, fun i => (call i).prog E⟩ log c) :
    ∃ order phase, Going E s call order phase c ∧ (∀ i ∈ order, ∃ e ∈ log, e.thread = i) ∧ KeepsTime log order := by
  induction h with
  | refl =>
    have hi := run_storeInv hr
    refine ⟨[], fun _ => .fresh, ⟨rfl, List.nodup_nil, ⟨rfl, rfl, rfl, rfl, rfl, rfl, fun _ _ _ h => (by cases h),
      fun _ _ => rfl, fun _ _ _ h => (by cases h), fun _ _ => rfl, hi.summary.1, hi.gas.1, hi.gas.1⟩,
      fun i => ⟨by simp, rfl⟩⟩, by simp, fun i j _ hi => by simp at hi⟩
  | @step log c i next rest s' _ hi hn ih =>
    obtain ⟨order, phase, hg, hev, hrt⟩ := ih
    obtain ⟨order', phase', hg', hmove⟩ := hg.step ha hi hn
    refine ⟨order', phase', hg', ?_⟩
    have hev' : ∀ j ∈ order, ∃ e ∈ log ++ [⟨i, c.shared, s'⟩], e.thread = j := fun j hj => by
      obtain ⟨e, he, ht⟩ := hev j hj
      exact ⟨e, by simp [he], ht⟩
    have hevi : ∃ e ∈ log ++ [⟨i, c.shared, s'⟩], e.thread = i := ⟨⟨i, c.shared, s'⟩, by simp, rfl⟩
    rcases hmove with rfl | ⟨hnot, rfl⟩
    · refine ⟨hev', fun a b hab ha hb => ?_⟩
      obtain ⟨h1, h2⟩ := endedFirst_snoc hab (hev' b hb)
      exact hrt a b (h2 (hev b hb)) ha hb
    · refine ⟨fun j hj => ?_, fun a b hab ha hb => ?_⟩
      · rcases List.mem_append.mp hj with hj | hj
        · exact hev' j hj
        · rw [List.mem_singleton.mp hj]; exact hevi
      · have hbe : ∃ e ∈ log ++ [⟨i, c.shared, s'⟩], e.thread = b := by
          rcases List.mem_append.mp hb with hb | hb
          · exact hev' b hb
          · rw [List.mem_singleton.mp hb]; exact hevi
        obtain ⟨h1, h2⟩ := endedFirst_snoc hab hbe
        have h1 : a ≠ i := h1
        have ha' : a ∈ order := by simpa [h1] using ha
        rcases List.mem_append.mp hb with hb | hb
        · exact (hrt a b (h2 (hev b hb)) ha' hb).append i
        · rw [List.mem_singleton.mp hb]
          exact Locked.before_last ha' i

theorem nodup_split {pre post before after : List ι} {i : ι} (hn : (pre ++ i :: post).Nodup)
    (e : pre ++ i :: post = before ++ i :: after) : before = pre := by
  have h1 : i ∉ pre := by
    rw [List.nodup_append] at hn
    exact fun hi => hn.2.2 i hi i (by simp) rfl
  rcases List.append_eq_append_iff.mp e with ⟨a, h2, h3⟩ | ⟨a, h2, h3⟩
  · cases a with
    | nil => simpa using h2
    | cons x a =>
      simp only [List.cons_append, List.cons.injEq] at h3
      exfalso
      rw [List.nodup_append] at hn
      have := (List.nodup_cons.mp hn.2.1).1
      rw [h3.2] at this
      simp at this
  · cases a with
    | nil => simpa using h2.symm
    | cons x a =>
      simp only [List.cons_append, List.cons.injEq] at h3
      rw [h2, ← h3.1] at h1
      simp at h1

/-! ## C131 -/

/-- C131. On a node with any history any number of threads send transactions, no two of them with the same sender or the
same hash, while others look blocks up, store transactions, and change and query balances, without taking coins from a
sender, touching a sender's gas or storing something under the hash of one of the transactions. Under every schedule there
is, at every moment, an order of calls, among them all that have ended, such that each call that has ended returned what it
returns when the calls are made one after the other in this order; a call that ended before another began precedes it; and
when all calls have ended, the node holds what the calls made in this order leave. -/
theorem C131_linearizable [DecidableEq ι] (E : Env) (s : Tree) (hr : Run E s) (call : ι → Errand) (ha : Apart E call)
    (log : List (Event ι Node)) (c : Config ι Node Reply) (h : Exec ⟨⟨s, false⟩, fun i => (call i).prog E⟩ log c) :
    ∃ order : List ι, order.Nodup ∧ (∀ i, hasEnded (c.threads i) → i ∈ order) ∧
      (∀ before i after, order = before ++ i :: after → hasEnded (c.threads i) →
        c.threads i = .done ((call i).alone E (afterErrands E call s before)).1) ∧
      (∀ i j, EndedFirst log i j → i ∈ order → j ∈ order → Locked.Before order i j) ∧
      ((∀ i, hasEnded (c.threads i)) → SameContents c.shared.data (afterErrands E call s order)) := by
  obtain ⟨order, phase, hg, hev, hrt⟩ := exec_going hr ha h
  have hin : ∀ i o, c.threads i = .done o → phase i = .settled ∧ Settles E s call order i o := by
    intro i o ho
    have hth := hg.threads i
    rw [ho] at hth
    cases hph : phase i with
    | fresh =>
      rw [hph] at hth
      exfalso
      have := hth.2
      cases hk : call i with
      | send tx => rw [hk] at this; change _ = Prog.step _ _ at this; cases this
      | lookup l => rw [hk] at this; cases l <;> (change _ = Prog.step _ _ at this; cases this)
      | brief x =>
        rw [hk] at this
        obtain ⟨n, r, e, _⟩ := x.step E
        change _ = x.prog E at this
        rw [e] at this
        cases this
    | looking =>
      rw [hph] at hth
      obtain ⟨_, tx, _, hp⟩ := hth
      change _ = Prog.step _ _ at hp
      cases hp
    | cleared =>
      rw [hph] at hth
      obtain ⟨_, tx, v, _, _, hp⟩ := hth
      generalize hq : (sendRest E tx v >>= replied) = q at hp
      change Prog.step _ _ = _ at hq
      cases hp
      cases hq
    | stored =>
      rw [hph] at hth
      obtain ⟨_, tx, v, _, _, hp⟩ := hth
      change _ = Prog.step _ _ at hp
      cases hp
    | charging =>
      rw [hph] at hth
      obtain ⟨tx, v, _, _, hp, _⟩ := hth
      change _ = Prog.step _ _ at hp
      cases hp
    | settled =>
      rw [hph] at hth
      obtain ⟨o', hp, hs⟩ := hth
      cases hp
      exact ⟨rfl, hs⟩
  refine ⟨order, hg.nodup, fun i ⟨o, ho⟩ => (hin i o ho).2.mem, fun before i after e ⟨o, ho⟩ => ?_, hrt, fun hall => ?_⟩
  · obtain ⟨_, pre, post, e', rfl⟩ := hin i o ho
    have hn := hg.nodup
    rw [e'] at e hn
    rw [ho, nodup_split hn e]
  · have hph : ∀ i, phase i = .settled := fun i => by
      obtain ⟨o, ho⟩ := hall i
      exact (hin i o ho).1
    have hb := hg.beside
    refine ⟨hb.chain, KV.ext_get fun k => hb.txs k fun i tx _ h => ?_, hb.summary, hb.oldSummary,
      KV.ext_get fun k => hb.gas k fun i tx _ h => ?_, hb.oldGas, hb.derivFiles, hb.derivMem⟩ <;>
    · rw [hph i] at h; cases h

/-! ## One sender, two transactions -/

theorem Exec.andThen {σ α β : Type} [DecidableEq ι] {start : Config ι σ α} {log : List (Event ι σ)} {c : Config ι σ α}
    (h : Exec start log c) (f : α → Prog σ β) :
    Exec ⟨start.shared, fun i => start.threads i >>= f⟩ log ⟨c.shared, fun i => c.threads i >>= f⟩ := by
  induction h with
  | refl => exact .refl
  | @step log c i next rest s' _ hi hn ih =>
    have hstep := Exec.step (next := next) (rest := fun x => rest x >>= f) (s' := s') i ih (by simp only; rw [hi]; rfl) hn
    have e : (fun j => Function.update c.threads i (rest c.shared) j >>= f) =
        Function.update (fun j => c.threads j >>= f) i (rest c.shared >>= f) := by
      funext j
      by_cases hj : j = i
      · subst hj; simp only [Function.update_self]
      · simp only [Function.update_of_ne hj]
    simp only at hstep ⊢
    rw [e]
    exact hstep

/-- `send_transaction` made alone on a node whose last block can be read never fails by `unwrap`. -/
theorem alone_no_unwrap {E : Env} {s : Tree} {tx : Transaction} (hc : s.summary.cur.Dec) (hg : s.gas.cur.Dec) {last : Block}
    {fee : U256} (hl : s.main.getLastBlock = .ok (some last)) (hf : recalculateFee last.info.difficulty = .ok fee) :
    ((Errand.send tx).alone E s).1 ≠ .panic .unwrap := by
  cases hk : sendChecks tx (s.gas.cur.amt tx.sender.val) (s.summary.cur.amt tx.sender.val) s.main with
  | ok v =>
    rcases send_passes (E := E) hc hg hk with ⟨_, e⟩ | ⟨_, _, e⟩ <;> rw [e] <;> simp
  | err e =>
    simp only [Errand.alone]
    rw [send_eq E tx s hc hg, hk]
    simp [Act.lift]
  | ub =>
    simp only [Errand.alone]
    rw [send_eq E tx s hc hg, hk]
    simp [Act.lift]
  | panic p =>
    simp only [Errand.alone]
    rw [send_eq E tx s hc hg, hk]
    have : p = .overflow := by
      unfold sendChecks at hk
      cases hr : BYTE_GAS_PRICE.mulNat tx.getDumpSize with
      | ok r =>
        simp only [hr, Outcome.ok_bind] at hk
        split at hk
        · cases hk
        · simp only [hl, Outcome.ok_bind, Outcome.ofOption_some, hf] at hk
          cases hadd : fee.add tx.amount with
          | ok needed =>
            simp only [hadd, Outcome.ok_bind] at hk
            split at hk <;> cases hk
          | panic q =>
            simp only [hadd, Outcome.panic_bind] at hk
            cases hk
            unfold U256.add at hadd
            split at hadd <;> cases hadd
            rfl
          | err q => unfold U256.add at hadd; split at hadd <;> cases hadd
          | ub => unfold U256.add at hadd; split at hadd <;> cases hadd
      | panic q =>
        simp only [hr, Outcome.panic_bind] at hk
        cases hk
        unfold U256.mulNat at hr
        split at hr <;> cases hr
        rfl
      | err q => unfold U256.mulNat at hr; split at hr <;> cases hr
      | ub => unfold U256.mulNat at hr; split at hr <;> cases hr
    rw [this]
    simp [Act.lift]

/-- The senders have to be different: whenever a sender can afford each of two transactions, and both amounts, but not the
gas of both, some schedule of the two calls is explained by no order. -/
theorem C131_one_sender (E : Env) (s : Tree) (tx : Bool → Transaction) (f g : Spec.Accounts) (hr : Run E s)
    (hf : Shows s.summary f) (hg : Shows s.gas g) (ha : ∀ b, Affordable s f g (tx b))
    (hs : (tx true).sender = (tx false).sender) (hne : ∀ b, (tx b).sender ≠ (tx b).receiver)
    (hpos : ∀ b, 0 < (tx b).amount.val)
    (hcoins : (tx true).amount.val + (tx false).amount.val ≤ f (tx true).sender.val)
    (hfit : ∀ b, f (tx b).receiver.val + (tx true).amount.val + (tx false).amount.val < 2 ^ 256)
    (hgas : g (tx true).sender.val < 625000000000 * (tx true).getDumpSize + 625000000000 * (tx false).getDumpSize) :
    ∃ log c, Exec ⟨⟨s, false⟩, fun b => (Errand.send (tx b)).prog E⟩ log c ∧ (∀ b, hasEnded (c.threads b)) ∧
      ¬ ∃ order : List Bool, ∀ b, ∃ before after, order = before ++ b :: after ∧
        c.threads b = .done ((Errand.send (tx b)).alone E (afterErrands E (fun b => .send (tx b)) s before)).1 := by
  obtain ⟨log, c, h1, h2, h3, -⟩ := double_send E s tx f g hr hf hg ha hs hne hpos hcoins hfit hgas
  refine ⟨log, _, Exec.andThen h1 replied, fun b => ?_, ?_⟩
  · cases b
    · exact ⟨.panic .unwrap, by simp only [h3]; rfl⟩
    · exact ⟨.ok .nothing, by simp only [h2]; rfl⟩
  · rintro ⟨order, ho⟩
    obtain ⟨before, after, -, e⟩ := ho false
    simp only [h3] at e
    change Prog.done (.panic .unwrap) = _ at e
    have hi := run_storeInv hr
    have key : ∀ l : List Bool, (afterErrands E (fun b => .send (tx b)) s l).summary.cur.Dec ∧
        (afterErrands E (fun b => .send (tx b)) s l).gas.cur.Dec ∧
        (afterErrands E (fun b => .send (tx b)) s l).main.chain = s.main.chain := by
      intro l
      induction l using List.reverseRecOn with
      | nil => exact ⟨hi.summary.1, hi.gas.1, rfl⟩
      | append_singleton l b ih =>
        obtain ⟨i1, i2, i3⟩ := ih
        rw [afterErrands_last]
        generalize afterErrands E (fun b => Errand.send (tx b)) s l = S at i1 i2 i3
        refine ⟨?_, ?_, (errand_chain E _ i1 i2).trans i3⟩
        · cases hk : sendChecks (tx b) (S.gas.cur.amt (tx b).sender.val) (S.summary.cur.amt (tx b).sender.val) S.main with
          | ok v =>
            rcases send_passes (E := E) i1 i2 hk with ⟨hf', e⟩ | ⟨_, _, e⟩ <;> simp only [e]
            · exact paid_dec i1 _ hf'
            · exact i1
          | _ => rw [(send_fails i1 i2 (fun v h => by rw [hk] at h; cases h)).1]; exact i1
        · cases hk : sendChecks (tx b) (S.gas.cur.amt (tx b).sender.val) (S.summary.cur.amt (tx b).sender.val) S.main with
          | ok v =>
            rcases send_passes (E := E) i1 i2 hk with ⟨hf', e⟩ | ⟨_, _, e⟩ <;> simp only [e]
            · exact i2.insert _ _
            · exact i2
          | _ => rw [(send_fails i1 i2 (fun v h => by rw [hk] at h; cases h)).1]; exact i2
    obtain ⟨k1, k2, k3⟩ := key before
    obtain ⟨last, fee, a1, a2, -⟩ := ha false
    refine alone_no_unwrap k1 k2 (last := last) (fee := fee) ?_ a2 (Prog.done.inj e).symm
    rw [← a1]
    unfold MainChain.getLastBlock MainChain.getLastRawBlock MainChain.findRawByHeight
    rw [k3]

/-- The calls of the example: a transaction, and a query of its receiver's balance. -/
def payAndAsk (b : Bool) : Errand := if b then .send exTx else .brief (.getAmount exTx.receiver)

/-- The hypotheses of `C131_linearizable` are met by a transaction and a query amid it: the query sees the coins although the
transaction has not ended, so it comes after the transaction in the order. -/
example (E : Env) : ∃ s log c, Run E s ∧ Apart E payAndAsk ∧ Exec ⟨⟨s, false⟩, fun b => (payAndAsk b).prog E⟩ log c ∧
    c.threads false = .done (.ok (.amount (U256.ofNat 1000))) ∧ ¬ hasEnded (c.threads true) := by
  obtain ⟨s, h1, h2, h3, h4, l, h5, h6⟩ := funded E U256.zero
  have hap : Apart E payAndAsk := by
    refine ⟨fun i j tx tx' hij hi hj => ?_, fun i j tx tx' hij hi hj => ?_, fun i j tx x hi hj => ?_⟩
    · cases i <;> cases j <;> simp [payAndAsk] at hij hi hj
    · cases i <;> cases j <;> simp [payAndAsk] at hij hi hj
    · cases j <;> simp [payAndAsk] at hj
      subst hj
      trivial
  have hsize : exTx.getDumpSize = 145 := by decide +kernel
  obtain ⟨v, hv⟩ : ∃ v : U256, v.val = 625000000000 * exTx.getDumpSize := ⟨U256.ofNat 90625000000000, by rw [hsize]; decide⟩
  have hi := run_storeInv h1
  have ef := shows_eq h2
  have hr := send_checks_run E s exTx _ _ h2 h3 (funded_affordable _ h5 h6 exTx rfl rfl (by decide)) v hv
  have x0 : Exec ⟨⟨s, false⟩, fun b => (payAndAsk b).prog E⟩ [] ⟨⟨s, false⟩, fun b => (payAndAsk b).prog E⟩ := .refl
  obtain ⟨l1, x1⟩ := x0.go true rfl (hr.bind replied)
  have x2 := x1.act true (x := Tree.onMain (MainChain.addTransaction E exTx)) (a := ())
    (f := fun _ => (Node.onTree (Tree.sendAmount exTx.sender.val exTx.receiver.val exTx.amount) >>= fun _ => payStep exTx v) >>=
      replied) (Function.update_self _ _ _) rfl
  have hc1 : exTx.amount.val ≤ (s.summary.cur.amt exTx.sender.val).val := by
    have := funded_sender U256.zero
    rw [ef] at this
    simp only at this
    rw [this]; decide
  have hc2 : (s.summary.cur.amt exTx.receiver.val).val + exTx.amount.val < U256.size := by
    have := funded_receiver U256.zero
    rw [ef] at this
    simp only at this
    rw [this]; decide
  have hm : ∀ n : Tree, n.summary = s.summary → (Tree.sendAmount exTx.sender.val exTx.receiver.val exTx.amount n).out = .ok () ∧
      (Tree.sendAmount exTx.sender.val exTx.receiver.val exTx.amount n).final.getAmount exTx.receiver =
        .ok (U256.ofNat 1000) := by
    intro n hn
    obtain ⟨m1, m2⟩ := sendAmount_ok (n := n) (tx := exTx) (by rw [hn]; exact hi.summary.1) exTx_ne (by rw [hn]; exact hc1)
      (by rw [hn]; exact hc2)
    refine ⟨m1, ?_⟩
    rw [m2]
    change Ledger.balance ((Ledger.moved _ _ _ _ _).get _) = _
    rw [(Ledger.moved_dec (by rw [hn]; exact hi.summary.1) _ _ _ _).balance]
    refine congrArg Outcome.ok (U256.ext ?_)
    rw [Ledger.moved_amt _ (fun e => exTx_ne (Subtype.ext e)), if_neg (fun e => exTx_ne (Subtype.ext e.symm)), if_pos rfl, hn]
    have := funded_receiver U256.zero
    rw [ef] at this
    simp only at this
    rw [this]; decide
  obtain ⟨m1, m2⟩ := hm (Tree.onMain (MainChain.addTransaction E exTx) s).final rfl
  have x3 := x2.act true (x := Tree.sendAmount exTx.sender.val exTx.receiver.val exTx.amount) (a := ())
    (f := fun _ => payStep exTx v >>= replied) (by rw [Function.update_self]; exact bind_assoc_prog _ _ _) m1
  have x4 := Exec.step (i := false) (next := fun n => some n) (rest := fun n =>
    (Prog.done (n.data.getAmount exTx.receiver) : Prog Node U256) >>= fun v => pure (.amount v)) x3 (by
    simp only
    rw [Function.update_of_ne (by decide), Function.update_of_ne (by decide), Function.update_of_ne (by decide)]
    rfl) rfl
  refine ⟨s, _, _, h1, hap, x4, ?_, ?_⟩
  · simp only [Function.update_self]
    rw [m2]
    rfl
  · simp only [Function.update_of_ne (show true ≠ false by decide), Function.update_self]
    rintro ⟨o, ho⟩
    change Prog.step _ _ = _ at ho
    cases ho

end BCT.Props
