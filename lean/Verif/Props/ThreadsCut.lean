import Verif.Model.ThreadsCut
import Verif.Props.Faults
import Verif.Props.ThreadsCrash
import Verif.Props.ThreadsRead
/-!
# C146: calls cut short while other threads work (chain.rs, blockchaintree.rs)
-/

namespace BCT.Props
open BCT

variable {ι α β : Type}

/-! ## What every call consists of -/

/-- What a step outside `add_block` does to the node: nothing to the chain, nothing that makes a store unreadable, and it
removes no transaction. -/
def Calm (E : Env) (s t : Tree) : Prop :=
  Chain.Same s.main.chain t.main.chain ∧ (StoreInv E s → StoreInv E t) ∧ TxsGrow s t

theorem calm_refl (E : Env) (s : Tree) : Calm E s s := ⟨same_refl _, id, fun _ h => h⟩

/-- What has to be shown of the parts of all calls. -/
structure Parts (E : Env) (P : {α : Type} → Prog Node α → Prop) : Prop where
  done : ∀ {α : Type} (o : Outcome α), P (.done o)
  bind : ∀ {α β : Type} {p : Prog Node α} {f : α → Prog Node β}, P p → (∀ a, P (f a)) → P (p >>= f)
  read : ∀ {α : Type} (f : Tree → Outcome α), P (Node.read f)
  height : P Node.readHeight
  write : ∀ {f : Tree → Tree}, (∀ t, Calm E t (f t)) → P (Node.write f)
  onTree : ∀ {x : Act Tree Unit}, (∀ t, Calm E t (x t).final) → P (Node.onTree x)
  add : ∀ b, P (Node.addBlock E b)

section
variable {E : Env}

theorem calm_summary {x : Act Db Unit} (hx : Act.Rel (fun x y : Db => x.All KV.Dec → y.All KV.Dec) x) (t : Tree) :
    Calm E t (Tree.onSummary x t).final := ⟨same_refl _, (storeInv_onSummary hx t).1, fun _ h => h⟩

theorem calm_gas {x : Act Db Unit} (hx : Act.Rel (fun x y : Db => x.All KV.Dec → y.All KV.Dec) x) (t : Tree) :
    Calm E t (Tree.onGas x t).final := ⟨same_refl _, (storeInv_onGas hx t).1, fun _ h => h⟩

theorem calm_sendAmount (a b : Bytes) (v : U256) (t : Tree) : Calm E t (Tree.sendAmount a b v t).final := by
  unfold Tree.sendAmount
  split
  · exact calm_refl E t
  · exact calm_summary (Ledger.transfer_all a b v) t

theorem calm_addTx (tx : Transaction) (t : Tree) : Calm E t (Tree.onMain (MainChain.addTransaction E tx) t).final := by
  refine ⟨same_refl _, (storeInv_onMain (mainAddTx_keyed tx) t).1, fun k h => ?_⟩
  change ((t.main.transactions.insert _ _).get k).isSome
  rw [Db.get_insert]
  split
  · rfl
  · exact h

theorem calm_txs {t : Tree} {c : Chain} (h : Chain.Same t.main.chain c) :
    Calm E t { t with main := { t.main with chain := c } } :=
  ⟨h, fun h => ⟨h.txs, h.summary, h.oldSummary, h.gas, h.oldGas⟩, fun _ h => h⟩

variable {P : {α : Type} → Prog Node α → Prop}

theorem Parts.mainFlush (h : Parts E P) : P Node.mainFlush := by
  unfold Node.mainFlush Node.dumpConfig
  exact h.bind (h.bind (h.write fun t => calm_txs (same_refl _)) fun _ => h.bind h.height fun _ =>
    h.bind (h.write fun t => calm_txs (same_refl _)) fun _ => h.bind (h.read _) fun _ =>
    h.write fun t => calm_txs (same_refl _)) fun _ => h.bind (h.write fun t => calm_txs ⟨rfl, rfl, rfl⟩) fun _ =>
    h.bind (h.write fun t => calm_txs ⟨rfl, rfl, rfl⟩) fun _ =>
    h.write fun t => ⟨same_refl _, fun h => ⟨h.txs.flush, h.summary, h.oldSummary, h.gas, h.oldGas⟩, fun _ h => h⟩

theorem Parts.flush (h : Parts E P) : P Node.flush := by
  unfold Node.flush
  exact h.bind h.mainFlush fun _ =>
    h.bind (h.write fun t => ⟨same_refl _, fun h => ⟨h.txs, h.summary.flush, h.oldSummary, h.gas, h.oldGas⟩, fun _ h => h⟩) fun _ =>
    h.bind (h.write fun t => ⟨same_refl _, fun h => ⟨h.txs, h.summary, h.oldSummary.flush, h.gas, h.oldGas⟩, fun _ h => h⟩) fun _ =>
    h.bind (h.write fun t => ⟨same_refl _, fun h => ⟨h.txs, h.summary, h.oldSummary, h.gas.flush, h.oldGas⟩, fun _ h => h⟩) fun _ =>
    h.write fun t => ⟨same_refl _, fun h => ⟨h.txs, h.summary, h.oldSummary, h.gas, h.oldGas.flush⟩, fun _ h => h⟩

theorem Parts.rotate (h : Parts E P) : P Node.rotateDbs := by
  unfold Node.rotateDbs
  exact h.bind h.flush fun _ =>
    h.bind (h.write fun t => ⟨same_refl _, fun h => ⟨h.txs, h.summary, Db.all_open KV.dec_empty, h.gas, h.oldGas⟩, fun _ h => h⟩) fun _ =>
    h.bind (h.write fun t => ⟨same_refl _, fun h => ⟨h.txs, h.summary, h.oldSummary, h.gas, Db.all_open KV.dec_empty⟩, fun _ h => h⟩) fun _ =>
    h.bind (h.write fun t => ⟨same_refl _, fun h => ⟨h.txs, h.summary, Db.all_open h.summary.1, h.gas, h.oldGas⟩, fun _ h => h⟩) fun _ =>
    h.write fun t => ⟨same_refl _, fun h => ⟨h.txs, h.summary, h.oldSummary, h.gas, Db.all_open h.gas.1⟩, fun _ h => h⟩

theorem Parts.findRaw (h : Parts E P) (k : U256) : P (Node.findRawByHeight k) := by
  unfold Node.findRawByHeight
  refine h.bind h.height fun _ => ?_
  split
  · exact h.done _
  · exact h.read _

theorem Parts.lookup (h : Parts E P) (l : Node.Lookup) : P l.prog := by
  cases l with
  | byHeight k => exact h.findRaw k
  | byHash q =>
    refine h.bind (h.read _) fun r => ?_
    cases r with
    | none => exact h.done _
    | some v => exact h.bind (h.done _) fun _ => h.findRaw _
  | last => exact h.bind h.height fun _ => h.bind (h.done _) fun _ => h.findRaw _

theorem Parts.last (h : Parts E P) : P Node.getLastBlock := h.bind (h.lookup .last) fun _ => h.done _

theorem Parts.addTx (h : Parts E P) (tx : Transaction) : P (Node.addTransaction E tx) := h.onTree (calm_addTx tx)

theorem Parts.send (h : Parts E P) (tx : Transaction) : P (Node.sendTransaction E tx) := by
  unfold Node.sendTransaction
  refine h.bind (h.read _) fun _ => h.bind (h.read _) fun _ => h.bind (h.done _) fun _ => ?_
  split
  · exact h.done _
  · refine h.bind h.last fun _ => h.bind (h.done _) fun _ => h.bind (h.done _) fun _ => h.bind (h.done _) fun _ => ?_
    split
    · exact h.done _
    · exact h.bind (h.addTx tx) fun _ => h.bind (h.onTree (calm_sendAmount _ _ _)) fun _ =>
        h.onTree (calm_gas (Ledger.sub_all _ _))

theorem Parts.emit (h : Parts E P) (pow : BytesN 32) (founder : Address) (txs : List Hash) (ts : UInt64) :
    P (Node.emitMain E pow founder txs ts) := by
  unfold Node.emitMain
  refine h.bind h.last fun _ => h.bind (h.done _) fun _ => h.bind (h.done _) fun _ => ?_
  split
  · exact h.done _
  · refine h.bind (h.done _) fun _ => h.bind (h.done _) fun _ => h.bind (h.done _) fun _ => h.bind ?_ fun _ =>
      h.bind (h.add _) fun _ => h.done _
    split
    · split
      · exact h.done _
      · exact h.bind (h.read _) fun _ => h.bind h.rotate fun _ =>
          h.bind (h.onTree (calm_summary (Ledger.set_all _ _))) fun _ => h.done _
    · split
      · exact h.done _
      · exact h.bind (h.done _) fun _ => h.done _

theorem Parts.brief (h : Parts E P) (x : Brief) : P (x.prog E) := by
  cases x with
  | addTransaction t => exact h.bind (h.addTx t) fun _ => h.done _
  | addAmount o n => exact h.bind (h.onTree (calm_summary (Ledger.add_all _ _))) fun _ => h.done _
  | subAmount o n => exact h.bind (h.onTree (calm_summary (Ledger.sub_all _ _))) fun _ => h.done _
  | setAmount o n => exact h.bind (h.onTree (calm_summary (Ledger.set_all _ _))) fun _ => h.done _
  | sendAmount a b n => exact h.bind (h.onTree (calm_sendAmount _ _ _)) fun _ => h.done _
  | getAmount o => exact h.bind (h.read _) fun _ => h.done _
  | addGas o n => exact h.bind (h.onTree (calm_gas (Ledger.add_all _ _))) fun _ => h.done _
  | subGas o n => exact h.bind (h.onTree (calm_gas (Ledger.sub_all _ _))) fun _ => h.done _
  | sendGas a b n => exact h.bind (h.onTree (calm_gas (Ledger.transfer_all _ _ _))) fun _ => h.done _
  | getGas o => exact h.bind (h.read _) fun _ => h.done _

theorem Parts.call (h : Parts E P) (k : Call) : P (k.prog E) := by
  cases k with
  | add b => exact h.bind (h.add b) fun _ => h.done _
  | lookup l => exact h.bind (h.lookup l) fun _ => h.done _
  | brief x => exact h.brief x

theorem Parts.node (h : Parts E P) (k : Node.AnyCall) : P (k.prog E) := by
  cases k with
  | shared k =>
    refine h.bind ?_ fun _ => h.done _
    cases k with
    | send tx => exact h.send tx
    | flush => exact h.flush
    | handle k =>
      cases k with
      | addBlock b => exact h.add b
      | addTransaction t => exact h.addTx t
      | flush => exact h.mainFlush
  | emit pow founder txs ts => exact h.bind (h.emit pow founder txs ts) fun _ => h.done _
  | lookup l => exact h.lookup l

end

/-- What threads call. -/
inductive Job where
  | node (k : Node.AnyCall)
  | call (k : Call)

/-- The steps of the call. -/
def Job.prog (E : Env) : Job → Prog Node Reply
  | .node k => do let r ← k.prog E; pure (.block r)
  | .call k => k.prog E

theorem Parts.job {E : Env} {P : {α : Type} → Prog Node α → Prop} (h : Parts E P) (k : Job) : P (k.prog E) := by
  cases k with
  | node k => exact h.bind (h.node k) fun _ => h.done _
  | call k => exact h.call k

/-! ## Programs whose steps on the chain are those of `add_block` -/

/-- How a program changes the chain; `some c` says that its thread holds the lock and has left the chain as `c`, `past` what
its steps with the lock have left. Without the lock it leaves chain and lock alone or takes the lock when it is free. With
the lock it changes the chain as `add_block` does. It does not end with the lock; when it returns something, that and the
past are as `Q` says. -/
def Mindful (E : Env) (Q : α → List Chain → Prop) : Prog Node α → Option Chain → List Chain → Prop
  | .done o, m, past => m = none ∧ ∀ a, o = .ok a → Q a past
  | .step next rest, none, past => ∀ n n' : Node, next n = some n' → (Quiet n n' ∧ Mindful E Q (rest n) none past) ∨
      (n.held = false ∧ n'.held = true ∧ Chain.Same n.data.main.chain n'.data.main.chain ∧
        Mindful E Q (rest n) (some n'.data.main.chain) past)
  | .step next rest, some c, past => ∀ n n' : Node, n.held = true → Chain.Same c n.data.main.chain → next n = some n' →
      Chain.Step1 E n.data.main.chain n'.data.main.chain ∧
      ((n'.held = true ∧ Mindful E Q (rest n) (some n'.data.main.chain) (n'.data.main.chain :: past)) ∨
       (n'.held = false ∧ Mindful E Q (rest n) none (n'.data.main.chain :: past)))

theorem Mindful.bind {E : Env} {Q : α → List Chain → Prop} {Q' : β → List Chain → Prop} {p : Prog Node α}
    {f : α → Prog Node β} : ∀ {m past}, Mindful E Q p m past → (∀ a past', Q a past' → Mindful E Q' (f a) none past') →
    Mindful E Q' (p >>= f) m past := by
  induction p with
  | done o =>
    intro m past h hf
    obtain ⟨rfl, h⟩ := h
    cases o with
    | ok a => exact hf a past (h a rfl)
    | _ => exact ⟨rfl, fun _ e => by cases e⟩
  | step next rest ih =>
    intro m past h hf
    cases m with
    | none =>
      intro n n' hn
      rcases h n n' hn with ⟨h1, h2⟩ | ⟨h1, h2, h3, h4⟩
      · exact .inl ⟨h1, ih n h2 hf⟩
      · exact .inr ⟨h1, h2, h3, ih n h4 hf⟩
    | some c =>
      intro n n' hh hc hn
      obtain ⟨h1, h2⟩ := h n n' hh hc hn
      exact ⟨h1, h2.imp (fun h => ⟨h.1, ih n h.2 hf⟩) (fun h => ⟨h.1, ih n h.2 hf⟩)⟩

/-- Nothing is said of what is returned. -/
def anyEnd (_ : α) (_ : List Chain) : Prop := True

theorem Mindful.mono {E : Env} {Q Q' : α → List Chain → Prop} (hQ : ∀ a l, Q a l → Q' a l) {p : Prog Node α} {m past}
    (h : Mindful E Q p m past) : Mindful E Q' p m past := by
  have e : p = p >>= fun a => (pure a : Prog Node α) := by
    change p = Prog.bind p _
    clear h
    induction p with
    | done o => cases o <;> rfl
    | step next rest ih => simp only [Prog.bind]; congr 1; funext s; exact ih s
  rw [e]
  exact h.bind fun a past h => ⟨rfl, fun a' e => by cases e; exact hQ _ _ h⟩

/-- The block was stored and counted. -/
def Took (b : Block) (_ : α) (past : List Chain) : Prop :=
  ∃ c ∈ past, c.height.val = b.info.height.val + 1 ∧ c.blocks.get b.info.height.toBE.val = some b.dump ∧
    ∃ c' ∈ past, c'.height = b.info.height

theorem mindful_addBlock (E : Env) (b : Block) (past : List Chain) : Mindful E (Took b) (Node.addBlock E b) none past := by
  unfold Node.addBlock
  intro n n' hn
  simp only [Option.ite_none_left_eq_some] at hn
  obtain ⟨h1, h2⟩ := hn
  cases h2
  refine .inr ⟨by simpa using h1, rfl, same_refl _, ?_⟩
  intro n1 n1' hh1 _ hn1
  cases hn1
  refine ⟨.same (same_refl _), .inl ⟨hh1, ?_⟩⟩
  change Mindful E _ (if b.info.height ≠ n1.data.main.chain.height then _ else _) _ _
  split
  · intro n2 n2' _ _ hn2
    cases hn2
    exact ⟨.same (same_refl _), .inr ⟨rfl, rfl, fun _ e => by cases e⟩⟩
  · rename_i hb
    have hb : b.info.height = n1.data.main.chain.height := not_not.mp hb
    generalize n1.data.main.chain = c0 at hb
    intro n2 n2' hh2 hs2 hn2
    cases hn2
    obtain ⟨e1, e2, e3⟩ := hs2
    refine ⟨.block b (hb.trans e3.symm) (fun q => ?_) rfl rfl, .inl ⟨hh2, ?_⟩⟩
    · change ((n2.data.main.chain.blocks.insert c0.height.toBE.val b.dump).get q) = _
      rw [Db.get_insert, e3]
    · have k1 : (Node.setChain (fun s => { s with blocks := s.blocks.insert c0.height.toBE.val b.dump }) n2.data).main.chain.height =
          c0.height := e3
      have k2 : (Node.setChain (fun s => { s with blocks := s.blocks.insert c0.height.toBE.val b.dump }) n2.data).main.chain.blocks.get
          c0.height.toBE.val = some b.dump := by
        change ((n2.data.main.chain.blocks.insert _ _).get _) = _
        rw [Db.get_insert, if_pos rfl]
      generalize (Node.setChain (fun s => { s with blocks := s.blocks.insert c0.height.toBE.val b.dump }) n2.data).main.chain = c1 at k1 k2 ⊢
      intro n3 n3' hh3 hs3 hn3
      cases hn3
      obtain ⟨f1, f2, f3⟩ := hs3
      have g2 : n3.data.main.chain.blocks.get c0.height.toBE.val = some b.dump := by
        unfold Db.get at k2 ⊢; rw [f1]; exact k2
      have g1 : n3.data.main.chain.height = c0.height := f3.trans k1
      refine ⟨.ref b (hb.trans g1.symm) (by rw [g1]; exact g2) rfl (fun q => ?_) rfl, .inl ⟨hh3, ?_⟩⟩
      · change ((n3.data.main.chain.heightReference.insert _ _).get q) = _
        rw [Db.get_insert, g1]
        rfl
      · have j1 : (Node.setChain (fun s => { s with heightReference := s.heightReference.insert (E.sha256 b.dump).val c0.height.toBE.val })
            n3.data).main.chain.height = c0.height := g1
        have j2 : (Node.setChain (fun s => { s with heightReference := s.heightReference.insert (E.sha256 b.dump).val c0.height.toBE.val })
            n3.data).main.chain.blocks.get c0.height.toBE.val = some b.dump := g2
        have j3 : (Node.setChain (fun s => { s with heightReference := s.heightReference.insert (E.sha256 b.dump).val c0.height.toBE.val })
            n3.data).main.chain.heightReference.get (b.hash E).val = some c0.height.toBE.val := by
          change ((n3.data.main.chain.heightReference.insert _ _).get _) = _
          rw [Db.get_insert]
          exact if_pos rfl
        generalize (Node.setChain (fun s => { s with heightReference := s.heightReference.insert (E.sha256 b.dump).val c0.height.toBE.val })
            n3.data).main.chain = c2 at j1 j2 j3 ⊢
        change Mindful E _ (match c0.height.add U256.one with
          | .ok h' => _
          | o => _) _ _
        cases ha : c0.height.add U256.one with
        | ok h' =>
          have hh' : h'.val = c0.height.val + 1 := by
            unfold U256.add at ha
            split at ha
            · cases ha; rfl
            · cases ha
          intro n4 n4' hh4 hs4 hn4
          cases hn4
          obtain ⟨w1, w2, w3⟩ := hs4
          have q1 : n4.data.main.chain.height = c0.height := w3.trans j1
          refine ⟨.height b (hb.trans q1.symm) ?_ ?_ rfl rfl ?_, .inl ⟨hh4, ?_⟩⟩
          · rw [q1]; unfold Db.get at j2 ⊢; rw [w1]; exact j2
          · rw [q1]; unfold Db.get at j3 ⊢; rw [w2]; exact j3
          · rw [q1]; exact hh'
          · intro n5 n5' _ _ hn5
            cases hn5
            refine ⟨.same (same_refl _), .inr ⟨rfl, rfl, fun _ _ => ⟨_, .tail _ (.head _), ?_, ?_, c0,
              .tail _ (.tail _ (.tail _ (.tail _ (.head _)))), hb.symm⟩⟩⟩
            · rw [hb]; exact hh'
            · rw [hb]
              change n4.data.main.chain.blocks.get _ = _
              unfold Db.get at j2 ⊢
              rw [w1]
              exact j2
        | err e =>
          intro n5 n5' _ _ hn5
          cases hn5; exact ⟨.same (same_refl _), .inr ⟨rfl, rfl, fun _ e => by cases e⟩⟩
        | panic e =>
          intro n5 n5' _ _ hn5
          cases hn5; exact ⟨.same (same_refl _), .inr ⟨rfl, rfl, fun _ e => by cases e⟩⟩
        | ub =>
          intro n5 n5' _ _ hn5
          cases hn5; exact ⟨.same (same_refl _), .inr ⟨rfl, rfl, fun _ e => by cases e⟩⟩

theorem mindful_parts (E : Env) : Parts E (fun p => ∀ past, Mindful E anyEnd p none past) where
  done _ _ := ⟨rfl, fun _ _ => trivial⟩
  bind h hf past := (h past).bind fun a past' _ => hf a past'
  read _ past n n' hn := by cases hn; exact .inl ⟨quiet_refl n, rfl, fun _ _ => trivial⟩
  height past n n' hn := by
    simp only [Option.ite_none_left_eq_some] at hn
    cases hn.2
    exact .inl ⟨quiet_refl n, rfl, fun _ _ => trivial⟩
  write h past n n' hn := by cases hn; exact .inl ⟨⟨(h n.data).1, rfl⟩, rfl, fun _ _ => trivial⟩
  onTree h past n n' hn := by cases hn; exact .inl ⟨⟨(h n.data).1, rfl⟩, rfl, fun _ _ => trivial⟩
  add b past := (mindful_addBlock E b past).mono fun _ _ _ => trivial

/-- Cutting short keeps the lock discipline: the lock is given back. -/
theorem Mindful.cut {E : Env} {o : Outcome α} {p : Prog Node α} : ∀ {m : Option Chain} {past : List Chain} (k : Nat),
    Mindful E anyEnd p m past → Mindful E anyEnd (Node.cut o k m.isSome p) m past := by
  induction p with
  | done r =>
    intro m past k h
    unfold Node.cut
    exact h
  | step next rest ih =>
    intro m past k h
    cases k with
    | zero =>
      cases m with
      | none => exact ⟨rfl, fun _ _ => trivial⟩
      | some c =>
        intro n n' _ _ hn
        cases hn
        exact ⟨.same (same_refl _), .inr ⟨rfl, rfl, fun _ _ => trivial⟩⟩
    | succ k =>
      cases m with
      | none =>
        intro n n' hn
        have e : Node.holdsAfter false n (next n) = (!n.held && n'.held) := by rw [hn]; rfl
        rcases h n n' hn with ⟨h1, h2⟩ | ⟨h1, h2, h3, h4⟩
        · refine .inl ⟨h1, ?_⟩
          have : Node.holdsAfter false n (next n) = false := by rw [e, h1.2]; cases n.held <;> rfl
          change Mindful E _ (Node.cut o k (Node.holdsAfter false n (next n)) (rest n)) none past
          rw [this]
          exact ih n k h2
        · refine .inr ⟨h1, h2, h3, ?_⟩
          have : Node.holdsAfter false n (next n) = true := by rw [e, h1, h2]; rfl
          change Mindful E _ (Node.cut o k (Node.holdsAfter false n (next n)) (rest n)) _ past
          rw [this]
          exact ih n (m := some _) k h4
      | some c =>
        intro n n' hh hc hn
        have e : Node.holdsAfter true n (next n) = n'.held := by rw [hn]; rfl
        obtain ⟨h1, h2⟩ := h n n' hh hc hn
        refine ⟨h1, ?_⟩
        rcases h2 with ⟨h2, h3⟩ | ⟨h2, h3⟩
        · refine .inl ⟨h2, ?_⟩
          change Mindful E _ (Node.cut o k (Node.holdsAfter true n (next n)) (rest n)) _ _
          rw [e, h2]
          exact ih n (m := some _) k h3
        · refine .inr ⟨h2, ?_⟩
          change Mindful E _ (Node.cut o k (Node.holdsAfter true n (next n)) (rest n)) _ _
          rw [e, h2]
          exact ih n (m := none) k h3

theorem Tidy.cut {o : Outcome α} {p : Prog Node α} : ∀ {mine : Bool} (k : Nat), Tidy p mine →
    Tidy (Node.cut o k mine p) mine := by
  induction p with
  | done r =>
    intro mine k h
    unfold Node.cut
    exact h
  | step next rest ih =>
    intro mine k h
    cases k with
    | zero =>
      cases mine with
      | false => rfl
      | true => exact fun n _ => ⟨_, rfl, rfl⟩
    | succ k =>
      cases mine with
      | false =>
        refine fun n => ⟨(h n).1, fun n' hn => ?_⟩
        have e : Node.holdsAfter false n (next n) = (!n.held && n'.held) := by rw [hn]; rfl
        rcases (h n).2 n' hn with ⟨h1, h2⟩ | ⟨h1, h2, h4⟩
        · refine .inl ⟨h1, ?_⟩
          have : Node.holdsAfter false n (next n) = false := by rw [e, h1]; cases n.held <;> rfl
          change Tidy (Node.cut o k (Node.holdsAfter false n (next n)) (rest n)) _
          rw [this]
          exact ih n k h2
        · refine .inr ⟨h1, h2, ?_⟩
          have : Node.holdsAfter false n (next n) = true := by rw [e, h1, h2]; rfl
          change Tidy (Node.cut o k (Node.holdsAfter false n (next n)) (rest n)) _
          rw [this]
          exact ih n k h4
      | true =>
        intro n hh
        obtain ⟨n', hn, h2⟩ := h n hh
        refine ⟨n', hn, ?_⟩
        have e : Node.holdsAfter true n (next n) = n'.held := by rw [hn]; rfl
        change Tidy (Node.cut o k (Node.holdsAfter true n (next n)) (rest n)) _
        rw [e]
        exact ih n k h2

theorem Guar.cut {R : Node → Node → Prop} (hR : ∀ n : Node, R n { n with held := false }) {o : Outcome α}
    {p : Prog Node α} : ∀ (mine : Bool) (k : Nat), p.Guar R → (Node.cut o k mine p).Guar R := by
  induction p with
  | done r => intro mine k _; unfold Node.cut; trivial
  | step next rest ih =>
    intro mine k h
    cases k with
    | zero =>
      cases mine with
      | false => trivial
      | true => exact fun n n' hn => by cases hn; exact ⟨hR n, trivial⟩
    | succ k => exact fun n n' hn => ⟨(h n n' hn).1, ih n _ k (h n n' hn).2⟩

theorem Within.cut {o : Outcome α} {p : Prog Node α} : ∀ {m : Nat} (mine : Bool) (k : Nat), Within p m →
    Within (Node.cut o k mine p) (m + 1) := by
  induction p with
  | done r => intro m mine k _; unfold Node.cut; trivial
  | step next rest ih =>
    intro m mine k h
    cases m with
    | zero => exact h.elim
    | succ m =>
      cases k with
      | zero =>
        cases mine with
        | false => trivial
        | true => exact fun _ => trivial
      | succ k => exact fun s => ih s _ k (h s)

theorem tidy_parts (E : Env) : Parts E (fun p => Tidy p false) where
  done _ := rfl
  bind h hf := h.bind hf
  read f := tidy_read f
  height := tidy_readHeight
  write _ := tidy_write _
  onTree _ := tidy_onTree _
  add := tidy_addBlock E

/-- Of the stores: nothing unreadable, nothing lost. -/
def Sound (E : Env) (n n' : Node) : Prop := (StoreInv E n.data → StoreInv E n'.data) ∧ TxsGrow n.data n'.data

theorem sound_refl (E : Env) (n : Node) : Sound E n n := ⟨id, fun _ h => h⟩

theorem sound_parts (E : Env) : Parts E (fun p => p.Guar (Sound E)) where
  done _ := trivial
  bind h hf := h.bind hf
  read f := Node.guar_read (sound_refl E) f
  height := Node.guar_readHeight (sound_refl E)
  write h := Node.guar_write fun n => (h n.data).2
  onTree h := Node.guar_onTree fun n => (h n.data).2
  add b := by
    have hc : ∀ (f : Chain → Chain) (n : Node), Sound E n { n with data := Node.setChain f n.data } := fun f n =>
      ⟨fun h => ⟨h.txs, h.summary, h.oldSummary, h.gas, h.oldGas⟩, fun _ h => h⟩
    have hh : ∀ (n : Node) b, Sound E n { n with held := b } := fun n _ => sound_refl E n
    unfold Node.addBlock
    refine .bind (Node.guar_lock fun n => hh n _) fun _ => .bind (Node.guar_read (sound_refl E) _) fun ht => ?_
    split
    · exact .bind (Node.guar_unlock fun n => hh n _) fun _ => Prog.guar_lift _
    · refine .bind (Node.guar_write (hc _)) fun _ => .bind (Node.guar_write (hc _)) fun _ => ?_
      split
      · exact .bind (Node.guar_write (hc _)) fun _ => Node.guar_unlock fun n => hh n _
      · exact .bind (Node.guar_unlock fun n => hh n _) fun _ => .bind (Prog.guar_lift _) fun _ => Prog.guar_pure _

theorem within_brief (E : Env) (x : Brief) : Within (x.prog E) 1 := by
  cases x <;> exact fun _ => by first | exact within_pure _ _ | exact Within.lifted (fun _ => within_pure _ _)

theorem within_job (E : Env) (k : Job) : Within (k.prog E) 27 := by
  cases k with
  | node k => exact .bind (n := 0) (fun _ => within_pure _ _) (within_call E k)
  | call k =>
    cases k with
    | add b => exact (Within.bind (n := 0) (fun _ => within_pure _ _) (within_addBlock E b)).mono (by omega)
    | lookup l => exact (Within.bind (n := 0) (fun _ => within_pure _ _) (within_lookup l)).mono (by omega)
    | brief x => exact (within_brief E x).mono (by omega)

/-! ## All schedules -/

/-- Threads that call `job`; those given a `stop` are cut short after so many steps, with that result. -/
def cutStart (E : Env) (s : Tree) (job : ι → Job) (stop : ι → Option (Nat × Outcome Reply)) : Config ι Node Reply :=
  ⟨⟨s, false⟩, fun i => Node.mayCut (stop i) ((job i).prog E)⟩

/-- What a step of `add_block` leaves as it was. -/
theorem step_low {E : Env} {s t : Chain} (h : Chain.Step1 E s t) :
    s.height.val ≤ t.height.val ∧ ∀ q : U256, q.val < s.height.val → t.blocks.get q.toBE.val = s.blocks.get q.toBE.val := by
  cases h with
  | same h => exact ⟨Nat.le_of_eq (by rw [h.2.2]), fun q _ => by unfold Db.get; rw [h.1]⟩
  | block b _ e2 _ e4 =>
    refine ⟨Nat.le_of_eq (by rw [e4]), fun q hq => ?_⟩
    rw [e2, if_neg fun e => ?_]
    have := congrArg U256.val (toBE_inj e)
    omega
  | ref b _ _ e3 _ e5 => exact ⟨Nat.le_of_eq (by rw [e5]), fun q _ => by unfold Db.get; rw [e3]⟩
  | height b _ _ _ e4 _ e6 => exact ⟨by omega, fun q _ => by unfold Db.get; rw [e4]⟩

/-- The chain was extended, no block below its height changed. -/
def _root_.BCT.Chain.Onward (a b : Chain) : Prop :=
  a.Extends b ∧ a.height.val ≤ b.height.val ∧ ∀ q : U256, q.val < a.height.val → b.blocks.get q.toBE.val = a.blocks.get q.toBE.val

theorem onward_step {E : Env} {a b c : Chain} (h : a.Onward b) (hs : Chain.Step1 E b c) : a.Onward c := by
  obtain ⟨k1, k2⟩ := step_low hs
  exact ⟨Chain.extends_preord.trans h.1 hs.extends, Nat.le_trans h.2.1 k1,
    fun q hq => (k2 q (Nat.lt_of_lt_of_le hq h.2.1)).trans (h.2.2 q hq)⟩

theorem onward_refl (a : Chain) : a.Onward a := ⟨Chain.extends_preord.refl _, Nat.le_refl _, fun _ _ => rfl⟩

/-- The thread keeps to this, and what it has left behind since `base` has only been extended. -/
def Keeping (E : Env) (Q : α → List Chain → Prop) (base now : Chain) (p : Prog Node α) (m : Option Chain) : Prop :=
  ∃ past, (∀ x ∈ past, base.Onward x ∧ x.Onward now) ∧ Mindful E Q p m past

theorem Keeping.later {E : Env} {Q : α → List Chain → Prop} {base a b : Chain} {p : Prog Node α} {m : Option Chain}
    (h : Keeping E Q base a p m) (hs : Chain.Step1 E a b) : Keeping E Q base b p m := by
  obtain ⟨past, h1, h2⟩ := h
  exact ⟨past, fun x hx => ⟨(h1 x hx).1, onward_step (h1 x hx).2 hs⟩, h2⟩

/-- One thread at most holds the lock, and it knows the chain. -/
def Guarded (E : Env) (Q : ι → α → List Chain → Prop) (base : Chain) (c : Config ι Node α) : Prop :=
  base.Onward c.shared.data.main.chain ∧
  ((c.shared.held = false ∧ ∀ i, Keeping E (Q i) base c.shared.data.main.chain (c.threads i) none) ∨
  (c.shared.held = true ∧ ∃ k x, Chain.Same x c.shared.data.main.chain ∧
    Keeping E (Q k) base c.shared.data.main.chain (c.threads k) (some x) ∧
    ∀ i, i ≠ k → Keeping E (Q i) base c.shared.data.main.chain (c.threads i) none))

/-- Every step ever taken changes the chain as a step of `add_block` does. -/
theorem exec_guarded [DecidableEq ι] {E : Env} {Q : ι → α → List Chain → Prop} {base : Chain} {start c : Config ι Node α}
    {log : List (Event ι Node)} (h : Exec start log c) (hs : Guarded E Q base start) :
    Guarded E Q base c ∧ ∀ e ∈ log, Chain.Step1 E e.before.data.main.chain e.after.data.main.chain := by
  induction h with
  | refl => exact ⟨hs, by simp⟩
  | @step log c i next rest s' _ hi hn ih =>
    obtain ⟨ih, hl⟩ := ih
    suffices hnew : Chain.Step1 E c.shared.data.main.chain s'.data.main.chain ∧
        (base.Onward s'.data.main.chain → Guarded E Q base ⟨s', Function.update c.threads i (rest c.shared)⟩) by
      refine ⟨hnew.2 (onward_step ih.1 hnew.1), fun e he => ?_⟩
      rcases List.mem_append.mp he with he | he
      · exact hl e he
      · rw [List.mem_singleton.mp he]; exact hnew.1
    obtain ⟨-, ih⟩ := ih
    rcases ih with ⟨h1, h2⟩ | ⟨h1, k, x, hx, ⟨past, hpast, h2⟩, h3⟩
    · obtain ⟨past, hpast, ht⟩ := h2 i
      rw [hi] at ht
      have others : Chain.Step1 E c.shared.data.main.chain s'.data.main.chain → ∀ j, j ≠ i →
          Keeping E (Q j) base s'.data.main.chain (Function.update c.threads i (rest c.shared) j) none := fun hs j hj => by
        rw [Function.update_of_ne hj]; exact (h2 j).later hs
      rcases ht c.shared s' hn with ⟨hq, ht⟩ | ⟨_, e, hq, ht⟩
      · have hs : Chain.Step1 E c.shared.data.main.chain s'.data.main.chain := .same hq.1
        refine ⟨hs, fun hbase => ⟨hbase, .inl ⟨hq.2.trans h1, fun j => ?_⟩⟩⟩
        by_cases hj : j = i
        · subst hj; simp only [Function.update_self]; exact Keeping.later ⟨past, hpast, ht⟩ hs
        · exact others hs j hj
      · have hs : Chain.Step1 E c.shared.data.main.chain s'.data.main.chain := .same hq
        exact ⟨hs, fun hbase => ⟨hbase, .inr ⟨e, i, _, same_refl _, by simp only [Function.update_self]; exact Keeping.later ⟨past, hpast, ht⟩ hs,
          others hs⟩⟩⟩
    · by_cases hik : i = k
      · subst hik
        rw [hi] at h2
        obtain ⟨hst, h2⟩ := h2 c.shared s' h1 hx hn
        have others : ∀ j, j ≠ i →
            Keeping E (Q j) base s'.data.main.chain (Function.update c.threads i (rest c.shared) j) none := fun j hj => by
          rw [Function.update_of_ne hj]; exact (h3 j hj).later hst
        refine ⟨hst, fun hbase => ?_⟩
        have hnew : ∀ x ∈ s'.data.main.chain :: past, base.Onward x ∧ x.Onward s'.data.main.chain := fun x hx => by
          rcases List.mem_cons.mp hx with rfl | hx
          · exact ⟨hbase, onward_refl _⟩
          · exact ⟨(hpast x hx).1, onward_step (hpast x hx).2 hst⟩
        rcases h2 with ⟨e, ht⟩ | ⟨e, ht⟩
        · exact ⟨hbase, .inr ⟨e, i, _, same_refl _, by simp only [Function.update_self]; exact ⟨_, hnew, ht⟩, others⟩⟩
        · refine ⟨hbase, .inl ⟨e, fun j => ?_⟩⟩
          by_cases hj : j = i
          · subst hj; simp only [Function.update_self]; exact ⟨_, hnew, ht⟩
          · exact others j hj
      · obtain ⟨past', hpast', ht⟩ := h3 i hik
        rw [hi] at ht
        rcases ht c.shared s' hn with ⟨hq, ht⟩ | ⟨e, _⟩
        · have hs : Chain.Step1 E c.shared.data.main.chain s'.data.main.chain := .same hq.1
          refine ⟨hs, fun hbase => ⟨hbase, .inr ⟨hq.2.trans h1, k, x, Chain.same_preord.trans hx hq.1, ?_, fun j hj => ?_⟩⟩⟩
          · simp only [Function.update_of_ne (Ne.symm hik)]; exact Keeping.later ⟨past, hpast, h2⟩ hs
          · by_cases hji : j = i
            · subst hji; simp only [Function.update_self]; exact Keeping.later ⟨past', hpast', ht⟩ hs
            · simp only [Function.update_of_ne hji]; exact (h3 j hj).later hs
        · rw [h1] at e; cases e

section
variable [DecidableEq ι] {E : Env} {s : Tree} {job : ι → Job} {stop : ι → Option (Nat × Outcome Reply)}
  {log : List (Event ι Node)} {c : Config ι Node Reply}

omit [DecidableEq ι] in
theorem cut_sat {P : Prog Node Reply → Prop} (h : ∀ i, P ((job i).prog E))
    (hc : ∀ k o i, P (Node.cut o k false ((job i).prog E))) (i : ι) : P ((cutStart E s job stop).threads i) := by
  change P (Node.mayCut (stop i) _)
  cases stop i with
  | none => exact h i
  | some x => exact hc _ _ i

theorem cut_owned (h : Exec (cutStart E s job stop) log c) : Owned c :=
  exec_owned h (.inl ⟨rfl, cut_sat (P := fun p => Tidy p false) (fun i => (tidy_parts E).job (job i))
    (fun k _ i => Tidy.cut k ((tidy_parts E).job (job i)))⟩)

theorem cut_steps (h : Exec (cutStart E s job stop) log c) :
    ∀ e ∈ log, Chain.Step1 E e.before.data.main.chain e.after.data.main.chain :=
  (exec_guarded (Q := fun _ => anyEnd) h ⟨onward_refl s.main.chain, .inl ⟨rfl, cut_sat (P := fun p => Keeping E anyEnd s.main.chain s.main.chain p none)
    (fun i => ⟨[], by simp, (mindful_parts E).job (job i) []⟩)
    (fun k _ i => ⟨[], by simp, Mindful.cut (m := none) k ((mindful_parts E).job (job i) [])⟩)⟩⟩).2

theorem cut_sound (h : Exec (cutStart E s job stop) log c) : ∀ e ∈ log, Sound E e.before e.after :=
  (h.guar (R := fun _ => Sound E) (cut_sat (P := fun p => p.Guar (Sound E)) (fun i => (sound_parts E).job (job i))
    (fun k _ i => Guar.cut (fun n => sound_refl E n) false k ((sound_parts E).job (job i))))).1

theorem cut_sorted (h : Exec (cutStart E s job stop) log c) :
    s.main.chain.Extends c.shared.data.main.chain ∧
    (∀ e ∈ log, s.main.chain.Extends e.before.data.main.chain ∧
      e.after.data.main.chain.Extends c.shared.data.main.chain) ∧
    log.Pairwise (fun a b => a.after.data.main.chain.Extends b.before.data.main.chain) :=
  h.sorted (R := fun a b => a.data.main.chain.Extends b.data.main.chain) (fun _ => Chain.extends_preord.refl _)
    (fun _ _ _ => Chain.extends_preord.trans) (fun e he => (cut_steps h e he).extends)

end

/-! ## C146 -/

/-- C146. Any number of threads emit, add blocks and transactions, send, transfer, flush and look blocks up; any of the calls
is cut short at any point. Under every schedule, as long as some call has not ended, some thread can make a step; no call
takes more than 28 steps; and when all calls have ended the lock is free. -/
theorem C146_no_deadlock [DecidableEq ι] (E : Env) (s : Tree) (job : ι → Job) (stop : ι → Option (Nat × Outcome Reply))
    (log : List (Event ι Node)) (c : Config ι Node Reply) (h : Exec (cutStart E s job stop) log c) :
    (∀ i, ¬ hasEnded (c.threads i) → ∃ j, CanStep c j) ∧
    (∀ i, (log.filter (fun e => e.thread = i)).length ≤ 28) ∧
    ((∀ i, hasEnded (c.threads i)) → c.shared.held = false) := by
  refine ⟨(cut_owned h).progress, fun i => ?_, fun hall => ?_⟩
  · exact (exec_within h (cut_sat (P := fun p => Within p 28) (fun i => (within_job E (job i)).mono (by omega))
      (fun k _ i => Within.cut false k (within_job E (job i)))) i).1
  · rcases cut_owned h with ⟨h1, _⟩ | ⟨_, k, h2, _⟩
    · exact h1
    · obtain ⟨o, ho⟩ := hall k
      rw [ho] at h2
      cases h2

/-- The chain of an open node as it should be. -/
def Intact (m : MainChain) : Prop :=
  (∀ q : U256, q.val < m.getHeight.val → ∃ b : Block, m.findRawByHeight q = some b.dump ∧ b.info.height = q) ∧
  (∀ q : U256, m.getHeight.val < q.val → m.findRawByHeight q = none) ∧
  ∃ b : Block, m.getLastRawBlock = .ok (some b.dump) ∧ b.info.height.val + 1 = m.getHeight.val

theorem intact_of_keeps {m : MainChain} {b : Block} {bs : List Block} (h : m.chain.Keeps (b :: bs)) : Intact m := by
  have hlow : ∀ q : U256, q.val < m.getHeight.val →
      ∃ b : Block, m.findRawByHeight q = some b.dump ∧ b.info.height = q := fun q hq =>
    ⟨_, Keeps.findRaw h q hq, U256.ext (h.heights q.val (by rw [h.len]; exact hq))⟩
  refine ⟨hlow, fun q hq => ?_, ?_⟩
  · unfold MainChain.findRawByHeight Chain.findRawByHeight
    exact if_pos hq
  · have hpos : 1 ≤ m.chain.height.val := by
      have := h.len
      simp at this
      omega
    have hsub := lastIndex (h := m.chain.height) hpos
    obtain ⟨b, h1, h2⟩ := hlow ⟨m.chain.height.val - 1, Nat.lt_of_le_of_lt (Nat.sub_le _ _) m.chain.height.lt⟩
      (by show _ - 1 < m.chain.height.val; omega)
    refine ⟨b, ?_, ?_⟩
    · unfold MainChain.getLastRawBlock
      rw [hsub, Outcome.ok_bind, h1]
    · rw [h2]; show m.chain.height.val - 1 + 1 = m.chain.height.val; omega

/-- C146. On a node with any history, also one with calls cut short, the chain stays intact at every moment, and between any
two moments it does not shrink and loses or changes no block below its height. -/
theorem C146_intact [DecidableEq ι] (E : Env) (s : Tree) (hr : FaultyRun E s) (job : ι → Job)
    (stop : ι → Option (Nat × Outcome Reply)) (log : List (Event ι Node)) (c : Config ι Node Reply)
    (h : Exec (cutStart E s job stop) log c) :
    Intact c.shared.data.main ∧
    ∀ e ∈ log, e.before.data.main.getHeight.val ≤ c.shared.data.main.getHeight.val ∧
      ∀ q : U256, q.val < e.before.data.main.getHeight.val →
        c.shared.data.main.findRawByHeight q = e.before.data.main.findRawByHeight q := by
  obtain ⟨new, hk⟩ := faultyLater_extends hr _ (fresh_holds E).keeps
  obtain ⟨h1, h2, -⟩ := cut_sorted h
  obtain ⟨new', hc⟩ := h1 _ hk
  refine ⟨intact_of_keeps hc, fun e he => ?_⟩
  obtain ⟨n1, hb⟩ := (h2 e he).1 _ hk
  obtain ⟨n2, hc⟩ := Chain.extends_preord.trans (cut_steps h e he).extends (h2 e he).2 _ hb
  have hlen := hc.len
  rw [List.length_append, hb.len] at hlen
  refine ⟨?_, fun q hq => ?_⟩
  · show e.before.data.main.chain.height.val ≤ c.shared.data.main.chain.height.val
    omega
  · have hq' : q.val < e.before.data.main.chain.height.val := hq
    unfold MainChain.findRawByHeight
    rw [Keeps.findRaw hc q (by omega), Keeps.findRaw hb q hq', List.getElem_append_left]

/-- C146. Every balance stays readable, every stored transaction stays there, can be found and parsed. -/
theorem C146_stores [DecidableEq ι] (E : Env) (s : Tree) (hr : FaultyRun E s) (job : ι → Job)
    (stop : ι → Option (Nat × Outcome Reply)) (log : List (Event ι Node)) (c : Config ι Node Reply)
    (h : Exec (cutStart E s job stop) log c) :
    (∃ f, Shows c.shared.data.summary f) ∧ (∃ g, Shows c.shared.data.gas g) ∧
    (∀ x, c.shared.data.main.getTransaction E x = .ok none ∨ ∃ t, c.shared.data.main.getTransaction E x = .ok (some t)) ∧
    ∀ (x : Hash) (raw : Bytes), s.main.getTransactionRaw x = some raw →
      c.shared.data.main.getTransactionRaw x = some raw ∨
      ∃ raw', c.shared.data.main.getTransactionRaw x = some raw' ∧ raw' ≠ raw ∧ E.sha256 raw' = E.sha256 raw := by
  have hi : StoreInv E s := faultyLife_storeInv (faultyRun_life hr)
  obtain ⟨h1, -, -⟩ := h.sorted (R := Sound E) (sound_refl E)
    (fun _ _ _ a b => ⟨fun h => b.1 (a.1 h), txsGrow_preord.trans a.2 b.2⟩) (cut_sound h)
  have hc : StoreInv E c.shared.data := h1.1 hi
  refine ⟨⟨_, shows_amt hc.summary.1⟩, ⟨_, shows_amt hc.gas.1⟩, fun x => ?_, fun x raw hx => ?_⟩
  · cases hx : c.shared.data.main.getTransactionRaw x with
    | none => left; unfold MainChain.getTransaction; rw [hx]
    | some raw =>
      obtain ⟨_, t, rfl⟩ := hc.txs.1 _ _ hx
      exact .inr ⟨_, getTransaction_dump hx⟩
  · have hg := h1.2 x.val (by
      have : s.main.transactions.get x.val = some raw := hx
      change (s.main.transactions.get x.val).isSome
      rw [this]; rfl)
    obtain ⟨raw', hraw'⟩ := Option.isSome_iff_exists.mp hg
    have h' : c.shared.data.main.getTransactionRaw x = some raw' := hraw'
    by_cases e : raw' = raw
    · exact .inl (e ▸ h')
    · exact .inr ⟨raw', h', e, Subtype.ext ((hc.txs.1 _ _ h').1.symm.trans (hi.txs.1 _ _ hx).1)⟩

/-- C146. While the threads send transactions, flush and use main chain handles, wherever their calls are cut short, the sum
of all coin balances stays what it was. -/
theorem C146_coins [DecidableEq ι] (E : Env) (s : Tree) (hr : FaultyRun E s) (call : ι → Node.SharedCall)
    (stop : ι → Option (Nat × Outcome Reply)) (log : List (Event ι Node)) (c : Config ι Node Reply)
    (h : Exec (cutStart E s (fun i => .node (.shared (call i))) stop) log c)
    (f : Spec.Accounts) (n : Nat) (hf : Shows s.summary f) (hn : Spec.Total f n) :
    ∃ f', Shows c.shared.data.summary f' ∧ Spec.Total f' n := by
  have hd := (faultyLife_storeInv (faultyRun_life hr)).summary.1
  have hs := (total_iff hd hf).mp hn
  have hg : ∀ i, (Job.prog E (.node (.shared (call i)))).Guar (KeepsSupply n) := fun i =>
    .bind (.bind (keepsSupply_call n E (call i)) fun _ => Prog.guar_pure _) fun _ => Prog.guar_pure _
  obtain ⟨h1, -⟩ := h.always (J := fun s => s.data.summary.cur.Dec ∧ s.data.summary.cur.supply = n) ⟨hd, hs.symm⟩
    (cut_sat (P := fun p => p.Guar (KeepsSupply n)) hg
      (fun k _ i => Guar.cut (fun _ h => h) false k (hg i)))
  exact ⟨_, shows_amt h1.1, (total_iff h1.1 (shows_amt h1.1)).mpr h1.2.symm⟩

/-- The lookup in a thread. -/
def Job.IsLookup (l : Node.Lookup) (k : Job) : Prop := k = .node (.lookup l) ∨ k = .call (.lookup l)

theorem hist_job {E : Env} {l : Node.Lookup} {k : Job} (hk : k.IsLookup l) :
    Prog.Hist (fun _ => True) (fun hist o => ∃ o', o = (o' >>= fun r => .ok (.block r)) ∧ Saw l hist o') (k.prog E) [] := by
  have key : Prog.Hist (fun _ => True) (fun hist o => ∃ o', o = (o' >>= fun r => .ok (.block r)) ∧ Saw l hist o')
      (l.prog >>= fun r => (pure (.block r) : Prog Node Reply)) [] := by
    refine Prog.Hist.bind (P := Saw l) (fun hist a h => ?_) ?_ ?_ ?_ (hist_lookup l)
    · exact ⟨.ok a, rfl, h⟩
    · exact fun _ e h => ⟨.err e, rfl, h⟩
    · exact fun _ e h => ⟨.panic e, rfl, h⟩
    · exact fun _ h => ⟨.ub, rfl, h⟩
  rcases hk with rfl | rfl <;> exact key

/-- C146. A lookup that is not itself cut short is answered as if no call had been: a block below the height when the lookup
began is found, and so is the last one. -/
theorem C146_lookup [DecidableEq ι] (E : Env) (s : Tree) (hr : FaultyRun E s) (job : ι → Job)
    (stop : ι → Option (Nat × Outcome Reply)) (log : List (Event ι Node)) (c : Config ι Node Reply)
    (h : Exec (cutStart E s job stop) log c) (i : ι) (hi : stop i = none) (o : Outcome Reply)
    (ho : c.threads i = .done o) :
    (∀ k : U256, (job i).IsLookup (.byHeight k) → ∃ e, log.find? (fun e => e.thread = i) = some e ∧
      (k.val < e.before.data.main.getHeight.val → o = .ok (.block (e.before.data.main.findRawByHeight k)))) ∧
    ((job i).IsLookup .last → ∃ e d, log.find? (fun e => e.thread = i) = some e ∧ o = .ok (.block (some d)) ∧
      e.before.data.main.getLastRawBlock = .ok (some d)) := by
  obtain ⟨bs0, hk⟩ := faultyLater_extends hr _ (fresh_holds E).keeps
  obtain ⟨-, hso, hpw⟩ := cut_sorted h
  have hown := own_sorted (R := fun a b => a.data.main.chain.Extends b.data.main.chain) i hpw
  have hmem : ∀ n ∈ ownSteps i log, ∃ bs, n.1.data.main.chain.Keeps (genesis E :: bs) ∧
      n.1.data.main.chain.Extends n.2.data.main.chain := by
    intro n hn
    obtain ⟨bs, hb⟩ := (hso _ (mem_ownSteps hn)).1 _ hk
    exact ⟨_, hb, (cut_steps h _ (mem_ownSteps hn)).extends⟩
  have hist : ∀ l, (job i).IsLookup l → ∃ o', o = (o' >>= fun r => .ok (.block r)) ∧ Saw l (ownSteps i log) o' := by
    intro l hl
    have := (h.hist (J := fun _ => True)
      (P := fun j l' o' => j = i → ∃ o'', o' = (o'' >>= fun r => .ok (.block r)) ∧ Saw l l' o'') trivial (fun j => by
      by_cases hj : j = i
      · subst hj
        change Prog.Hist _ _ (Node.mayCut (stop j) _) []
        rw [hi]
        exact (hist_job hl).mono fun _ _ h _ => h
      · exact (Prog.hist_true _ _).mono fun _ _ _ e => absurd e hj)).2.2 i
    rw [ho] at this
    exact this rfl
  have later : ∀ {n1 n2 : Node} {k : U256}, (∃ bs, n1.data.main.chain.Keeps (genesis E :: bs)) →
      n1.data.main.chain.Extends n2.data.main.chain → k.val < n1.data.main.chain.height.val →
      n2.data.main.chain.blocks.get k.toBE.val = n1.data.main.findRawByHeight k := by
    intro n1 n2 k ⟨bs, h1⟩ h12 hlt
    obtain ⟨new, h2⟩ := h12 _ h1
    have e1 : n1.data.main.findRawByHeight k = _ := Keeps.findRaw h1 k hlt
    have hl := h1.len
    have e2 := h2.stored k.val (by rw [List.length_append]; omega)
    rw [e1]
    refine e2.trans ?_
    rw [List.getElem_append_left (by omega)]
  refine ⟨fun k hl => ?_, fun hl => ?_⟩
  · obtain ⟨o', rfl, n1, -, hsaw⟩ := hist _ hl
    generalize hlist : ownSteps i log = hh at hsaw hown hmem
    rcases hsaw with ⟨rfl, hlt, rfl⟩ | ⟨n2, rfl, hle, rfl⟩
    · obtain ⟨e, he, hb⟩ := first_event hlist
      refine ⟨e, he, fun hk' => ?_⟩
      rw [hb] at hk'
      have hk' : k.val < n1.data.main.chain.height.val := hk'
      omega
    · obtain ⟨e, he, hb⟩ := first_event hlist
      refine ⟨e, he, fun hk' => ?_⟩
      rw [hb] at hk' ⊢
      simp only [List.nil_append, List.pairwise_cons] at hown
      obtain ⟨bs, h1, -⟩ := hmem (n1, n1) (by simp)
      have := later ⟨bs, h1⟩ (hown.1 (n2, n2) (by simp)) hk'
      simp only at this ⊢
      rw [this]
      rfl
  · obtain ⟨o', rfl, n1, -, hm1, hsaw⟩ := hist _ hl
    generalize hlist : ownSteps i log = hh at hsaw hown hmem hm1
    obtain ⟨bs, h1, -⟩ := hmem _ hm1
    have hlen := h1.len
    simp only [List.length_cons] at hlen
    rcases hsaw with h0 | ⟨k, hk', n2, -, ⟨rfl, hlt, rfl⟩ | ⟨n3, rfl, hle, rfl⟩⟩
    · omega
    · simp only [List.cons_append, List.nil_append, List.pairwise_cons] at hown
      obtain ⟨new, h2⟩ := (hown.1 (n2, n2) (by simp)) _ h1
      have := h2.len
      simp only [List.length_append, List.length_cons] at this
      omega
    · simp only [List.cons_append, List.nil_append, List.pairwise_cons] at hown
      obtain ⟨e, he, hb⟩ := first_event hlist
      have hkl : k.val < n1.data.main.chain.height.val := by omega
      have e3 := later (n2 := n3) ⟨bs, h1⟩ (hown.1 (n3, n3) (by simp)) hkl
      have hf : n1.data.main.findRawByHeight k = _ := Keeps.findRaw h1 k hkl
      refine ⟨e, ((genesis E :: bs)[k.val]'(by simp only [List.length_cons]; omega)).dump, he, ?_, ?_⟩
      rotate_left
      · rw [hb]
        unfold MainChain.getLastRawBlock
        rw [lastIndex (by show 1 ≤ n1.data.main.chain.height.val; omega), Outcome.ok_bind]
        have : (⟨n1.data.main.chain.height.val - 1, by have := n1.data.main.chain.height.lt; omega⟩ : U256) = k :=
          U256.ext (by simp only; omega)
        simp only [this]
        rw [hf]
      · rw [e3, hf]
        rfl

/-- The addition of a block in a thread. -/
def Job.IsAdd (b : Block) (k : Job) : Prop := k = .node (.shared (.handle (.addBlock b))) ∨ k = .call (.add b)

/-- C146. A block whose addition was not cut short and succeeded is in the chain, whatever additions of other blocks were cut
short before, meanwhile and since. -/
theorem C146_accepted [DecidableEq ι] (E : Env) (s : Tree) (job : ι → Job)
    (stop : ι → Option (Nat × Outcome Reply)) (log : List (Event ι Node)) (c : Config ι Node Reply)
    (h : Exec (cutStart E s job stop) log c) (i : ι) (hi : stop i = none) (b : Block) (hb : (job i).IsAdd b)
    (r : Reply) (ho : c.threads i = .done (.ok r)) :
    s.main.getHeight.val ≤ b.info.height.val ∧ b.info.height.val < c.shared.data.main.getHeight.val ∧
    c.shared.data.main.findRawByHeight b.info.height = some b.dump := by
  have hsafe : Mindful E (Took b) ((job i).prog E) none [] := by
    have hp : ∀ (r : Reply) (past : List Chain), Took b () past → Mindful E (Took b) (.done (.ok r)) none past :=
      fun r past h => ⟨rfl, fun _ _ => h⟩
    rcases hb with hb | hb
    · rw [hb]
      refine Mindful.bind (Q := Took b) (Mindful.bind (Q := Took b) (mindful_addBlock E b []) fun _ past h => ?_) fun _ past h => ?_
      · exact ⟨rfl, fun _ _ => h⟩
      · exact hp _ past h
    · rw [hb]
      exact Mindful.bind (mindful_addBlock E b []) fun _ past h => hp _ past h
  obtain ⟨hg, hl⟩ := exec_guarded (E := E) (Q := fun j => if j = i then Took b else anyEnd) h ⟨onward_refl s.main.chain, .inl ⟨rfl, fun j => by
    by_cases hj : j = i
    · subst hj
      beta_reduce
      rw [if_pos rfl]
      refine ⟨[], by simp, ?_⟩
      change Mindful E _ (Node.mayCut (stop j) _) none []
      rw [hi]
      exact hsafe
    · beta_reduce
      rw [if_neg hj]
      exact cut_sat (P := fun p => Keeping E anyEnd s.main.chain s.main.chain p none)
        (fun i => ⟨[], by simp, (mindful_parts E).job (job i) []⟩)
        (fun k _ i => ⟨[], by simp, Mindful.cut (m := none) k ((mindful_parts E).job (job i) [])⟩) j⟩⟩
  have hend : ∃ m, Keeping E (Took b) s.main.chain c.shared.data.main.chain (.done (.ok r)) m := by
    rcases hg.2 with ⟨_, hg⟩ | ⟨_, k, x, _, hg, hg'⟩
    · have := hg i
      beta_reduce at this
      rw [ho, if_pos rfl] at this
      exact ⟨_, this⟩
    · by_cases hik : i = k
      · subst hik
        beta_reduce at hg
        rw [ho, if_pos rfl] at hg
        exact ⟨_, hg⟩
      · have := hg' i hik
        beta_reduce at this
        rw [ho, if_pos rfl] at this
        exact ⟨_, this⟩
  obtain ⟨m, past, hpast, -, hq⟩ := hend
  obtain ⟨x, hx, hxh, hxb, y, hy, hyh⟩ := hq r rfl
  obtain ⟨-, k1, k2⟩ := (hpast x hx).2
  have hlow := (hpast y hy).1.2.1
  rw [hyh] at hlow
  have hlt : b.info.height.val < c.shared.data.main.chain.height.val := by omega
  refine ⟨hlow, hlt, ?_⟩
  unfold MainChain.findRawByHeight Chain.findRawByHeight
  rw [if_neg (by omega), k2 _ (by omega)]
  exact hxb

/-- Two threads add blocks of the same height; the call of the first is cut short with the lock in its hand and its block
stored. The second thread's call succeeds, and its block is the one found. -/
example (E : Env) (s : Tree) (a b : Block) (ha : a.info.height = s.main.getHeight) (hb : b.info.height = s.main.getHeight)
    (hm : s.main.getHeight.val + 1 < U256.size) (e : Err) :
    ∃ log c, Exec (cutStart E s (fun i : Bool => .call (.add (if i then a else b)))
        (fun i => if i then some (3, .err e) else none)) log c ∧
      c.threads true = .done (.err e) ∧ c.threads false = .done (.ok .nothing) ∧ c.shared.held = false ∧
      c.shared.data.main.findRawByHeight s.main.getHeight = some b.dump := by
  have h0 : Exec (cutStart E s (fun i : Bool => .call (.add (if i then a else b)))
        (fun i => if i then some (3, .err e) else none)) [] _ := .refl
  obtain ⟨t, ht⟩ : ∃ t : Tree, t = { s with main := { s.main with chain := s.main.chain.put1 a.dump } } := ⟨_, rfl⟩
  have hth : t.main.getHeight = s.main.getHeight := by rw [ht]; rfl
  have r1 : Prog.Runs (Node.cut (.err e) 3 false (Job.prog E (.call (.add a)))) ⟨s, false⟩ (.done (.err e)) ⟨t, false⟩ := by
    refine .step (s' := ⟨s, true⟩) rfl (.step (s' := ⟨s, true⟩) rfl ?_)
    have key : Prog.Runs (Node.cut (.err e) 1 true (afterRead E a s.main.chain.height >>= fun _ => (pure .nothing : Prog Node Reply)))
        ⟨s, true⟩ (.done (.err e)) ⟨t, false⟩ := by
      unfold afterRead
      rw [if_neg (not_not.mpr (show a.info.height = s.main.chain.height from ha))]
      refine .step (s' := ⟨t, true⟩) ?_ (.step (s' := ⟨t, false⟩) rfl .refl)
      rw [ht]
      rfl
    exact key
  obtain ⟨l1, h1⟩ := h0.runs true r1
  obtain ⟨f1, f2, -⟩ := addBlock_trace E t b (hb.trans hth.symm) (by rw [hth]; exact hm)
  have r2 : Prog.Runs (Job.prog E (.call (.add b))) ⟨t, false⟩ (.done (.ok .nothing))
      ⟨((Op.addBlock b).run E t).final, false⟩ := by
    have := Node.addBlock_impl E b t
    unfold Node.ImplAt at this
    have e1 : (Tree.onMain (MainChain.addBlock E b) t).out = .ok () := f1
    rw [e1] at this
    exact Prog.runs_bind_ok this _
  obtain ⟨l2, h2⟩ := h1.runs false r2
  refine ⟨_, _, h2, ?_, ?_, rfl, ?_⟩
  · simp
  · simp
  · have hx : ((Op.addBlock b).run E t).final.main.findRawByHeight t.main.getHeight = some b.dump := ?_
    · rw [hth] at hx
      exact hx
    rw [f2]
    unfold MainChain.findRawByHeight Chain.findRawByHeight
    rw [if_neg (by simp [Chain.put3, MainChain.getHeight])]
    simp [Chain.put3, MainChain.getHeight]

end BCT.Props
