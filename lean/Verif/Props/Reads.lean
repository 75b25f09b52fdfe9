import Mathlib.Data.List.Forall2
import Verif.Props.Frame
/-!
# C115: which calls can depend on what
-/

namespace BCT.Props
open BCT

/-- The parts a call may read, from what each call is for. A flush writes the height and the difficulty to the config
file; the block of an epoch flushes, and commits to coins and gas. -/
def mayRead : Op → Part → Prop
  | .addBlock _, p => p = .height
  | .addNewBlock .., p => p = .height
  | .addTransaction _, _ => False
  | .addTransactions _, _ => False
  | .addAmount .., p => p = .coins
  | .setAmount .., _ => False
  | .subAmount .., p => p = .coins
  | .sendAmount .., p => p = .coins
  | .addGas .., p => p = .gas
  | .subGas .., p => p = .gas
  | .sendGas .., p => p = .gas
  | .sendTransaction _, p => p = .blocks ∨ p = .height ∨ p = .coins ∨ p = .gas
  | .emitMain .., p => p = .blocks ∨ p = .height ∨ p = .difficulty ∨ p = .coins ∨ p = .gas
  | .emitDerivative _ f _, p => p = .blocks ∨ p = .references ∨ p = .height ∨ p = .derivBlocks f ∨ p = .derivConfig f ∨
      p = .derivState f
  | .getDerivativeChain o, p => p = .blocks ∨ p = .height ∨ p = .derivConfig o ∨ p = .derivState o
  | .derivAddBlock o _, p => p = .blocks ∨ p = .height ∨ p = .derivConfig o ∨ p = .derivState o
  | .derivFlush o, p => p = .blocks ∨ p = .height ∨ p = .derivConfig o ∨ p = .derivState o
  | .mainFlush, p => p = .height ∨ p = .difficulty
  | .flush, p => p = .height ∨ p = .difficulty

/-- The two nodes have the same contents in all parts in `Q`. -/
def Agree (Q : Part → Prop) (s t : Tree) : Prop := ∀ p, Q p → p.Same s t

/-- Two runs of a call cannot be told apart by looking at the parts in `Q`. -/
structure Alike (Q : Part → Prop) {α : Type} (r r' : Res Tree α) : Prop where
  out : r'.out = r.out
  final : Agree Q r.final r'.final
  trace : List.Forall₂ (Agree Q) r.trace r'.trace

/-- What the call does to the parts in `Q` depends on these parts only. -/
def Dep (Q : Part → Prop) {α : Type} (x : Act Tree α) : Prop := ∀ s t, Agree Q s t → Alike Q (x s) (x t)

variable {Q : Part → Prop} {α β : Type}

theorem dep_pure (a : α) : Dep Q (pure a : Act Tree α) := fun _ _ h => ⟨rfl, h, .nil⟩

theorem dep_lift (o : Outcome α) : Dep Q (Act.lift o : Act Tree α) := fun _ _ h => ⟨rfl, h, .nil⟩

theorem dep_step {g : Tree → Tree} (hg : ∀ s t, Agree Q s t → Agree Q (g s) (g t)) : Dep Q (Act.step g) := fun s t h =>
  ⟨rfl, hg s t h, .cons (hg s t h) .nil⟩

theorem forall₂_append {γ δ : Type} {R : γ → δ → Prop} : ∀ {a : List γ} {b : List δ} {c : List γ} {d : List δ},
    List.Forall₂ R a b → List.Forall₂ R c d → List.Forall₂ R (a ++ c) (b ++ d)
  | _, _, _, _, .nil, h => h
  | _, _, _, _, .cons h t, h' => .cons h (forall₂_append t h')

theorem dep_bind {x : Act Tree α} {f : α → Act Tree β} (hx : Dep Q x) (hf : ∀ a, Dep Q (f a)) : Dep Q (x >>= f) := by
  intro s t h
  obtain ⟨h1, h2, h3⟩ := hx s t h
  simp only [Act.bind_def, Act.bind]
  rw [h1]
  cases (x s).out with
  | ok a =>
    obtain ⟨g1, g2, g3⟩ := hf a _ _ h2
    exact ⟨g1, g2, forall₂_append h3 g3⟩
  | err e => exact ⟨rfl, h2, h3⟩
  | panic e => exact ⟨rfl, h2, h3⟩
  | ub => exact ⟨rfl, h2, h3⟩

theorem dep_void {x : Act Tree α} (hx : Dep Q x) : Dep Q x.void := by
  intro s t h
  obtain ⟨h1, h2, h3⟩ := hx s t h
  exact ⟨by simp only [Act.void_run]; rw [h1], h2, h3⟩

/-- A call that first looks at the state. -/
theorem dep_get {f : Tree → Act Tree β} (hf : ∀ s, Dep Q (f s)) (he : ∀ s t, Agree Q s t → f s = f t) :
    Dep Q (Act.get >>= f) := by
  intro s t h
  rw [Act.get_bind, Act.get_bind, he s t h]
  exact hf t s t h

theorem dep_forEach {l : List α} {f : α → Act Tree Unit} (hf : ∀ a, Dep Q (f a)) : Dep Q (Act.forEach l f) := by
  induction l with
  | nil => exact dep_pure ()
  | cons a l ih => exact dep_bind (hf a) fun _ => ih

/-! ### Main chain -/

theorem getLast_agree {s t : Tree} (hb : Part.blocks.Same s t) (hh : Part.height.Same s t) :
    t.main.getLastBlock = s.main.getLastBlock := by
  unfold MainChain.getLastBlock MainChain.getLastRawBlock MainChain.findRawByHeight Chain.findRawByHeight Db.get
  rw [hb, hh]

theorem dep_addBlock (E : Env) (b : Block) (hq : Q .height) : Dep Q (Tree.onMain (MainChain.addBlock E b)) := by
  intro s t h
  have hh : t.main.chain.height = s.main.chain.height := h _ hq
  unfold Tree.onMain MainChain.addBlock MainChain.onChain
  rw [Act.zoom_run, Act.zoom_run, Act.zoom_run, Act.zoom_run]
  have p1 : ∀ d, Agree Q { s with main := { s.main with chain := s.main.chain.put1 d } }
      { t with main := { t.main with chain := t.main.chain.put1 d } } := fun d p hp => by
    have := h p hp
    cases p <;> first | exact this | (simp only [Part.Same, Chain.put1, Db.insert, Db.commit] at this ⊢; rw [this, hh])
  have p2 : ∀ d, Agree Q { s with main := { s.main with chain := s.main.chain.put2 E d } }
      { t with main := { t.main with chain := t.main.chain.put2 E d } } := fun d p hp => by
    have := h p hp
    cases p <;> first | exact this | (simp only [Part.Same, Chain.put2, Db.insert, Db.commit] at this ⊢; rw [this, hh])
  by_cases hb : b.info.height = s.main.chain.height
  · have hb' : b.info.height = t.main.chain.height := by rw [hh]; exact hb
    by_cases hm : s.main.chain.height.val + 1 < U256.size
    · have hm' : t.main.chain.height.val + 1 < U256.size := by rw [hh]; exact hm
      have e1 := (congrArg (fun h => Chain.addBlock E h b.dump s.main.chain) hb).trans (Chain.addBlock_right (E := E) (dump := b.dump) hm)
      have e2 := (congrArg (fun h => Chain.addBlock E h b.dump t.main.chain) hb').trans (Chain.addBlock_right (E := E) (dump := b.dump) hm')
      have p3 : Agree Q { s with main := { s.main with chain := s.main.chain.put3 E b.dump ⟨s.main.chain.height.val + 1, hm⟩ } }
          { t with main := { t.main with chain := t.main.chain.put3 E b.dump ⟨t.main.chain.height.val + 1, hm'⟩ } } := fun p hp => by
        have := h p hp
        cases p <;> first | exact this |
          (simp only [Part.Same, Chain.put3, Db.insert, Db.commit] at this ⊢; rw [this, hh]) |
          (simp only [Part.Same, Chain.put3, hh])
      simp only [e1, e2]
      exact ⟨rfl, p3, .cons (p1 _) (.cons (p2 _) (.cons p3 .nil))⟩
    · have hm' : ¬ t.main.chain.height.val + 1 < U256.size := by rw [hh]; exact hm
      have e1 := (congrArg (fun h => Chain.addBlock E h b.dump s.main.chain) hb).trans (Chain.addBlock_max (E := E) (dump := b.dump) hm)
      have e2 := (congrArg (fun h => Chain.addBlock E h b.dump t.main.chain) hb').trans (Chain.addBlock_max (E := E) (dump := b.dump) hm')
      simp only [e1, e2]
      exact ⟨rfl, p2 _, .cons (p1 _) (.cons (p2 _) .nil)⟩
  · have hb' : b.info.height ≠ t.main.chain.height := by rw [hh]; exact hb
    simp only [Chain.addBlock_wrong hb, Chain.addBlock_wrong hb']
    exact ⟨rfl, h, .nil⟩

theorem dep_addTransaction (E : Env) (tx : Transaction) : Dep Q (Tree.onMain (MainChain.addTransaction E tx)) := by
  have : Tree.onMain (MainChain.addTransaction E tx) =
      Act.step (fun t => { t with main := { t.main with transactions := t.main.transactions.insert (E.sha256 tx.dump).val tx.dump } }) := rfl
  rw [this]
  refine dep_step fun s t h p hp => ?_
  have := h p hp
  cases p <;> first | exact this | (simp only [Part.Same, Db.insert, Db.commit] at this ⊢; rw [this])

theorem dep_addTransactions (E : Env) (ts : List Transaction) : Dep Q (Tree.onMain (MainChain.addTransactions E ts)) := by
  unfold Tree.onMain MainChain.addTransactions
  rw [Act.zoom_forEach onMain_lens]
  exact dep_forEach fun t => dep_addTransaction E t

theorem dep_writeConfig {f : MainChain → Bytes} (hf : ∀ s t, Agree Q s t → f t.main = f s.main) :
    Dep Q (Tree.onMain (MainChain.writeConfig f)) := by
  have : Tree.onMain (MainChain.writeConfig f) =
      Act.step (fun t => { t with main := { t.main with chain := { t.main.chain with config := some (f t.main) } } }) := rfl
  rw [this]
  refine dep_step fun s t h p hp => ?_
  have := h p hp
  cases p <;> first | exact this | (simp only [Part.Same]; rw [hf s t h])

theorem dep_mainFlush (hq : Q .height) (hd : Q .difficulty) : Dep Q (Tree.onMain MainChain.flush) := by
  unfold Tree.onMain MainChain.flush MainChain.dumpConfig
  simp only [Act.zoom_bind onMain_lens]
  have hh : ∀ s t, Agree Q s t → t.main.chain.height = s.main.chain.height := fun s t h => h _ hq
  have hd : ∀ s t, Agree Q s t → t.main.chain.difficulty = s.main.chain.difficulty := fun s t h => h _ hd
  have st : ∀ g : MainChain → MainChain, (∀ s t, Agree Q s t → Agree Q { s with main := g s.main } { t with main := g t.main }) →
      Dep Q ((Act.step g).zoom (·.main) (fun m (t : Tree) => { t with main := m })) := fun g hg => dep_step hg
  refine dep_bind (dep_bind (dep_writeConfig fun _ _ _ => rfl) fun _ => dep_bind (dep_writeConfig fun s t h => ?_) fun _ =>
    dep_writeConfig fun s t h => ?_) fun _ => dep_bind (st _ ?_) fun _ => dep_bind (st _ ?_) fun _ => st _ ?_
  · rw [hh s t h]
  · rw [hh s t h, hd s t h]
  all_goals
    intro s t h p hp
    have := h p hp
    cases p <;> exact this

theorem dep_flush (hq : Q .height) (hd : Q .difficulty) : Dep Q Tree.flush := by
  unfold Tree.flush
  refine dep_bind (dep_mainFlush hq hd) fun _ => dep_bind (dep_step ?_) fun _ => dep_bind (dep_step ?_) fun _ =>
    dep_bind (dep_step ?_) fun _ => dep_step ?_
  all_goals
    intro s t h p hp
    have := h p hp
    cases p <;> exact this

theorem dep_rotate (hq : Q .height) (hd : Q .difficulty) (hc : Q .coins) (hg : Q .gas) : Dep Q Tree.rotateDbs := by
  unfold Tree.rotateDbs
  refine dep_bind (dep_flush hq hd) fun _ => dep_bind (dep_step ?_) fun _ => dep_bind (dep_step ?_) fun _ =>
    dep_bind (dep_step ?_) fun _ => dep_step ?_
  all_goals
    intro s t h p hp
    have := h p hp
    cases p <;> first | exact this | rfl | exact h _ hc | exact h _ hg

/-! ### Balances -/

theorem transact_dep {closure : KV → Outcome KV} {d d' : Db} (h : d'.cur = d.cur) :
    (∃ m, (Ledger.transact closure d) = ⟨.ok (), d.commit (fun _ => m), [d.commit (fun _ => m)]⟩ ∧
      (Ledger.transact closure d') = ⟨.ok (), d'.commit (fun _ => m), [d'.commit (fun _ => m)]⟩) ∨
    ∃ o : Outcome Unit, (Ledger.transact closure d) = ⟨o, d, []⟩ ∧ (Ledger.transact closure d') = ⟨o, d', []⟩ := by
  cases hc : closure d.cur with
  | ok m => exact .inl ⟨m, Ledger.transact_ok hc, Ledger.transact_ok (h ▸ hc)⟩
  | err e => exact .inr ⟨_, Ledger.transact_err hc, Ledger.transact_err (h ▸ hc)⟩
  | panic e => exact .inr ⟨_, Ledger.transact_panic hc, Ledger.transact_panic (h ▸ hc)⟩
  | ub => exact .inr ⟨_, Ledger.transact_ub hc, Ledger.transact_ub (h ▸ hc)⟩

theorem dep_coins (closure : KV → Outcome KV) (hq : Q .coins) : Dep Q (Tree.onSummary (Ledger.transact closure)) := by
  intro s t h
  unfold Tree.onSummary
  rw [Act.zoom_run, Act.zoom_run]
  rcases transact_dep (closure := closure) (h _ hq) with ⟨m, e1, e2⟩ | ⟨o, e1, e2⟩
  · rw [e1, e2]
    have : Agree Q { s with summary := s.summary.commit (fun _ => m) } { t with summary := t.summary.commit (fun _ => m) } := by
      intro p hp
      have := h p hp
      cases p <;> first | exact this | rfl
    exact ⟨rfl, this, .cons this .nil⟩
  · rw [e1, e2]; exact ⟨rfl, h, .nil⟩

theorem dep_gas (closure : KV → Outcome KV) (hq : Q .gas) : Dep Q (Tree.onGas (Ledger.transact closure)) := by
  intro s t h
  unfold Tree.onGas
  rw [Act.zoom_run, Act.zoom_run]
  rcases transact_dep (closure := closure) (h _ hq) with ⟨m, e1, e2⟩ | ⟨o, e1, e2⟩
  · rw [e1, e2]
    have : Agree Q { s with gas := s.gas.commit (fun _ => m) } { t with gas := t.gas.commit (fun _ => m) } := by
      intro p hp
      have := h p hp
      cases p <;> first | exact this | rfl
    exact ⟨rfl, this, .cons this .nil⟩
  · rw [e1, e2]; exact ⟨rfl, h, .nil⟩

theorem dep_setAmount (o : Bytes) (a : U256) : Dep Q (Tree.setAmount o a) := by
  intro s t h
  unfold Tree.setAmount Tree.onSummary
  rw [Act.zoom_run, Act.zoom_run, Ledger.set_run, Ledger.set_run]
  have : Agree Q { s with summary := s.summary.insert o (Ledger.encode a) } { t with summary := t.summary.insert o (Ledger.encode a) } := by
    intro p hp
    have := h p hp
    cases p <;> first | exact this | (simp only [Part.Same, Db.insert, Db.commit] at this ⊢; rw [this])
  exact ⟨rfl, this, .cons this .nil⟩

theorem dep_sendAmount (a b : Bytes) (c : U256) (hq : Q .coins) : Dep Q (Tree.sendAmount a b c) := by
  unfold Tree.sendAmount
  split
  · exact dep_pure ()
  · exact dep_coins _ hq

theorem dep_sendTransaction (E : Env) (tx : Transaction) (h1 : Q .blocks) (h2 : Q .height) (h3 : Q .coins) (h4 : Q .gas) :
    Dep Q (Tree.sendTransaction E tx) := by
  unfold Tree.sendTransaction
  refine dep_get (fun t => ?_) fun s t h => ?_
  · refine dep_bind (dep_lift _) fun _ => dep_bind (dep_lift _) fun _ => dep_bind (dep_lift _) fun _ => ?_
    split
    · exact dep_lift _
    · refine dep_bind (dep_lift _) fun _ => dep_bind (dep_lift _) fun _ => dep_bind (dep_lift _) fun _ =>
        dep_bind (dep_lift _) fun _ => ?_
      split
      · exact dep_lift _
      · exact dep_bind (dep_addTransaction E tx) fun _ => dep_bind (dep_sendAmount _ _ _ h3) fun _ => dep_gas _ h4
  · have e1 : t.getGas tx.sender = s.getGas tx.sender := by
      unfold Tree.getGas Db.get; rw [show t.gas.cur = s.gas.cur from h _ h4]
    have e2 : t.getAmount tx.sender = s.getAmount tx.sender := by
      unfold Tree.getAmount Db.get; rw [show t.summary.cur = s.summary.cur from h _ h3]
    have e3 := getLast_agree (h _ h1) (h _ h2)
    simp only [e1, e2, e3]

theorem dep_emitMain (E : Env) (pow : BytesN 32) (f : Address) (txs : List Hash) (ts : UInt64) (h1 : Q .blocks)
    (h2 : Q .height) (h3 : Q .difficulty) (h4 : Q .coins) (h5 : Q .gas) : Dep Q (Tree.emitMain E pow f txs ts) := by
  unfold Tree.emitMain
  refine dep_get (fun t => ?_) fun s t h => ?_
  · refine dep_bind (dep_lift _) fun _ => dep_bind (dep_lift _) fun _ => dep_bind (dep_lift _) fun _ => ?_
    split
    · exact dep_lift _
    · refine dep_bind (dep_lift _) fun _ => dep_bind (dep_lift _) fun _ => dep_bind (dep_lift _) fun _ =>
        dep_bind ?_ fun _ => dep_bind (dep_addBlock E _ h2) fun _ => dep_pure _
      split
      · split
        · exact dep_lift _
        · exact dep_bind (dep_lift _) fun _ => dep_bind (dep_rotate h2 h3 h4 h5) fun _ =>
            dep_bind (dep_setAmount _ _) fun _ => dep_pure _
      · split
        · exact dep_lift _
        · exact dep_bind (dep_lift _) fun _ => dep_pure _
  · have e1 := getLast_agree (h _ h1) (h _ h2)
    have e2 : t.summarize E = s.summarize E := by
      unfold Tree.summarize Db.get
      rw [show t.summary.cur = s.summary.cur from h _ h4, show t.gas.cur = s.gas.cur from h _ h5]
    simp only [e1, e2]

/-! ### Derivative chains -/

theorem agree_put {o : Address} {c c' : DerivativeChain} {s t : Tree} (h : Agree Q s t)
    (h1 : Q (.derivBlocks o) → c'.chain.blocks.cur = c.chain.blocks.cur ∧
      c'.chain.heightReference.cur = c.chain.heightReference.cur)
    (h2 : Q (.derivConfig o) → c'.chain.config = c.chain.config)
    (h3 : Q (.derivState o) → c'.chain.height = c.chain.height ∧ c'.chain.difficulty = c.chain.difficulty ∧
      c'.genesisHash = c.genesisHash) : Agree Q (Tree.putHandle o c s) (Tree.putHandle o c' t) := by
  intro p hp
  have hs := h p hp
  cases p with
  | derivBlocks o' =>
    by_cases e : o' = o
    · subst e; simpa [Part.Same, Tree.putHandle] using h1 hp
    · have : hexEncode o'.val ≠ hexEncode o.val := fun h => e (hexEncode_address h)
      simpa [Part.Same, Tree.putHandle, this] using hs
  | derivConfig o' =>
    by_cases e : o' = o
    · subst e; simpa [Part.Same, Tree.putHandle] using h2 hp
    · have : hexEncode o'.val ≠ hexEncode o.val := fun h => e (hexEncode_address h)
      simpa [Part.Same, Tree.putHandle, this] using hs
  | derivState o' =>
    by_cases e : o' = o
    · subst e; simpa [Part.Same, Tree.putHandle] using h3 hp
    · simpa [Part.Same, Tree.putHandle, e] using hs
  | _ => exact hs

theorem dep_getDeriv (E : Env) (o : Address) (h1 : Q .blocks) (h2 : Q .height) (h3 : Q (.derivConfig o))
    (h4 : Q (.derivState o)) : Dep Q (Tree.getDerivativeChain E o) := by
  intro s t h
  have e1 : t.derivMem o = s.derivMem o := h _ h4
  have e2 := getLast_agree (h _ h1) (h _ h2)
  have e3 : (t.derivFiles (hexEncode o.val)).config = (s.derivFiles (hexEncode o.val)).config := h _ h3
  unfold Tree.getDerivativeChain
  rw [Act.get_bind, Act.get_bind, e1]
  split
  · exact ⟨rfl, h, .nil⟩
  · rw [e2]
    cases s.main.getLastBlock with
    | ok last =>
      cases last with
      | none => exact ⟨rfl, h, .nil⟩
      | some b =>
        show Alike Q
          ((Act.lift (DerivativeChain.new (b.hash E) (s.derivFiles (hexEncode o.val)).blocks
            (s.derivFiles (hexEncode o.val)).heightReference (s.derivFiles (hexEncode o.val)).config) >>=
            fun c => Act.step (Tree.putHandle o c)) s)
          ((Act.lift (DerivativeChain.new (b.hash E) (t.derivFiles (hexEncode o.val)).blocks
            (t.derivFiles (hexEncode o.val)).heightReference (t.derivFiles (hexEncode o.val)).config) >>=
            fun c => Act.step (Tree.putHandle o c)) t)
        unfold DerivativeChain.new
        rw [e3]
        cases DerivativeChain.readConfig (b.hash E) (s.derivFiles (hexEncode o.val)).config with
        | ok r =>
          have := agree_put (o := o) (c := ⟨⟨(s.derivFiles (hexEncode o.val)).blocks,
            (s.derivFiles (hexEncode o.val)).heightReference, r.1, r.2.1, (s.derivFiles (hexEncode o.val)).config⟩, r.2.2⟩)
            (c' := ⟨⟨(t.derivFiles (hexEncode o.val)).blocks,
            (t.derivFiles (hexEncode o.val)).heightReference, r.1, r.2.1, (s.derivFiles (hexEncode o.val)).config⟩, r.2.2⟩) h
            (fun hq => h _ hq) (fun _ => rfl) (fun _ => ⟨rfl, rfl, rfl⟩)
          exact ⟨rfl, this, .cons this .nil⟩
        | err e => exact ⟨rfl, h, .nil⟩
        | panic e => exact ⟨rfl, h, .nil⟩
        | ub => exact ⟨rfl, h, .nil⟩
    | err e => exact ⟨rfl, h, .nil⟩
    | panic e => exact ⟨rfl, h, .nil⟩
    | ub => exact ⟨rfl, h, .nil⟩

theorem handle_mem {s t : Tree} {o : Address} (h : Part.Same (.derivState o) s t) :
    (t.handle o).chain.height = (s.handle o).chain.height ∧ (t.handle o).chain.difficulty = (s.handle o).chain.difficulty ∧
    (t.handle o).genesisHash = (s.handle o).genesisHash := by
  have h : t.derivMem o = s.derivMem o := h
  simp only [Tree.handle, h, and_self]

theorem dep_derivAdd (E : Env) (o : Address) (b : DerivativeBlock) (hq : Q (.derivState o)) :
    Dep Q (Tree.onDeriv o (DerivativeChain.addBlock E b)) := by
  intro s t h
  obtain ⟨hh, hd, hg⟩ := handle_mem (h _ hq)
  unfold Tree.onDeriv DerivativeChain.addBlock DerivativeChain.onChain
  rw [Act.zoom_run, Act.zoom_run, Act.zoom_run, Act.zoom_run]
  have bl : Q (.derivBlocks o) → (t.handle o).chain.blocks.cur = (s.handle o).chain.blocks.cur ∧
      (t.handle o).chain.heightReference.cur = (s.handle o).chain.heightReference.cur := fun hq => h _ hq
  have cf : Q (.derivConfig o) → (t.handle o).chain.config = (s.handle o).chain.config := fun hq => h _ hq
  have p1 : ∀ d, Agree Q (Tree.putHandle o { s.handle o with chain := (s.handle o).chain.put1 d } s)
      (Tree.putHandle o { t.handle o with chain := (t.handle o).chain.put1 d } t) := fun d =>
    agree_put h (fun hq => ⟨by simp only [Chain.put1, Db.insert, Db.commit]; rw [(bl hq).1, hh], (bl hq).2⟩)
      (fun hq => cf hq) (fun _ => ⟨hh, hd, hg⟩)
  have p2 : ∀ d, Agree Q (Tree.putHandle o { s.handle o with chain := (s.handle o).chain.put2 E d } s)
      (Tree.putHandle o { t.handle o with chain := (t.handle o).chain.put2 E d } t) := fun d =>
    agree_put h (fun hq => ⟨by simp only [Chain.put2, Db.insert, Db.commit]; rw [(bl hq).1, hh],
      by simp only [Chain.put2, Db.insert, Db.commit]; rw [(bl hq).2, hh]⟩)
      (fun hq => cf hq) (fun _ => ⟨hh, hd, hg⟩)
  by_cases hb : b.defaultInfo.height = (s.handle o).chain.height
  · have hb' : b.defaultInfo.height = (t.handle o).chain.height := by rw [hh]; exact hb
    by_cases hm : (s.handle o).chain.height.val + 1 < U256.size
    · have hm' : (t.handle o).chain.height.val + 1 < U256.size := by rw [hh]; exact hm
      have e1 := (congrArg (fun h => Chain.addBlock E h b.dump (s.handle o).chain) hb).trans
        (Chain.addBlock_right (E := E) (dump := b.dump) hm)
      have e2 := (congrArg (fun h => Chain.addBlock E h b.dump (t.handle o).chain) hb').trans
        (Chain.addBlock_right (E := E) (dump := b.dump) hm')
      have p3 : Agree Q
          (Tree.putHandle o { s.handle o with chain := (s.handle o).chain.put3 E b.dump ⟨(s.handle o).chain.height.val + 1, hm⟩ } s)
          (Tree.putHandle o { t.handle o with chain := (t.handle o).chain.put3 E b.dump ⟨(t.handle o).chain.height.val + 1, hm'⟩ } t) :=
        agree_put h (fun hq => ⟨by simp only [Chain.put3, Db.insert, Db.commit]; rw [(bl hq).1, hh],
          by simp only [Chain.put3, Db.insert, Db.commit]; rw [(bl hq).2, hh]⟩)
          (fun hq => cf hq) (fun _ => ⟨by simp only [Chain.put3, hh], hd, hg⟩)
      simp only [e1, e2]
      exact ⟨rfl, p3, .cons (p1 _) (.cons (p2 _) (.cons p3 .nil))⟩
    · have hm' : ¬ (t.handle o).chain.height.val + 1 < U256.size := by rw [hh]; exact hm
      have e1 := (congrArg (fun h => Chain.addBlock E h b.dump (s.handle o).chain) hb).trans
        (Chain.addBlock_max (E := E) (dump := b.dump) hm)
      have e2 := (congrArg (fun h => Chain.addBlock E h b.dump (t.handle o).chain) hb').trans
        (Chain.addBlock_max (E := E) (dump := b.dump) hm')
      simp only [e1, e2]
      exact ⟨rfl, p2 _, .cons (p1 _) (.cons (p2 _) .nil)⟩
  · have hb' : b.defaultInfo.height ≠ (t.handle o).chain.height := by rw [hh]; exact hb
    simp only [Chain.addBlock_wrong hb, Chain.addBlock_wrong hb']
    exact ⟨rfl, agree_put h bl cf fun _ => ⟨hh, hd, hg⟩, .nil⟩

theorem dep_derivStep {o : Address} (hq : Q (.derivState o)) (g : DerivativeChain → DerivativeChain)
    (h1 : ∀ c c' : DerivativeChain, c'.chain.blocks.cur = c.chain.blocks.cur → (g c').chain.blocks.cur = (g c).chain.blocks.cur)
    (h2 : ∀ c c' : DerivativeChain, c'.chain.heightReference.cur = c.chain.heightReference.cur →
      (g c').chain.heightReference.cur = (g c).chain.heightReference.cur)
    (h3 : ∀ c c' : DerivativeChain, c'.chain.height = c.chain.height → c'.chain.difficulty = c.chain.difficulty →
      c'.genesisHash = c.genesisHash → (c'.chain.config = c.chain.config → (g c').chain.config = (g c).chain.config) ∧
      (g c').chain.height = (g c).chain.height ∧ (g c').chain.difficulty = (g c).chain.difficulty ∧
      (g c').genesisHash = (g c).genesisHash) : Dep Q (Tree.onDeriv o (Act.step g)) := by
  intro s t h
  obtain ⟨hh, hd, hg⟩ := handle_mem (h _ hq)
  have k := h3 (s.handle o) (t.handle o) hh hd hg
  have : Agree Q (Tree.putHandle o (g (s.handle o)) s) (Tree.putHandle o (g (t.handle o)) t) :=
    agree_put h (fun hq => ⟨h1 _ _ (h _ hq).1, h2 _ _ (h _ hq).2⟩) (fun hq => k.1 (h _ hq)) fun _ => k.2
  exact ⟨rfl, this, .cons this .nil⟩

theorem onDeriv_bind (o : Address) (x : Act DerivativeChain α) (f : α → Act DerivativeChain β) :
    Tree.onDeriv o (x >>= f) = (Tree.onDeriv o x >>= fun a => Tree.onDeriv o (f a)) := by
  have h1 : ∀ (m : DerivativeChain) (t : Tree), (Tree.putHandle o m t).handle o = m := by
    intro m t; simp [Tree.handle, Tree.putHandle]
  have h2 : ∀ (m m' : DerivativeChain) (t : Tree), Tree.putHandle o m (Tree.putHandle o m' t) = Tree.putHandle o m t := by
    intro m m' t
    simp only [Tree.putHandle]
    congr 1 <;> (funext n; split <;> rfl)
  funext t
  simp only [Tree.onDeriv, Act.bind_def, Act.bind, Act.zoom]
  cases h : (x (t.handle o)).out <;> simp [h1, h2]

theorem dep_derivFlush (o : Address) (hq : Q (.derivState o)) : Dep Q (Tree.onDeriv o DerivativeChain.flush) := by
  unfold DerivativeChain.flush DerivativeChain.dumpConfig DerivativeChain.writeConfig
  simp only [onDeriv_bind]
  refine dep_bind (dep_bind (dep_derivStep hq _ ?_ ?_ ?_) fun _ => dep_bind (dep_derivStep hq _ ?_ ?_ ?_) fun _ =>
    dep_bind (dep_derivStep hq _ ?_ ?_ ?_) fun _ => dep_derivStep hq _ ?_ ?_ ?_) fun _ =>
    dep_bind (dep_derivStep hq _ ?_ ?_ ?_) fun _ => dep_derivStep hq _ ?_ ?_ ?_
  all_goals first
    | exact fun _ _ h => h
    | exact fun _ _ h1 h2 h3 => ⟨fun h => h, h1, h2, h3⟩
    | exact fun _ _ h1 h2 h3 => ⟨fun _ => by simp only [h1, h2, h3], h1, h2, h3⟩

theorem findByHash_agree {s t : Tree} (hb : Part.blocks.Same s t) (hr : Part.references.Same s t)
    (hh : Part.height.Same s t) (h : Hash) :
    t.main.findByHash h = s.main.findByHash h := by
  unfold MainChain.findByHash MainChain.findRawByHash Chain.findRawByHash Chain.findRawByHeight Db.get
  rw [hb, hr, hh]

theorem derivLast_agree {s t : Tree} {o : Address} (hb : Part.Same (.derivBlocks o) s t)
    (hs : Part.Same (.derivState o) s t) : (t.handle o).getLastBlock = (s.handle o).getLastBlock := by
  have hb : (t.handle o).chain.blocks.cur = (s.handle o).chain.blocks.cur := hb.1
  unfold DerivativeChain.getLastBlock DerivativeChain.getLastRawBlock Chain.findRawByHeight Db.get
  rw [hb, (handle_mem hs).1]

theorem dep_emitDerivative (E : Env) (pow : BytesN 32) (f : Address) (ts : UInt64) (h1 : Q .blocks) (h2 : Q .references)
    (h3 : Q .height) (h4 : Q (.derivBlocks f)) (h5 : Q (.derivConfig f)) (h6 : Q (.derivState f)) :
    Dep Q (Tree.emitDerivative E pow f ts) := by
  unfold Tree.emitDerivative
  refine dep_bind (dep_getDeriv E f h1 h3 h5 h6) fun _ => dep_get (fun t => ?_) fun s t h => ?_
  · refine dep_bind (dep_lift _) fun _ => dep_bind (dep_lift _) fun _ => dep_bind (dep_lift _) fun _ => ?_
    split
    · exact dep_lift _
    · exact dep_bind (dep_lift _) fun _ => dep_bind (dep_derivAdd E f _ h6) fun _ => dep_pure _
  · simp only [derivLast_agree (h _ h4) (h _ h6), findByHash_agree (h _ h1) (h _ h2) (h _ h3), (handle_mem (h _ h6)).2.2]

/-- C115. Let two nodes have the same contents in the parts a call may read and in any further parts. Then the call has
the same outcome on both, and at its end and at every moment in between they still have the same contents in all those
parts. So what a call answers, and what it writes, depends on nothing but the parts listed: no call reads the coin and
gas databases of the last epoch or the stored transactions, flushing a balance never changes an answer, and the
derivative chain of one owner does not matter to any other. -/
theorem C115_depends (E : Env) (op : Op) (Q : Part → Prop) (hQ : ∀ p, mayRead op p → Q p) (s t : Tree)
    (h : Agree Q s t) :
    (op.run E t).out = (op.run E s).out ∧ Agree Q (op.run E s).final (op.run E t).final ∧
    List.Forall₂ (Agree Q) (op.run E s).trace (op.run E t).trace := by
  suffices Dep Q (op.run E) from ⟨(this s t h).1, (this s t h).2, (this s t h).3⟩
  cases op
  case addBlock b => exact dep_addBlock E b (hQ _ rfl)
  case addNewBlock b txs => exact dep_bind (dep_addBlock E b (hQ _ rfl)) fun _ => dep_addTransactions E txs
  case addTransaction t => exact dep_addTransaction E t
  case addTransactions ts => exact dep_addTransactions E ts
  case addAmount o a => exact dep_coins _ (hQ _ rfl)
  case setAmount o a => exact dep_setAmount o a
  case subAmount o a => exact dep_coins _ (hQ _ rfl)
  case sendAmount a b c => exact dep_sendAmount a b c (hQ _ rfl)
  case addGas o a => exact dep_gas _ (hQ _ rfl)
  case subGas o a => exact dep_gas _ (hQ _ rfl)
  case sendGas a b c => exact dep_gas _ (hQ _ rfl)
  case sendTransaction tx =>
    exact dep_sendTransaction E tx (hQ _ (.inl rfl)) (hQ _ (.inr (.inl rfl))) (hQ _ (.inr (.inr (.inl rfl))))
      (hQ _ (.inr (.inr (.inr rfl))))
  case emitMain pow f txs ts =>
    exact dep_void (dep_emitMain E pow f txs ts (hQ _ (.inl rfl)) (hQ _ (.inr (.inl rfl)))
      (hQ _ (.inr (.inr (.inl rfl)))) (hQ _ (.inr (.inr (.inr (.inl rfl))))) (hQ _ (.inr (.inr (.inr (.inr rfl))))))
  case emitDerivative pow f ts =>
    exact dep_void (dep_emitDerivative E pow f ts (hQ _ (.inl rfl)) (hQ _ (.inr (.inl rfl)))
      (hQ _ (.inr (.inr (.inl rfl)))) (hQ _ (.inr (.inr (.inr (.inl rfl))))) (hQ _ (.inr (.inr (.inr (.inr (.inl rfl))))))
      (hQ _ (.inr (.inr (.inr (.inr (.inr rfl)))))))
  case getDerivativeChain o =>
    exact dep_getDeriv E o (hQ _ (.inl rfl)) (hQ _ (.inr (.inl rfl))) (hQ _ (.inr (.inr (.inl rfl))))
      (hQ _ (.inr (.inr (.inr rfl))))
  case derivAddBlock o b =>
    exact dep_bind (dep_getDeriv E o (hQ _ (.inl rfl)) (hQ _ (.inr (.inl rfl))) (hQ _ (.inr (.inr (.inl rfl))))
      (hQ _ (.inr (.inr (.inr rfl))))) fun _ => dep_derivAdd E o b (hQ _ (.inr (.inr (.inr rfl))))
  case derivFlush o =>
    exact dep_bind (dep_getDeriv E o (hQ _ (.inl rfl)) (hQ _ (.inr (.inl rfl))) (hQ _ (.inr (.inr (.inl rfl))))
      (hQ _ (.inr (.inr (.inr rfl))))) fun _ => dep_derivFlush o (hQ _ (.inr (.inr (.inr rfl))))
  case mainFlush => exact dep_mainFlush (hQ _ (.inl rfl)) (hQ _ (.inr rfl))
  case flush => exact dep_flush (hQ _ (.inl rfl)) (hQ _ (.inr rfl))

/-- The outcomes of a list of calls, each made on what the one before left. -/
def outcomes (E : Env) : List Op → Tree → List (Outcome Unit)
  | [], _ => []
  | op :: ops, s => (op.run E s).out :: outcomes E ops (op.run E s).final

/-- The parts nothing is ever read from while a node runs. -/
def Part.WriteOnly : Part → Prop
  | .transactions | .config | .oldCoins | .oldGas => True
  | _ => False

/-- C115, for a whole run: two nodes that differ at most in stored transactions, config file and the coin and gas
databases of the last epoch give the same outcomes to any list of calls. -/
theorem C115_run (E : Env) (ops : List Op) (s t : Tree) (h : Agree (fun p => ¬ p.WriteOnly) s t) :
    outcomes E ops t = outcomes E ops s := by
  induction ops generalizing s t with
  | nil => rfl
  | cons op ops ih =>
    have := C115_depends E op (fun p => ¬ p.WriteOnly) (by
      intro p hp
      cases op <;> simp only [mayRead] at hp <;>
        rcases hp with _ | _ | _ | _ | _ | _ <;> subst_vars <;> exact id) s t h
    simp only [outcomes]
    rw [this.1, ih _ _ this.2.1]

/-- Two nodes with different gas and different coins of the last epoch: a withdrawal of coins refused by one is refused
by the other; a withdrawal of gas is not. -/
example (E : Env) :
    let three : U256 := ⟨3, by decide⟩
    let s : Tree := { Disk.empty.boot with gas := Disk.empty.boot.gas.insert [7] (Ledger.encode three) }
    let t : Tree := { Disk.empty.boot with oldSummary := Disk.empty.boot.oldSummary.insert [7] (Ledger.encode three) }
    ((Op.subAmount [7] three).run E t).out = ((Op.subAmount [7] three).run E s).out ∧
    ((Op.subGas [7] three).run E s).out = .ok () ∧ ((Op.subGas [7] three).run E t).out = .panic .unwrap := by
  intro three s t
  refine ⟨(C115_depends E (.subAmount [7] three) (fun p => p = .coins) (fun _ h => h) s t fun p hp => by subst hp; rfl).1, ?_, ?_⟩
  · have : Ledger.subClosure [7] three s.gas.cur =
        .ok (s.gas.cur.insert [7] (Ledger.encode ⟨3 - 3, by decide⟩)) := by
      have hb : Ledger.balance (s.gas.cur.get [7]) = .ok three := by
        show Ledger.balance ((KV.insert Disk.empty.boot.gas.cur [7] (Ledger.encode three)).get [7]) = _
        rw [KV.get_insert, if_pos rfl, Ledger.balance_encode]
      unfold Ledger.subClosure
      rw [hb]
      rfl
    show (Tree.onGas (Ledger.transact (Ledger.subClosure [7] three)) s).out = _
    unfold Tree.onGas
    rw [Act.zoom_run, Ledger.transact_ok this]
  · have : Ledger.subClosure [7] three t.gas.cur = .err .txnAbort := rfl
    show (Tree.onGas (Ledger.transact (Ledger.subClosure [7] three)) t).out = _
    unfold Tree.onGas
    rw [Act.zoom_run, Ledger.transact_err this]

end BCT.Props
