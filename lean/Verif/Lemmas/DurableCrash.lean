import Verif.Lemmas.DurableStart
/-!
# Dying during a call
-/

namespace BCT
open BCT.Props

/-! ## What may be left can only become more -/

namespace Act
variable {σ τ α : Type}

/-- The initial state and every state passed through are related to the state left behind. -/
def Up (R : σ → σ → Prop) {α : Type} (x : Act σ α) : Prop := ∀ s, R s (x s).final ∧ ∀ u ∈ (x s).trace, R u (x s).final

theorem up_closed {R : σ → σ → Prop} (h : PreOrd R) : Closed (fun {α} (x : Act σ α) => Up R x) where
  pure a s := ⟨h.refl s, by simp⟩
  get s := ⟨h.refl s, by simp⟩
  lift o s := ⟨h.refl s, by simp⟩
  bind := by
    intro α β x f hx hf s
    rcases bind_cases x f s with ⟨a, _, h2, h3, _⟩ | ⟨_, h2, h3, _⟩
    · rw [h2, h3]
      refine ⟨h.trans (hx s).1 (hf a _).1, fun t ht => ?_⟩
      rcases List.mem_append.mp ht with ht | ht
      · exact h.trans ((hx s).2 t ht) (hf a _).1
      · exact (hf a _).2 t ht
    · rw [h2, h3]; exact hx s
  void hx s := hx s
  mapErr e hx s := hx s

theorem up_step {R : σ → σ → Prop} (hr : PreOrd R) {f : σ → σ} (h : ∀ s, R s (f s)) : Up R (step f) := by
  intro s; simp [h, hr.refl]

theorem up_zoom {R : σ → σ → Prop} {Q : τ → τ → Prop} {part : τ → σ} {put : σ → τ → τ} {x : Act σ α} (hx : Up R x)
    (h : ∀ t s, R (part t) s → Q t (put s t)) (h' : ∀ t a b, R a b → Q (put a t) (put b t)) : Up Q (x.zoom part put) := by
  intro t
  refine ⟨h t _ (hx _).1, fun u hu => ?_⟩
  obtain ⟨s, hs, rfl⟩ := List.mem_map.mp hu
  exact h' t s _ ((hx _).2 s hs)

end Act

/-- All that may be left of the one may be left of the other. -/
def Db.Less (a b : Db) : Prop := ∀ m ∈ a.recov, m ∈ b.recov

theorem Db.less_refl (d : Db) : d.Less d := fun _ h => h
theorem Db.Less.trans {a b c : Db} (h1 : a.Less b) (h2 : b.Less c) : a.Less c := fun m h => h2 m (h1 m h)
theorem Db.less_insert (d : Db) (k v : Bytes) : d.Less (d.insert k v) := fun _ h => List.mem_cons_of_mem _ h
theorem Db.less_commit (d : Db) (f : KV → KV) : d.Less (d.commit f) := fun _ h => List.mem_cons_of_mem _ h

def Chain.Less (a b : Chain) : Prop :=
  a.blocks.Less b.blocks ∧ a.heightReference.Less b.heightReference ∧ b.config = a.config

structure Tree.Less (s t : Tree) : Prop where
  chain : s.main.chain.Less t.main.chain
  txs : s.main.transactions.Less t.main.transactions
  summary : s.summary.Less t.summary
  oldSummary : s.oldSummary.Less t.oldSummary
  gas : s.gas.Less t.gas
  oldGas : s.oldGas.Less t.oldGas
  deriv : ∀ n, (s.derivFiles n).blocks.Less (t.derivFiles n).blocks ∧
    (s.derivFiles n).heightReference.Less (t.derivFiles n).heightReference ∧ (t.derivFiles n).config = (s.derivFiles n).config

theorem db_less : Act.PreOrd Db.Less := ⟨Db.less_refl, Db.Less.trans⟩

theorem chain_less : Act.PreOrd Chain.Less :=
  ⟨fun _ => ⟨Db.less_refl _, Db.less_refl _, rfl⟩,
   fun h1 h2 => ⟨h1.1.trans h2.1, h1.2.1.trans h2.2.1, h2.2.2.trans h1.2.2⟩⟩

theorem tree_less : Act.PreOrd Tree.Less :=
  ⟨fun _ => ⟨chain_less.refl _, Db.less_refl _, Db.less_refl _, Db.less_refl _, Db.less_refl _, Db.less_refl _,
      fun _ => ⟨Db.less_refl _, Db.less_refl _, rfl⟩⟩,
   fun h1 h2 => ⟨chain_less.trans h1.chain h2.chain, h1.txs.trans h2.txs, h1.summary.trans h2.summary,
     h1.oldSummary.trans h2.oldSummary, h1.gas.trans h2.gas, h1.oldGas.trans h2.oldGas,
     fun n => ⟨(h1.deriv n).1.trans (h2.deriv n).1, (h1.deriv n).2.1.trans (h2.deriv n).2.1,
       (h2.deriv n).2.2.trans (h1.deriv n).2.2⟩⟩⟩

/-- Whatever is left of the one may be left of the other. -/
theorem Tree.Less.crash {s t : Tree} (h : s.Less t) {d : Disk} (hc : Crash s d) : Crash t d where
  blocks := h.chain.1 _ hc.blocks
  heightReference := h.chain.2.1 _ hc.heightReference
  transactions := h.txs _ hc.transactions
  config := hc.config.trans h.chain.2.2.symm
  summary := h.summary _ hc.summary
  oldSummary := h.oldSummary _ hc.oldSummary
  gas := h.gas _ hc.gas
  oldGas := h.oldGas _ hc.oldGas
  deriv n := ⟨(h.deriv n).1 _ (hc.deriv n).1, (h.deriv n).2.1 _ (hc.deriv n).2.1, (hc.deriv n).2.2.trans (h.deriv n).2.2.symm⟩

theorem less_main {m m' : MainChain} (t : Tree) (h1 : m.chain.Less m'.chain) (h2 : m.transactions.Less m'.transactions) :
    Tree.Less { t with main := m } { t with main := m' } :=
  ⟨h1, h2, Db.less_refl _, Db.less_refl _, Db.less_refl _, Db.less_refl _, fun _ => ⟨Db.less_refl _, Db.less_refl _, rfl⟩⟩

theorem less_summary {a b : Db} (t : Tree) (h : a.Less b) : Tree.Less { t with summary := a } { t with summary := b } :=
  ⟨chain_less.refl _, Db.less_refl _, h, Db.less_refl _, Db.less_refl _, Db.less_refl _,
    fun _ => ⟨Db.less_refl _, Db.less_refl _, rfl⟩⟩

theorem less_gas {a b : Db} (t : Tree) (h : a.Less b) : Tree.Less { t with gas := a } { t with gas := b } :=
  ⟨chain_less.refl _, Db.less_refl _, Db.less_refl _, Db.less_refl _, h, Db.less_refl _,
    fun _ => ⟨Db.less_refl _, Db.less_refl _, rfl⟩⟩

theorem less_handle {a b : DerivativeChain} (t : Tree) (o : Address) (h : a.chain.Less b.chain) :
    Tree.Less (Tree.putHandle o a t) (Tree.putHandle o b t) := by
  refine ⟨chain_less.refl _, Db.less_refl _, Db.less_refl _, Db.less_refl _, Db.less_refl _, Db.less_refl _, fun n => ?_⟩
  simp only [Tree.putHandle]
  split
  · exact h
  · exact ⟨Db.less_refl _, Db.less_refl _, rfl⟩

theorem less_handle' {b : DerivativeChain} (t : Tree) (o : Address) (h : (t.handle o).chain.Less b.chain) :
    Tree.Less t (Tree.putHandle o b t) := by
  refine ⟨chain_less.refl _, Db.less_refl _, Db.less_refl _, Db.less_refl _, Db.less_refl _, Db.less_refl _, fun n => ?_⟩
  simp only [Tree.putHandle]
  split
  · rename_i e; subst e; exact h
  · exact ⟨Db.less_refl _, Db.less_refl _, rfl⟩

/-! ## Calls -/

theorem chain_up (E : Env) (h : U256) (dump : Bytes) : Act.Up Chain.Less (Chain.addBlock E h dump) := by
  have C := Act.up_closed chain_less
  unfold Chain.addBlock
  refine C.bind C.get fun s => ?_
  split
  · exact C.lift _
  · exact C.bind (Act.up_step chain_less fun s => ⟨Db.less_insert _ _ _, Db.less_refl _, rfl⟩) fun _ =>
      C.bind (Act.up_step chain_less fun s => ⟨Db.less_refl _, Db.less_insert _ _ _, rfl⟩) fun _ => C.bind (C.lift _) fun _ =>
        Act.up_step chain_less fun s => ⟨Db.less_refl _, Db.less_refl _, rfl⟩

theorem transact_up (c : KV → Outcome KV) : Act.Up Db.Less (Ledger.transact c) := by
  intro d
  cases h : c d.cur with
  | ok m =>
    rw [Ledger.transact_ok h]
    exact ⟨Db.less_commit d _, fun t ht => by rw [List.mem_singleton.mp ht]; exact Db.less_refl _⟩
  | err e => rw [Ledger.transact_err h]; exact ⟨Db.less_refl d, by simp⟩
  | panic e => rw [Ledger.transact_panic h]; exact ⟨Db.less_refl d, by simp⟩
  | ub => rw [Ledger.transact_ub h]; exact ⟨Db.less_refl d, by simp⟩

section
variable {E : Env}

theorem up_addBlock (b : Block) : Act.Up Tree.Less (Tree.onMain (MainChain.addBlock E b)) := by
  have h1 : Act.Up (fun m m' : MainChain => m.chain.Less m'.chain ∧ m.transactions.Less m'.transactions)
      (MainChain.addBlock E b) :=
    Act.up_zoom (part := fun m : MainChain => m.chain) (put := fun c m => { m with chain := c }) (chain_up E b.info.height b.dump) (fun _ _ h => ⟨h, Db.less_refl _⟩) fun _ _ _ h => ⟨h, Db.less_refl _⟩
  exact Act.up_zoom h1 (fun t _ h => less_main (m := t.main) t h.1 h.2) fun t _ _ h => less_main t h.1 h.2

theorem up_addTransaction (tx : Transaction) : Act.Up Tree.Less (Tree.onMain (MainChain.addTransaction E tx)) := by
  have P : Act.PreOrd (fun m m' : MainChain => m.chain.Less m'.chain ∧ m.transactions.Less m'.transactions) :=
    ⟨fun _ => ⟨chain_less.refl _, Db.less_refl _⟩, fun h1 h2 => ⟨chain_less.trans h1.1 h2.1, h1.2.trans h2.2⟩⟩
  have h1 : Act.Up (fun m m' : MainChain => m.chain.Less m'.chain ∧ m.transactions.Less m'.transactions)
      (MainChain.addTransaction E tx) := by
    unfold MainChain.addTransaction
    exact Act.up_step P fun _ => ⟨chain_less.refl _, Db.less_insert _ _ _⟩
  exact Act.up_zoom h1 (fun t _ h => less_main (m := t.main) t h.1 h.2) fun t _ _ h => less_main t h.1 h.2

theorem up_getDeriv (o : Address) : Act.Up Tree.Less (Tree.getDerivativeChain E o) := by
  intro s
  rcases Tree.getDeriv_cases E o s with ⟨_, e⟩ | ⟨hm, ⟨out, _, e⟩ | ⟨b, c, _, hc, e⟩⟩
  · rw [e]; exact ⟨tree_less.refl s, by simp⟩
  · rw [e]; exact ⟨tree_less.refl s, by simp⟩
  · have hl := (Tree.getDeriv_rel (R := Tree.Less) tree_less.refl E o (fun t c _ h1 h2 h3 => less_handle' t o
      ⟨by rw [h1]; exact Db.less_refl _, by rw [h2]; exact Db.less_refl _, h3⟩) s).1
    rw [e] at hl ⊢
    exact ⟨hl, fun t ht => by rw [List.mem_singleton.mp ht]; exact tree_less.refl _⟩

theorem up_deriv (o : Address) (b : DerivativeBlock) : Act.Up Tree.Less (Tree.onDeriv o (DerivativeChain.addBlock E b)) := by
  have h1 : Act.Up (fun m m' : DerivativeChain => m.chain.Less m'.chain) (DerivativeChain.addBlock E b) :=
    Act.up_zoom (part := fun m : DerivativeChain => m.chain) (put := fun c m => { m with chain := c }) (chain_up E b.defaultInfo.height b.dump) (fun _ _ h => h) fun _ _ _ h => h
  exact Act.up_zoom h1 (fun t _ h => less_handle' t o h) fun t _ _ h => less_handle t o h

theorem up_summary (c : KV → Outcome KV) : Act.Up Tree.Less (Tree.onSummary (Ledger.transact c)) :=
  Act.up_zoom (transact_up c) (fun t _ h => less_summary (a := t.summary) t h) fun t _ _ h => less_summary t h

theorem up_gas (c : KV → Outcome KV) : Act.Up Tree.Less (Tree.onGas (Ledger.transact c)) :=
  Act.up_zoom (transact_up c) (fun t _ h => less_gas (a := t.gas) t h) fun t _ _ h => less_gas t h

/-- Whatever may be left during a call that writes no configuration file may be left after it. -/
theorem op_less (s : Tree) (op : Op) (hf : op ≠ .flush) (hm : op ≠ .mainFlush) (hd : ∀ o, op ≠ .derivFlush o)
    (he : ∀ p f txs ts, op = .emitMain p f txs ts → ∀ r, emitChecks E s p f txs ts = .ok r → r.1.height.val % BLOCKS_PER_EPOCH ≠ 0) :
    Tree.Less s (op.run E s).final ∧ ∀ u ∈ (op.run E s).trace, Tree.Less u (op.run E s).final := by
  have C := Act.up_closed tree_less
  have TS : ∀ ts, Act.Up Tree.Less (Tree.onMain (MainChain.addTransactions E ts)) := fun ts => by
    unfold Tree.onMain MainChain.addTransactions
    rw [Act.zoom_forEach onMain_lens]
    exact C.forEach fun t => up_addTransaction t
  have SA : ∀ a b n, Act.Up Tree.Less (Tree.sendAmount a b n) := fun a b n => by
    unfold Tree.sendAmount
    split
    · exact C.pure ()
    · exact up_summary _
  cases op with
  | addBlock b => exact up_addBlock b s
  | addNewBlock b txs => exact C.bind (up_addBlock b) (fun _ => TS txs) s
  | addTransaction t => exact up_addTransaction t s
  | addTransactions ts => exact TS ts s
  | addAmount o a => exact up_summary _ s
  | setAmount o a => exact up_summary _ s
  | subAmount o a => exact up_summary _ s
  | sendAmount a b n => exact SA a b n s
  | addGas o a => exact up_gas _ s
  | subGas o a => exact up_gas _ s
  | sendGas a b n => exact up_gas _ s
  | sendTransaction tx =>
    have : Act.Up Tree.Less (Tree.sendTransaction E tx) := by
      unfold Tree.sendTransaction
      refine C.bind C.get fun t => C.bind (C.lift _) fun g => C.bind (C.lift _) fun a => C.bind (C.lift _) fun r => ?_
      split
      · exact C.lift _
      · refine C.bind (C.lift _) fun _ => C.bind (C.lift _) fun _ => C.bind (C.lift _) fun _ => C.bind (C.lift _) fun _ => ?_
        split
        · exact C.lift _
        · exact C.bind (up_addTransaction _) fun _ => C.bind (SA _ _ _) fun _ => up_gas _
    exact this s
  | emitMain p f txs ts =>
    show Tree.Less s (Tree.emitMain E p f txs ts s).final ∧ ∀ u ∈ (Tree.emitMain E p f txs ts s).trace,
      Tree.Less u (Tree.emitMain E p f txs ts s).final
    have he := he p f txs ts rfl
    rw [emitMain_checks]
    cases hr : emitChecks E s p f txs ts with
    | ok r =>
      rw [Act.lift_ok_bind]
      have he1 := he r hr
      by_cases ht : txs = []
      · subst ht; rw [emitRest_no_txs he1]; exact ⟨tree_less.refl _, by simp⟩
      · rw [emitRest_tx he1 ht]
        exact C.bind (up_addBlock _) (fun _ => C.pure _) s
    | err e => rw [Act.lift_err_bind]; exact ⟨tree_less.refl _, by simp⟩
    | panic e => rw [Act.lift_panic_bind]; exact ⟨tree_less.refl _, by simp⟩
    | ub => rw [Act.lift_ub_bind]; exact ⟨tree_less.refl _, by simp⟩
  | emitDerivative p f ts =>
    have : Act.Up Tree.Less (Tree.emitDerivative E p f ts) := by
      rw [emitDerivative_checks]
      exact C.bind (up_getDeriv _) fun _ => C.bind C.get fun _ => C.bind (C.lift _) fun _ => C.bind (up_deriv _ _) fun _ => C.pure _
    exact this s
  | getDerivativeChain o => exact up_getDeriv o s
  | derivAddBlock o b => exact C.bind (up_getDeriv o) (fun _ => up_deriv o b) s
  | derivFlush o => exact absurd rfl (hd o)
  | mainFlush => exact absurd rfl hm
  | flush => exact absurd rfl hf

/-- The same of a start. -/
theorem open_less (d : Disk) : ∀ u ∈ (openTree E d).trace, Tree.Less u (openTree E d).final := by
  have C := Act.up_closed tree_less
  have : Act.Up Tree.Less (Tree.new E) := by
    unfold Tree.new
    refine C.bind (Act.up_step tree_less fun t => ⟨chain_less.refl _, Db.less_refl _, Db.less_refl _, Db.less_refl _,
      Db.less_refl _, Db.less_refl _, fun _ => ⟨Db.less_refl _, Db.less_refl _, rfl⟩⟩) fun _ => C.bind ?_ fun _ => C.bind C.get fun t => ?_
    · unfold MainChain.new Tree.onMain
      rw [Act.zoom_bind onMain_lens]
      refine C.bind (fun s => ⟨tree_less.refl s, by simp [Act.zoom]⟩) fun m => ?_
      rw [Act.zoom_bind onMain_lens]
      refine C.bind (fun s => ⟨tree_less.refl s, by simp [Act.zoom]⟩) fun hd => ?_
      rw [Act.zoom_bind onMain_lens]
      refine C.bind ?_ fun _ => ?_
      · intro s
        simp only [Act.zoom_run, Act.step_run, List.map_cons, List.map_nil]
        refine ⟨less_main (m := s.main) s ⟨Db.less_refl _, Db.less_refl _, rfl⟩ (Db.less_refl _), fun t ht => ?_⟩
        rw [List.mem_singleton.mp ht]; exact tree_less.refl _
      · split
        · rw [merkleRoot_eq, Act.lift_ok_bind]
          exact C.mapErr _ (up_addBlock _)
        · rw [Act.zoom_pure onMain_lens]; exact C.pure _
    · split
      · exact up_summary _
      · exact C.pure _
  exact (this d.boot).2

end

/-! ## A new node -/

theorem bears_start (E : Env) : Bears E (openTree E Disk.empty).final (Spec.Frail.start E) := by
  have hm := matches_start E
  have h0 := Chain.Is.empty E BEGINNING_DIFFICULTY none
  have hb : (Spec.Node.start E).blocks = [genesis E] := by unfold Spec.Node.start; rw [firstBlock_eq]
  have hc := hm.main
  rw [(openTree_fresh E).2] at hm ⊢
  rw [(openTree_fresh E).2] at hc
  have l1 := Log.single (P := fun m bs' => Slots m ((Spec.Found.nothing).slot bs')) (d := Db.open' KV.empty) (m := KV.empty)
    (l := []) rfl h0.slots
  have l2 := Log.single (P := fun m bs' => Indexed m ((Spec.Found.nothing).indexed (Spec.mainKey E) bs')) (d := Db.open' KV.empty)
    (m := KV.empty) (l := []) rfl h0.refs
  have coins : Books (Spec.Node.start E).coins (seedSummary U256.one (Db.open' KV.empty)).cur := hm.coins
  exact
    { mirrors := hm
      sound := ⟨Db.sound_insert _ _ _, Db.sound_insert _ _ _, Db.sound_open _, Db.sound_insert _ _ _, Db.sound_open _,
        Db.sound_open _, Db.sound_open _, fun _ => ⟨Db.sound_open _, Db.sound_open _⟩⟩
      main := ⟨Nat.le_refl _, l1.next (Db.next_insert _ _ _) (Db.sound_open _) (.inr ⟨genesis E, hb⟩) hc.slots,
        l2.next (Db.next_insert _ _ _) (Db.sound_open _) (.inr ⟨genesis E, hb⟩) hc.refs⟩
      config := .inl ⟨rfl, rfl⟩
      txs := Log.single (P := fun m l => Stores m l.reverse) (d := Db.open' KV.empty) (l := []) (m := KV.empty) rfl hm.stores
      coins := (TableLog.single (m := KV.empty) rfl Books.empty).next (Db.next_insert _ _ _) (Db.sound_open _) coins
      gas := TableLog.single (m := KV.empty) rfl Books.empty
      deriv := fun o => ⟨Nat.le_refl _, l1, l2⟩
      says := fun o => rfl
      oldCoins := TableLog.single (m := KV.empty) rfl Books.empty
      oldGas := TableLog.single (m := KV.empty) rfl Books.empty }

/-! ## Lengths -/

theorem short_blocksOf {k : Nat} {n : Spec.Node} (h : Short k n) (o : Address) : (n.blocksOf o).length ≤ k := by
  unfold Spec.Node.blocksOf
  cases hc : n.chains o with
  | some c => exact h.2 o c (.inl hc)
  | none =>
    cases hs : n.saved o with
    | some c => exact h.2 o c (.inr hs)
    | none => exact Nat.zero_le _

theorem short_rebornAt {E : Env} {k : Nat} {f : Spec.Frail} (h : Short k f.node) (hp : 1 ≤ k) (l : Spec.Frail.Left E f)
    (j : Nat) (ks : Address → Option (Hash × Nat)) : Short k (f.rebornAt E l j ks).node := by
  refine ⟨?_, fun o c hc => ?_⟩
  · show (if j = 0 then [Spec.firstBlock E] else f.node.blocks.take j).length ≤ k
    split
    · exact hp
    · rw [List.length_take]; have := h.1; omega
  · rcases hc with hc | hc
    · cases hc
    · have hc : (ks o).map (fun c => (c.1, (f.node.blocksOf o).take c.2)) = some c := hc
      cases hk : ks o with
      | none => rw [hk] at hc; cases hc
      | some g =>
        rw [hk] at hc; cases hc
        have := short_blocksOf h o
        show ((f.node.blocksOf o).take g.2).length ≤ k
        rw [List.length_take]; omega

theorem short_reborn {E : Env} {k : Nat} {f : Spec.Frail} (h : Short k f.node) (hp : 1 ≤ k) (l : Spec.Frail.Left E f) :
    Short k (f.reborn E l).node := short_rebornAt h hp l _ _

theorem frail_step_node (E : Env) (f : Spec.Frail) (op : Op) : (f.step E op).2.node = (f.node.stepOver E f.found op).2 := by
  cases op with
  | emitMain p fo txs ts =>
    have : ∀ n : Spec.Node, ∀ (p : Prop) [Decidable p], (if p then f.turned n else f.moved n).node = n := by
      intro n p _
      split <;> rfl
    exact this _ _
  | derivFlush o =>
    show ((f.moved _).keep o).node = _
    unfold Spec.Frail.keep
    split <;> rfl
  | _ => rfl

end BCT
