import Verif.Props.Clients
import Verif.Props.Send
/-!
# C174: which calls may be repeated
-/

namespace BCT.Props
open BCT

/-- The calls that may be repeated without doing anything more. -/
def Op.Retryable : Op → Prop
  | .addBlock _ | .addNewBlock .. | .addTransaction _ | .addTransactions _ | .setAmount .. => True
  | .getDerivativeChain _ | .derivAddBlock .. | .derivFlush _ | .mainFlush | .flush => True
  | _ => False

/-- The calls that append a block they are given. -/
def Op.Appends : Op → Prop
  | .addBlock _ | .addNewBlock .. | .derivAddBlock .. => True
  | _ => False

/-- All contents are the same. -/
def EqualContents (s t : Tree) : Prop := ∀ p : Part, p.Same s t

theorem equalContents_refl (s : Tree) : EqualContents s s := fun p => (same_preord p).refl s

theorem insert_again (m : KV) (k v : Bytes) : (m.insert k v).insert k v = m.insert k v :=
  KV.ext_get fun q => by simp only [KV.get_insert]; split <;> rfl

/-- What one run of a call and a second one right after it come to. -/
structure Calms (a : Bool) {x : Act Tree Unit} (s : Tree) : Prop where
  same : EqualContents (x s).final (x (x s).final).final
  again : (x (x s).final).out = if a = true ∧ (x s).out = .ok () then .err .chainAddingBlock else (x s).out

/-! ## Blocks -/

theorem addBlock_again (E : Env) (bh : U256) (dump : Bytes) (c : Chain) :
    ((Chain.addBlock E bh dump c).out = .ok () ∧ Chain.addBlock E bh dump (Chain.addBlock E bh dump c).final =
      ⟨.err .chainAddingBlock, (Chain.addBlock E bh dump c).final, []⟩) ∨
    ((Chain.addBlock E bh dump c).out ≠ .ok () ∧
      (Chain.addBlock E bh dump (Chain.addBlock E bh dump c).final).out = (Chain.addBlock E bh dump c).out ∧
      (Chain.addBlock E bh dump (Chain.addBlock E bh dump c).final).final.blocks.cur = (Chain.addBlock E bh dump c).final.blocks.cur ∧
      (Chain.addBlock E bh dump (Chain.addBlock E bh dump c).final).final.heightReference.cur =
        (Chain.addBlock E bh dump c).final.heightReference.cur ∧
      (Chain.addBlock E bh dump (Chain.addBlock E bh dump c).final).final.height = (Chain.addBlock E bh dump c).final.height ∧
      (Chain.addBlock E bh dump (Chain.addBlock E bh dump c).final).final.difficulty = (Chain.addBlock E bh dump c).final.difficulty ∧
      (Chain.addBlock E bh dump (Chain.addBlock E bh dump c).final).final.config = (Chain.addBlock E bh dump c).final.config) := by
  by_cases hb : bh = c.height
  · subst hb
    by_cases hm : c.height.val + 1 < U256.size
    · left
      have e := Chain.addBlock_right (E := E) (dump := dump) hm
      rw [e]
      refine ⟨rfl, Chain.addBlock_wrong fun h => ?_⟩
      have : c.height.val = c.height.val + 1 := congrArg U256.val h
      omega
    · right
      have e := Chain.addBlock_max (E := E) (dump := dump) hm
      have e' : Chain.addBlock E c.height dump (c.put2 E dump) = _ :=
        Chain.addBlock_max (E := E) (dump := dump) (s := c.put2 E dump) hm
      rw [e]
      simp only
      rw [e']
      refine ⟨by simp, rfl, ?_, ?_, rfl, rfl, rfl⟩
      · exact insert_again _ _ _
      · exact insert_again _ _ _
  · right
    have e := Chain.addBlock_wrong (E := E) (dump := dump) hb
    rw [e]
    simp only
    rw [e]
    exact ⟨by simp, rfl, rfl, rfl, rfl, rfl, rfl⟩

theorem mainAdd_again (E : Env) (b : Block) (s : Tree) : Calms true (x := Tree.onMain (MainChain.addBlock E b)) s := by
  have e : ∀ t : Tree, Tree.onMain (MainChain.addBlock E b) t = ⟨(Chain.addBlock E b.info.height b.dump t.main.chain).out,
      { t with main := { t.main with chain := (Chain.addBlock E b.info.height b.dump t.main.chain).final } },
      (Tree.onMain (MainChain.addBlock E b) t).trace⟩ := fun t => rfl
  rcases addBlock_again E b.info.height b.dump s.main.chain with ⟨h1, h2⟩ | ⟨h1, h2, h3, h4, h5, h6, h7⟩
  · constructor
    · rw [e s]
      simp only
      rw [e]
      simp only [h2]
      exact equalContents_refl _
    · rw [e s]
      simp only
      rw [e]
      simp only [h1, h2, and_self, if_true]
  · constructor
    · rw [e s]
      simp only
      rw [e]
      intro p
      cases p <;> first | exact h3 | exact h4 | exact h5 | exact h6 | exact h7 | exact rfl | exact ⟨rfl, rfl⟩
    · rw [e s]
      simp only
      rw [e]
      rw [if_neg fun h => h1 h.2]
      exact h2

/-! ## Transactions -/

/-- What a list of transactions leaves under a key it stores at does not depend on what was there. -/
theorem addTransactions_fixed (E : Env) (k : Bytes) : ∀ (ts : List Transaction), (∃ t ∈ ts, k = (E.sha256 t.dump).val) →
    ∀ s t : Tree, (Cell.stored k).Same (Tree.onMain (MainChain.addTransactions E ts) s).final
      (Tree.onMain (MainChain.addTransactions E ts) t).final := by
  have unf : ∀ u ts s, (Tree.onMain (MainChain.addTransactions E (u :: ts)) s).final =
      (Tree.onMain (MainChain.addTransactions E ts) (Tree.onMain (MainChain.addTransaction E u) s).final).final := by
    intro u ts s
    unfold Tree.onMain MainChain.addTransactions
    rw [Act.zoom_forEach onMain_lens, Act.zoom_forEach onMain_lens]
    rfl
  intro ts
  induction ts with
  | nil => rintro ⟨t, ht, _⟩; cases ht
  | cons u ts ih =>
    intro h s t
    rw [unf, unf]
    by_cases hts : ∃ t ∈ ts, k = (E.sha256 t.dump).val
    · exact ih hts _ _
    · have hk : k = (E.sha256 u.dump).val := by
        obtain ⟨v, hv, e⟩ := h
        rcases List.mem_cons.mp hv with rfl | hv
        · exact e
        · exact absurd ⟨v, hv, e⟩ hts
      have fr := fun x => (addTransactions_cell E k ts (fun v hv e => hts ⟨v, hv, e⟩) x).1
      have one : (Cell.stored k).Same (Tree.onMain (MainChain.addTransaction E u) s).final
          (Tree.onMain (MainChain.addTransaction E u) t).final := by
        show (KV.insert _ _ _).get k = (KV.insert _ _ _).get k
        rw [KV.get_insert, KV.get_insert, if_pos hk.symm, if_pos hk.symm]
      exact (cell_preord _).trans (cell_symm (fr _)) ((cell_preord _).trans one (fr _))

theorem addTransactions_ok (E : Env) (ts : List Transaction) (s : Tree) :
    (Tree.onMain (MainChain.addTransactions E ts) s).out = .ok () := by
  unfold Tree.onMain MainChain.addTransactions
  rw [Act.zoom_forEach onMain_lens]
  induction ts generalizing s with
  | nil => rfl
  | cons u ts ih => exact ih _

theorem addTransactions_again (E : Env) (ts : List Transaction) (s : Tree) :
    Calms false (x := Tree.onMain (MainChain.addTransactions E ts)) s := by
  constructor
  · intro p
    by_cases hp : p = .transactions
    · subst hp
      refine KV.ext_get fun k => ?_
      by_cases hk : ∃ t ∈ ts, k = (E.sha256 t.dump).val
      · exact addTransactions_fixed E k ts hk s _
      · exact (addTransactions_cell E k ts (fun v hv e => hk ⟨v, hv, e⟩) _).1
    · exact (addTransactions_same E ts p hp _).1
  · rw [addTransactions_ok, addTransactions_ok]
    simp

theorem newBlock_again (E : Env) (b : Block) (txs : List Transaction) (s : Tree) :
    Calms true (x := Tree.addNewBlock E b txs) s := by
  have good : ∀ t : Tree, (Tree.onMain (MainChain.addBlock E b) t).out = .ok () →
      (Tree.addNewBlock E b txs t).out = .ok () ∧ (Tree.addNewBlock E b txs t).final =
        (Tree.onMain (MainChain.addTransactions E txs) (Tree.onMain (MainChain.addBlock E b) t).final).final := by
    intro t h
    unfold Tree.addNewBlock
    simp only [Act.bind_def, Act.bind, h, addTransactions_ok, and_self]
  have bad : ∀ t : Tree, (Tree.onMain (MainChain.addBlock E b) t).out ≠ .ok () →
      (Tree.addNewBlock E b txs t).out = (Tree.onMain (MainChain.addBlock E b) t).out ∧
      (Tree.addNewBlock E b txs t).final = (Tree.onMain (MainChain.addBlock E b) t).final := by
    intro t h
    unfold Tree.addNewBlock
    simp only [Act.bind_def, Act.bind]
    cases h' : (Tree.onMain (MainChain.addBlock E b) t).out with
    | ok u => exact absurd h' h
    | err e => exact ⟨rfl, rfl⟩
    | panic e => exact ⟨rfl, rfl⟩
    | ub => exact ⟨rfl, rfl⟩
  have c := mainAdd_again E b s
  by_cases h : (Tree.onMain (MainChain.addBlock E b) s).out = .ok ()
  · obtain ⟨e1, e2⟩ := good s h
    have no : ∀ t : Tree, b.info.height ≠ t.main.chain.height →
        (Tree.onMain (MainChain.addBlock E b) t).out = .err .chainAddingBlock ∧ (Tree.onMain (MainChain.addBlock E b) t).final = t := by
      intro t ht
      have := Chain.addBlock_wrong (E := E) (dump := b.dump) ht
      show (Chain.addBlock E b.info.height b.dump t.main.chain).out = _ ∧
        { t with main := { t.main with chain := (Chain.addBlock E b.info.height b.dump t.main.chain).final } } = t
      rw [this]
      exact ⟨rfl, rfl⟩
    have hne : b.info.height ≠ (Tree.addNewBlock E b txs s).final.main.chain.height := by
      rw [e2, show _ = _ from (addTransactions_same E txs .height (by simp) _).1]
      intro hb
      have h' : (Chain.addBlock E b.info.height b.dump s.main.chain).out = .ok () := h
      have hb' : b.info.height = (Chain.addBlock E b.info.height b.dump s.main.chain).final.height := hb
      by_cases hs : b.info.height = s.main.chain.height
      · by_cases hm : s.main.chain.height.val + 1 < U256.size
        · rw [hs, Chain.addBlock_right hm] at hb'
          have : s.main.chain.height.val = s.main.chain.height.val + 1 := congrArg U256.val hb'
          omega
        · rw [hs, Chain.addBlock_max hm] at h'; cases h'
      · rw [Chain.addBlock_wrong hs] at h'; cases h'
    obtain ⟨n1, n2⟩ := no _ hne
    obtain ⟨f1, f2⟩ := bad (Tree.addNewBlock E b txs s).final (by rw [n1]; simp)
    constructor
    · rw [f2, n2]; exact equalContents_refl _
    · rw [f1, n1, e1]; simp
  · obtain ⟨e1, e2⟩ := bad s h
    have c1 := c.same
    have c2 := c.again
    rw [if_neg fun x => h x.2] at c2
    obtain ⟨f1, f2⟩ := bad (Tree.onMain (MainChain.addBlock E b) s).final (by rw [c2]; exact h)
    constructor
    · rw [e2, f2]; exact c1
    · rw [e2, f1, e1, if_neg fun x => h x.2, c2]

/-! ## Derivative chains -/

theorem same_put {o : Address} {c : DerivativeChain} {t : Tree}
    (h1 : c.chain.blocks.cur = (t.handle o).chain.blocks.cur)
    (h2 : c.chain.heightReference.cur = (t.handle o).chain.heightReference.cur)
    (h3 : c.chain.config = (t.handle o).chain.config)
    (h4 : some ⟨c.chain.height, c.chain.difficulty, c.genesisHash⟩ = t.derivMem o) : EqualContents t (Tree.putHandle o c t) := by
  intro p
  by_cases hp : p = .derivState o
  · subst hp
    show (Tree.putHandle o c t).derivMem o = t.derivMem o
    rw [Tree.putHandle_mem_self, h4]
  · exact put_same o c t p (fun _ => ⟨h1, h2⟩) (fun _ => h3) hp

theorem equalContents_trans {s t u : Tree} (h : EqualContents s t) (h' : EqualContents t u) : EqualContents s u :=
  fun p => (same_preord p).trans (h p) (h' p)

theorem getDeriv_again (E : Env) (o : Address) (s : Tree) :
    ((Tree.getDerivativeChain E o s).out = .ok () ∧ ((Tree.getDerivativeChain E o s).final.derivMem o).isSome = true) ∨
    ((Tree.getDerivativeChain E o s).out ≠ .ok () ∧ (Tree.getDerivativeChain E o s).final = s) := by
  rcases Tree.getDeriv_cases E o s with ⟨h, e⟩ | ⟨hm, ⟨out, ho, e⟩ | ⟨b, c, _, _, e⟩⟩
  · rw [e]; exact .inl ⟨rfl, h⟩
  · rw [e]; exact .inr ⟨ho (), rfl⟩
  · rw [e]; exact .inl ⟨rfl, by rw [Tree.putHandle_mem_self]; rfl⟩

theorem getDeriv_stays {E : Env} {o : Address} {s : Tree} (h : (s.derivMem o).isSome = true) :
    Tree.getDerivativeChain E o s = ⟨.ok (), s, []⟩ := by
  rcases Tree.getDeriv_cases E o s with ⟨_, e⟩ | ⟨hm, _⟩
  · exact e
  · rw [hm] at h; cases h

/-- A call that opens a derivative chain and goes on with `y` on it. -/
theorem opened_again {a : Bool} (E : Env) (o : Address) {y : Act DerivativeChain Unit}
    (hy : ∀ t : Tree, (t.derivMem o).isSome = true → Calms a (x := Tree.onDeriv o y) t) (s : Tree) :
    Calms a (x := do Tree.getDerivativeChain E o; Tree.onDeriv o y) s := by
  have mem : ∀ t : Tree, ((Tree.onDeriv o y t).final.derivMem o).isSome = true := fun t => by
    show ((Tree.putHandle o _ t).derivMem o).isSome = true
    rw [Tree.putHandle_mem_self]; rfl
  have ok : ∀ t u : Tree, (Tree.getDerivativeChain E o t).out = .ok () → (Tree.getDerivativeChain E o t).final = u →
      ((do Tree.getDerivativeChain E o; Tree.onDeriv o y : Act Tree Unit) t).out = (Tree.onDeriv o y u).out ∧
      ((do Tree.getDerivativeChain E o; Tree.onDeriv o y : Act Tree Unit) t).final = (Tree.onDeriv o y u).final := by
    intro t u h1 h2
    simp only [Act.bind_def, Act.bind, h1, h2, and_self]
  have bad : ∀ t : Tree, (Tree.getDerivativeChain E o t).out ≠ .ok () →
      ((do Tree.getDerivativeChain E o; Tree.onDeriv o y : Act Tree Unit) t).out = (Tree.getDerivativeChain E o t).out ∧
      ((do Tree.getDerivativeChain E o; Tree.onDeriv o y : Act Tree Unit) t).final = (Tree.getDerivativeChain E o t).final := by
    intro t h
    simp only [Act.bind_def, Act.bind]
    cases h' : (Tree.getDerivativeChain E o t).out with
    | ok u => exact absurd h' h
    | err e => exact ⟨rfl, rfl⟩
    | panic e => exact ⟨rfl, rfl⟩
    | ub => exact ⟨rfl, rfl⟩
  rcases getDeriv_again E o s with ⟨h1, h2⟩ | ⟨h1, h2⟩
  · obtain ⟨e1, e2⟩ := ok s _ h1 rfl
    have op := getDeriv_stays (E := E) (mem (Tree.getDerivativeChain E o s).final)
    obtain ⟨f1, f2⟩ := ok (Tree.onDeriv o y (Tree.getDerivativeChain E o s).final).final _ (by rw [op]) (by rw [op])
    obtain ⟨g1, g2⟩ := hy _ h2
    constructor
    · rw [e2, f2]; exact g1
    · rw [e2, f1, e1]; exact g2
  · obtain ⟨e1, e2⟩ := bad s h1
    constructor
    · rw [e2, h2, e2, h2]; exact equalContents_refl s
    · rw [e2, h2, e1, if_neg fun h => h1 h.2]

theorem derivAdd_again (E : Env) (o : Address) (b : DerivativeBlock) (t : Tree) :
    Calms true (x := Tree.onDeriv o (DerivativeChain.addBlock E b)) t := by
  have e : ∀ t : Tree, (Tree.onDeriv o (DerivativeChain.addBlock E b) t).out =
        (Chain.addBlock E b.defaultInfo.height b.dump (t.handle o).chain).out ∧
      (Tree.onDeriv o (DerivativeChain.addBlock E b) t).final =
        Tree.putHandle o { t.handle o with chain := (Chain.addBlock E b.defaultInfo.height b.dump (t.handle o).chain).final } t :=
    fun t => ⟨rfl, rfl⟩
  have hh := fun c => Tree.handle_put_self o c t
  have hm := fun c => Tree.putHandle_mem_self o c t
  rcases addBlock_again E b.defaultInfo.height b.dump (t.handle o).chain with ⟨h1, h2⟩ | ⟨h1, h2, h3, h4, h5, h6, h7⟩
  · constructor
    · rw [(e t).2, (e _).2]
      refine same_put ?_ ?_ ?_ ?_ <;> simp only [hh, h2, hm]
    · rw [(e t).2, (e _).1, (e t).1]
      simp only [hh, h1, h2, and_self, if_true]
  · constructor
    · rw [(e t).2, (e _).2]
      refine same_put ?_ ?_ ?_ ?_ <;> simp only [hh, hm, h3, h4, h5, h6, h7]
    · rw [(e t).2, (e _).1, (e t).1]
      simp only [hh]
      rw [if_neg fun h => h1 h.2]
      exact h2

theorem derivFlush_again (o : Address) (t : Tree) : Calms false (x := Tree.onDeriv o DerivativeChain.flush) t := by
  have e : ∀ t : Tree, (Tree.onDeriv o DerivativeChain.flush t).out = .ok () ∧
      (Tree.onDeriv o DerivativeChain.flush t).final = Tree.putHandle o (t.handle o).flushed t := fun t => by
    unfold Tree.onDeriv
    rw [Act.zoom_run]
    simp only [(DerivativeChain.flush_run _).1, (DerivativeChain.flush_run _).2, and_self]
  have hh := fun c => Tree.handle_put_self o c t
  have hm := fun c => Tree.putHandle_mem_self o c t
  constructor
  · rw [(e t).2, (e _).2]
    refine same_put ?_ ?_ ?_ ?_ <;> simp only [hh, hm] <;> rfl
  · rw [(e t).2, (e _).1, (e t).1]
    simp

/-! ## All calls -/

/-- C174. Whatever state a node is in: a call that stores a block or transactions it is given, sets a balance, opens a
derivative chain or flushes something may be repeated. The second call changes no contents, whether the first succeeded,
was refused or panicked. It is answered as the first was, except that a block that has been appended is refused. -/
theorem C174_repeat (E : Env) (op : Op) (h : Op.Retryable op) (s : Tree) :
    EqualContents (op.run E s).final (op.run E (op.run E s).final).final ∧
    (Op.Appends op → (op.run E s).out = .ok () → (op.run E (op.run E s).final).out = .err .chainAddingBlock) ∧
    (¬ Op.Appends op ∨ (op.run E s).out ≠ .ok () → (op.run E (op.run E s).final).out = (op.run E s).out) := by
  have app : Op.Appends op → Calms true (x := op.run E) s → _ := fun h (c : Calms true (x := op.run E) s) =>
    (⟨c.same, fun _ ho => by rw [c.again, if_pos ⟨rfl, ho⟩], fun hn => by
      rw [c.again, if_neg]
      rcases hn with hn | hn
      · exact fun _ => hn h
      · exact fun h => hn h.2⟩ : EqualContents (op.run E s).final (op.run E (op.run E s).final).final ∧
    (Op.Appends op → (op.run E s).out = .ok () → (op.run E (op.run E s).final).out = .err .chainAddingBlock) ∧
    (¬ Op.Appends op ∨ (op.run E s).out ≠ .ok () → (op.run E (op.run E s).final).out = (op.run E s).out))
  have rest : ¬ Op.Appends op → Calms false (x := op.run E) s → _ := fun h (c : Calms false (x := op.run E) s) =>
    (⟨c.same, fun h' => absurd h' h, fun _ => by rw [c.again, if_neg (by simp)]⟩ :
      EqualContents (op.run E s).final (op.run E (op.run E s).final).final ∧
    (Op.Appends op → (op.run E s).out = .ok () → (op.run E (op.run E s).final).out = .err .chainAddingBlock) ∧
    (¬ Op.Appends op ∨ (op.run E s).out ≠ .ok () → (op.run E (op.run E s).final).out = (op.run E s).out))
  cases op with
  | addBlock b => exact app trivial (mainAdd_again E b s)
  | addNewBlock b txs =>
    exact app trivial (newBlock_again E b txs s)
  | addTransaction t => exact rest id (addTransactions_again E [t] s)
  | addTransactions ts => exact rest id (addTransactions_again E ts s)
  | setAmount o a =>
    refine rest id ?_
    have e : ∀ t : Tree, (Op.setAmount o a).run E t =
        ⟨.ok (), { t with summary := t.summary.insert o (Ledger.encode a) }, [{ t with summary := t.summary.insert o (Ledger.encode a) }]⟩ := by
      intro t
      show Tree.onSummary (Ledger.set o a) t = _
      unfold Tree.onSummary
      rw [Act.zoom_run, Ledger.set_run]
      rfl
    constructor
    · rw [e s]
      simp only
      rw [e]
      intro p
      cases p <;> first | exact rfl | exact ⟨rfl, rfl⟩ | exact insert_again _ _ _
    · rw [e s]
      simp only
      rw [e]
      simp
  | getDerivativeChain o =>
    refine rest id ?_
    show Calms false (x := Tree.getDerivativeChain E o) s
    rcases getDeriv_again E o s with ⟨h1, h2⟩ | ⟨h1, h2⟩
    · constructor
      · rw [getDeriv_stays h2]; exact equalContents_refl _
      · rw [getDeriv_stays h2, h1]; simp
    · constructor
      · rw [h2, h2]; exact equalContents_refl _
      · rw [h2]; simp
  | derivAddBlock o b => exact app trivial (opened_again E o (fun t _ => derivAdd_again E o b t) s)
  | derivFlush o => exact rest id (opened_again E o (fun t _ => derivFlush_again o t) s)
  | mainFlush =>
    refine rest id ?_
    have e : ∀ t : Tree, ((Op.mainFlush).run E t).out = .ok () ∧ ((Op.mainFlush).run E t).final = { t with main := t.main.flushed } := by
      intro t
      show (Tree.onMain MainChain.flush t).out = _ ∧ (Tree.onMain MainChain.flush t).final = _
      unfold Tree.onMain
      rw [Act.zoom_run, MainChain.flush_run]
      exact ⟨rfl, rfl⟩
    constructor
    · rw [(e s).2, (e _).2]
      intro p
      cases p <;> first | exact rfl | exact ⟨rfl, rfl⟩
    · rw [(e _).1, (e s).1]; simp
  | flush =>
    refine rest id ?_
    have e : ∀ t : Tree, ((Op.flush).run E t).out = .ok () ∧ ((Op.flush).run E t).final = t.flushed := by
      intro t
      obtain ⟨tr, e, _⟩ := Tree.flush_run t
      show (Tree.flush t).out = _ ∧ (Tree.flush t).final = _
      rw [e]
      exact ⟨rfl, rfl⟩
    constructor
    · rw [(e s).2, (e _).2]
      intro p
      cases p <;> first | exact rfl | exact ⟨rfl, rfl⟩
    · rw [(e _).1, (e s).1]; simp
  | _ => exact absurd h id

/-- C174. The same when other clients are served in between, as long as their calls and this one share nothing: the
second call is answered as if it came right after the first, and what the other clients do not change is as after one
call. -/
theorem C174_later (E : Env) (op : Op) (h : Op.Retryable op) (s : Tree) (others : List Op)
    (hd : ∀ a ∈ others, Detached E a op) :
    share 0 (serve E ((0, op) :: others.map (fun a => (1, a)) ++ [(0, op)]) s).1 =
      [(op.run E s).out, (op.run E (op.run E s).final).out] ∧
    ∀ c : Cell, (∀ a ∈ others, ¬ Op.writes E a c) →
      c.Same (op.run E s).final (serve E ((0, op) :: others.map (fun a => (1, a)) ++ [(0, op)]) s).2 := by
  have hsh : share 0 ((0, op) :: others.map (fun a => ((1 : Nat), a)) ++ [(0, op)]) = [op, op] := by
    have : ∀ l : List Op, share 0 (l.map (fun a => ((1 : Nat), a)) ++ [(0, op)]) = [op] := by
      intro l
      induction l with
      | nil => rfl
      | cons a l ih => exact ih
    exact congrArg (op :: ·) (this others)
  have un : Unshared E ((0, op) :: others.map (fun a => ((1 : Nat), a)) ++ [(0, op)]) := by
    have mem : ∀ x ∈ (0, op) :: others.map (fun a => ((1 : Nat), a)) ++ [(0, op)], x = (0, op) ∨ (x.1 = 1 ∧ x.2 ∈ others) := by
      intro x hx
      simp only [List.cons_append, List.mem_cons, List.mem_append, List.mem_map, List.not_mem_nil, or_false] at hx
      rcases hx with rfl | ⟨a, ha, rfl⟩ | rfl
      · exact .inl rfl
      · exact .inr ⟨rfl, ha⟩
      · exact .inl rfl
    intro x hx y hy hne
    rcases mem x hx with rfl | ⟨h1, h2⟩ <;> rcases mem y hy with rfl | ⟨h3, h4⟩
    · exact absurd rfl hne
    · exact fun c => (hd y.2 h4 c).symm
    · exact hd x.2 h2
    · exact absurd (h1.trans h3.symm) hne
  obtain ⟨h1, h2⟩ := C173_alone E s _ un 0
  rw [hsh] at h1 h2
  refine ⟨h1, fun c hc => ?_⟩
  have fin := h2 c (fun x hx hne => by
    simp only [List.cons_append, List.mem_cons, List.mem_append, List.mem_map, List.not_mem_nil, or_false] at hx
    rcases hx with rfl | ⟨a, ha, rfl⟩ | rfl
    · exact absurd rfl hne
    · exact hc a ha
    · exact absurd rfl hne)
  have same := (C174_repeat E op h s).1
  refine (cell_preord c).trans (b := (op.run E (op.run E s).final).final) ?_ fin
  cases c with
  | coin k => exact cell_of_coins (same .coins) k
  | fuel k => exact cell_of_gas (same .gas) k
  | stored k => exact cell_of_stored (same .transactions) k
  | other p => exact fun _ => same p

/-! ## The other calls -/

/-- The second call changes something. -/
def Doubles (E : Env) (op : Op) (s : Tree) : Prop :=
  ¬ EqualContents (op.run E s).final (op.run E (op.run E s).final).final

theorem doubles_coins {E : Env} {op : Op} {s : Tree} (k : Bytes) (h : (op.run E (op.run E s).final).final.summary.cur.amt k ≠
    (op.run E s).final.summary.cur.amt k) : Doubles E op s := fun hs => h (by
  rw [show (op.run E (op.run E s).final).final.summary.cur = _ from hs .coins])

theorem doubles_gas {E : Env} {op : Op} {s : Tree} (k : Bytes) (h : (op.run E (op.run E s).final).final.gas.cur.amt k ≠
    (op.run E s).final.gas.cur.amt k) : Doubles E op s := fun hs => h (by
  rw [show (op.run E (op.run E s).final).final.gas.cur = _ from hs .gas])

/-- A node on which account 1 has ten coins and ten gas. -/
def tenEach : Tree := ((Op.addGas [1] ⟨10, by decide⟩).run zeroEnv
  ((Op.addAmount [1] ⟨10, by decide⟩).run zeroEnv (openTree zeroEnv Disk.empty).final).final).final

theorem tenEach_life : Life zeroEnv (.idle tenEach) := .call _ _ (.call _ _ (life_fresh zeroEnv))

/-- C174. None of the other calls may be repeated: each of the nine, on some node that can arise, does more the second
time. -/
theorem C174_doubles :
    (∃ E s o a, Life E (.idle s) ∧ Doubles E (.addAmount o a) s) ∧
    (∃ E s o a, Life E (.idle s) ∧ Doubles E (.subAmount o a) s) ∧
    (∃ E s o o' a, Life E (.idle s) ∧ Doubles E (.sendAmount o o' a) s) ∧
    (∃ E s o a, Life E (.idle s) ∧ Doubles E (.addGas o a) s) ∧
    (∃ E s o a, Life E (.idle s) ∧ Doubles E (.subGas o a) s) ∧
    (∃ E s o o' a, Life E (.idle s) ∧ Doubles E (.sendGas o o' a) s) ∧
    (∃ E s tx, Life E (.idle s) ∧ Doubles E (.sendTransaction tx) s) ∧
    (∃ E s p f txs ts, Life E (.idle s) ∧ Doubles E (.emitMain p f txs ts) s) ∧
    (∃ E s p f ts, Life E (.idle s) ∧ Doubles E (.emitDerivative p f ts) s) := by
  refine ⟨⟨zeroEnv, tenEach, [1], U256.one, tenEach_life, doubles_coins [1] ?_⟩,
    ⟨zeroEnv, tenEach, [1], U256.one, tenEach_life, doubles_coins [1] ?_⟩,
    ⟨zeroEnv, tenEach, [1], [2], U256.one, tenEach_life, doubles_coins [1] ?_⟩,
    ⟨zeroEnv, tenEach, [1], U256.one, tenEach_life, doubles_gas [1] ?_⟩,
    ⟨zeroEnv, tenEach, [1], U256.one, tenEach_life, doubles_gas [1] ?_⟩,
    ⟨zeroEnv, tenEach, [1], [2], U256.one, tenEach_life, doubles_gas [1] ?_⟩, ?_,
    ⟨zeroEnv, _, BytesN.fill 32 0, BytesN.fill 33 1, [BytesN.fill 32 5], 1597925400, life_fresh zeroEnv, fun same => ?_⟩,
    ⟨zeroEnv, _, BytesN.fill 32 0, BytesN.fill 33 1, 1597925400, life_fresh zeroEnv, fun same => ?_⟩⟩
  · unfold tenEach; rw [(openTree_fresh zeroEnv).2]; decide +kernel
  · unfold tenEach; rw [(openTree_fresh zeroEnv).2]; decide +kernel
  · unfold tenEach; rw [(openTree_fresh zeroEnv).2]; decide +kernel
  · unfold tenEach; rw [(openTree_fresh zeroEnv).2]; decide +kernel
  · unfold tenEach; rw [(openTree_fresh zeroEnv).2]; decide +kernel
  · unfold tenEach; rw [(openTree_fresh zeroEnv).2]; decide +kernel
  · by_contra hn
    refine C55_refuted.2 fun E s tx f hr _ hf => ?_
    by_contra hs
    refine hn ⟨E, s, tx, run_life hr, fun same => hs fun k => ?_⟩
    have e : ((Op.sendTransaction tx).run E ((Op.sendTransaction tx).run E s).final).final.summary.cur = _ := same .coins
    obtain ⟨a, h1, h2⟩ := hf k
    refine ⟨a, ?_, h2⟩
    unfold Db.get at h1 ⊢
    rw [e]
    exact h1
  · have : _ = _ := same .height
    rw [(openTree_fresh zeroEnv).2] at this
    revert this
    decide +kernel
  · have : _ = _ := congrArg (fun m : Option DerivMem => m.map fun c => c.height.val) (same (.derivState (BytesN.fill 33 1)))
    rw [(openTree_fresh zeroEnv).2] at this
    revert this
    decide +kernel

/-! ## The hypotheses are met -/

/-- A block is stored, other clients are served, the same block is sent again. -/
example (E : Env) (b : Block) (o : Bytes) (a : U256) : Op.Retryable (.addBlock b) ∧ Detached E (.addAmount o a) (.addBlock b) := by
  refine ⟨trivial, detached_of (fun _ hk => hk.2) (fun _ hk => hk.1) (fun _ hk => hk.1) fun p => ?_⟩
  cases p <;> simp [Op.writes, Op.reads, mayChange, mayRead, Part.Keyed]

end BCT.Props
