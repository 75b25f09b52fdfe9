import Verif.Lemmas.Life
/-!
# C104: which calls can change what
-/

namespace BCT.Props
open BCT

/-- The parts of a node, each with its own store. -/
inductive Part where
  | blocks
  | references
  | transactions
  | height
  | difficulty
  | config
  | coins
  | oldCoins
  | gas
  | oldGas
  /-- blocks and references of a derivative chain -/
  | derivBlocks (owner : Address)
  | derivConfig (owner : Address)
  /-- height, difficulty and anchor of an open derivative chain -/
  | derivState (owner : Address)

/-- The part has the same contents in both states. -/
def Part.Same : Part → Tree → Tree → Prop
  | .blocks, s, t => t.main.chain.blocks.cur = s.main.chain.blocks.cur
  | .references, s, t => t.main.chain.heightReference.cur = s.main.chain.heightReference.cur
  | .transactions, s, t => t.main.transactions.cur = s.main.transactions.cur
  | .height, s, t => t.main.chain.height = s.main.chain.height
  | .difficulty, s, t => t.main.chain.difficulty = s.main.chain.difficulty
  | .config, s, t => t.main.chain.config = s.main.chain.config
  | .coins, s, t => t.summary.cur = s.summary.cur
  | .oldCoins, s, t => t.oldSummary.cur = s.oldSummary.cur
  | .gas, s, t => t.gas.cur = s.gas.cur
  | .oldGas, s, t => t.oldGas.cur = s.oldGas.cur
  | .derivBlocks o, s, t => (t.derivFiles (hexEncode o.val)).blocks.cur = (s.derivFiles (hexEncode o.val)).blocks.cur ∧
      (t.derivFiles (hexEncode o.val)).heightReference.cur = (s.derivFiles (hexEncode o.val)).heightReference.cur
  | .derivConfig o, s, t => (t.derivFiles (hexEncode o.val)).config = (s.derivFiles (hexEncode o.val)).config
  | .derivState o, s, t => t.derivMem o = s.derivMem o

/-- The parts a call may change, read off what each call is for. -/
def mayChange : Op → Part → Prop
  | .addBlock _, p => p = .blocks ∨ p = .references ∨ p = .height
  | .addNewBlock .., p => p = .blocks ∨ p = .references ∨ p = .height ∨ p = .transactions
  | .addTransaction _, p => p = .transactions
  | .addTransactions _, p => p = .transactions
  | .addAmount .., p => p = .coins
  | .setAmount .., p => p = .coins
  | .subAmount .., p => p = .coins
  | .sendAmount .., p => p = .coins
  | .addGas .., p => p = .gas
  | .subGas .., p => p = .gas
  | .sendGas .., p => p = .gas
  | .sendTransaction _, p => p = .transactions ∨ p = .coins ∨ p = .gas
  | .emitMain .., p => p = .blocks ∨ p = .references ∨ p = .height ∨ p = .config ∨ p = .coins ∨ p = .oldCoins ∨ p = .oldGas
  | .emitDerivative _ f _, p => p = .derivBlocks f ∨ p = .derivState f
  | .getDerivativeChain o, p => p = .derivState o
  | .derivAddBlock o _, p => p = .derivBlocks o ∨ p = .derivState o
  | .derivFlush o, p => p = .derivConfig o ∨ p = .derivState o
  | .mainFlush, p => p = .config
  | .flush, p => p = .config

theorem same_preord (p : Part) : Act.PreOrd p.Same where
  refl s := by cases p <;> simp [Part.Same]
  trans := by
    intro a b c h1 h2
    cases p with
    | derivBlocks o => exact ⟨h2.1.trans h1.1, h2.2.trans h1.2⟩
    | _ => exact Eq.trans h2 h1

/-- Parts outside the main chain. -/
def Part.Outside : Part → Prop
  | .blocks | .references | .transactions | .height | .difficulty | .config => False
  | _ => True

theorem onMain_same {α : Type} (x : Act MainChain α) (p : Part) (hp : p.Outside) : Act.Rel p.Same (Tree.onMain x) := by
  refine Act.rel_zoom (R := fun _ _ => True) (fun _ => ⟨trivial, fun _ _ => trivial⟩) fun t m _ => ?_
  cases p <;> first | exact absurd hp id | exact rfl | exact ⟨rfl, rfl⟩

theorem addBlock_same (E : Env) (b : Block) (p : Part) (h1 : p ≠ .blocks) (h2 : p ≠ .references) (h3 : p ≠ .height) :
    Act.Rel p.Same (Tree.onMain (MainChain.addBlock E b)) := by
  have key : Act.Rel (fun c d : Chain => d.difficulty = c.difficulty ∧ d.config = c.config)
      (Chain.addBlock E b.info.height b.dump) :=
    Chain.addBlock_rel E (fun _ => ⟨rfl, rfl⟩) _ _ (fun _ _ => ⟨rfl, rfl⟩) (fun _ _ => ⟨rfl, rfl⟩) (fun _ _ _ => ⟨rfl, rfl⟩)
  have key2 := MainChain.addBlock_rel (Q := fun m n : MainChain => n.transactions.cur = m.transactions.cur ∧
    n.chain.difficulty = m.chain.difficulty ∧ n.chain.config = m.chain.config) key (fun m c h => ⟨rfl, h⟩)
  refine Act.rel_zoom key2 fun t m h => ?_
  cases p <;> first | exact absurd rfl ‹_› | exact h.1 | exact h.2.1 | exact h.2.2 | exact rfl | exact ⟨rfl, rfl⟩

theorem addTransaction_same (E : Env) (t : Transaction) (p : Part) (h : p ≠ .transactions) :
    Act.Rel p.Same (Tree.onMain (MainChain.addTransaction E t)) := by
  have key : Act.Rel (fun m n : MainChain => n.chain = m.chain) (MainChain.addTransaction E t) :=
    Act.rel_step fun _ => rfl
  refine Act.rel_zoom key fun t m hm => ?_
  cases p <;> first | exact absurd rfl h | exact congrArg Chain.difficulty hm | exact congrArg Chain.config hm |
    exact congrArg Chain.height hm | exact congrArg (fun c => c.blocks.cur) hm |
    exact congrArg (fun c => c.heightReference.cur) hm | exact rfl | exact ⟨rfl, rfl⟩

theorem addTransactions_same (E : Env) (ts : List Transaction) (p : Part) (h : p ≠ .transactions) :
    Act.Rel p.Same (Tree.onMain (MainChain.addTransactions E ts)) := by
  unfold Tree.onMain MainChain.addTransactions
  rw [Act.zoom_forEach onMain_lens]
  exact (Act.rel_closed (same_preord p)).forEach fun t => addTransaction_same E t p h

theorem onSummary_same {α : Type} (x : Act Db α) (p : Part) (h : p ≠ .coins) : Act.Rel p.Same (Tree.onSummary x) := by
  refine Act.rel_zoom (R := fun _ _ => True) (fun _ => ⟨trivial, fun _ _ => trivial⟩) fun t m _ => ?_
  cases p <;> first | exact absurd rfl h | exact rfl | exact ⟨rfl, rfl⟩

theorem onGas_same {α : Type} (x : Act Db α) (p : Part) (h : p ≠ .gas) : Act.Rel p.Same (Tree.onGas x) := by
  refine Act.rel_zoom (R := fun _ _ => True) (fun _ => ⟨trivial, fun _ _ => trivial⟩) fun t m _ => ?_
  cases p <;> first | exact absurd rfl h | exact rfl | exact ⟨rfl, rfl⟩

theorem sendCoins_same (s t : Bytes) (a : U256) (p : Part) (h : p ≠ .coins) :
    Act.Rel p.Same (Tree.sendAmount s t a) := by
  unfold Tree.sendAmount
  split
  · exact (Act.rel_closed (same_preord p)).pure ()
  · exact onSummary_same _ p h

theorem mainFlush_same (p : Part) (h : p ≠ .config) : Act.Rel p.Same (Tree.onMain MainChain.flush) := by
  have key : Act.Rel (fun m n : MainChain => n.chain.blocks.cur = m.chain.blocks.cur ∧
      n.chain.heightReference.cur = m.chain.heightReference.cur ∧ n.transactions.cur = m.transactions.cur ∧
      n.chain.height = m.chain.height ∧ n.chain.difficulty = m.chain.difficulty) MainChain.flush :=
    MainChain.flush_rel ⟨fun _ => ⟨rfl, rfl, rfl, rfl, rfl⟩, fun h1 h2 => ⟨h2.1.trans h1.1, h2.2.1.trans h1.2.1,
      h2.2.2.1.trans h1.2.2.1, h2.2.2.2.1.trans h1.2.2.2.1, h2.2.2.2.2.trans h1.2.2.2.2⟩⟩
      (fun _ _ => ⟨rfl, rfl, rfl, rfl, rfl⟩) (fun _ => ⟨rfl, rfl, rfl, rfl, rfl⟩) (fun _ => ⟨rfl, rfl, rfl, rfl, rfl⟩)
      (fun _ => ⟨rfl, rfl, rfl, rfl, rfl⟩)
  refine Act.rel_zoom key fun t m hm => ?_
  obtain ⟨a, b, c, d, e⟩ := hm
  cases p <;> first | exact absurd rfl h | exact a | exact b | exact c | exact d | exact e | exact rfl | exact ⟨rfl, rfl⟩

theorem flush_same (p : Part) (h : p ≠ .config) : Act.Rel p.Same Tree.flush := by
  refine Tree.flush_rel (same_preord p) (mainFlush_same p h) ?_ ?_ ?_ ?_ <;>
    (intro t; cases p <;> first | exact rfl | exact ⟨rfl, rfl⟩)

theorem rotate_same (p : Part) (h : p ≠ .config) (h1 : p ≠ .oldCoins) (h2 : p ≠ .oldGas) :
    Act.Rel p.Same Tree.rotateDbs := by
  refine Tree.rotate_rel (same_preord p) (flush_same p h) ?_ ?_ <;>
    (intro t m; cases p <;> first | exact absurd rfl ‹_› | exact rfl | exact ⟨rfl, rfl⟩)

theorem put_same (o : Address) (c : DerivativeChain) (t : Tree) (p : Part)
    (h1 : p = .derivBlocks o → c.chain.blocks.cur = (t.handle o).chain.blocks.cur ∧
      c.chain.heightReference.cur = (t.handle o).chain.heightReference.cur)
    (h2 : p = .derivConfig o → c.chain.config = (t.handle o).chain.config) (h3 : p ≠ .derivState o) :
    p.Same t (Tree.putHandle o c t) := by
  cases p with
  | derivBlocks o' =>
    by_cases e : o' = o
    · subst e
      simpa [Part.Same, Tree.putHandle, Tree.handle] using h1 rfl
    · have : hexEncode o'.val ≠ hexEncode o.val := fun h => e (hexEncode_address h)
      simp [Part.Same, Tree.putHandle, this]
  | derivConfig o' =>
    by_cases e : o' = o
    · subst e
      simpa [Part.Same, Tree.putHandle, Tree.handle] using h2 rfl
    · have : hexEncode o'.val ≠ hexEncode o.val := fun h => e (hexEncode_address h)
      simp [Part.Same, Tree.putHandle, this]
  | derivState o' =>
    have e : o' ≠ o := fun h => h3 (by rw [h])
    simp [Part.Same, Tree.putHandle, e]
  | _ => exact rfl

theorem getDeriv_same (E : Env) (o : Address) (p : Part) (h : p ≠ .derivState o) :
    Act.Rel p.Same (Tree.getDerivativeChain E o) :=
  Tree.getDeriv_rel (same_preord p).refl E o fun t c _ hb hr hc =>
    put_same o c t p (fun _ => ⟨by rw [hb]; rfl, by rw [hr]; rfl⟩) (fun _ => by rw [hc]; rfl) h

theorem derivAdd_same (E : Env) (o : Address) (b : DerivativeBlock) (p : Part) (h1 : p ≠ .derivBlocks o)
    (h2 : p ≠ .derivState o) : Act.Rel p.Same (Tree.onDeriv o (DerivativeChain.addBlock E b)) := by
  have key : Act.Rel (fun c d : Chain => d.config = c.config) (Chain.addBlock E b.defaultInfo.height b.dump) :=
    Chain.addBlock_rel (R := fun c d : Chain => d.config = c.config) E (fun _ => rfl) _ _ (fun _ _ => rfl)
      (fun _ _ => rfl) (fun _ _ _ => rfl)
  have key2 := DerivativeChain.addBlock_rel (Q := fun m n : DerivativeChain => n.chain.config = m.chain.config) key
    (fun m c h => h)
  exact Act.rel_zoom key2 fun t m h => put_same o m t p (fun e => absurd e h1) (fun _ => h) h2

theorem derivFlush_same (o : Address) (p : Part) (h1 : p ≠ .derivConfig o) (h2 : p ≠ .derivState o) :
    Act.Rel p.Same (Tree.onDeriv o DerivativeChain.flush) := by
  refine Act.rel_zoom (R := fun m n : DerivativeChain => n.chain.blocks.cur = m.chain.blocks.cur ∧
    n.chain.heightReference.cur = m.chain.heightReference.cur) ?_ fun t m h =>
      put_same o m t p (fun _ => h) (fun e => absurd e h1) h2
  have C := Act.rel_closed (R := fun m n : DerivativeChain => n.chain.blocks.cur = m.chain.blocks.cur ∧
    n.chain.heightReference.cur = m.chain.heightReference.cur)
    ⟨fun _ => ⟨rfl, rfl⟩, fun h1 h2 => ⟨h2.1.trans h1.1, h2.2.trans h1.2⟩⟩
  unfold DerivativeChain.flush DerivativeChain.dumpConfig DerivativeChain.writeConfig
  exact C.bind (C.bind (Act.rel_step fun m => ⟨rfl, rfl⟩) fun _ => C.bind (Act.rel_step fun m => ⟨rfl, rfl⟩) fun _ =>
    C.bind (Act.rel_step fun m => ⟨rfl, rfl⟩) fun _ => Act.rel_step fun m => ⟨rfl, rfl⟩) fun _ =>
    C.bind (Act.rel_step fun m => ⟨rfl, rfl⟩) fun _ => Act.rel_step fun m => ⟨rfl, rfl⟩

/-- C104. A call, started in any state and whatever its outcome, leaves every part it is not meant to change as it was,
at its end and at every moment in between. In particular a call on one owner's derivative chain leaves every other
owner's alone, and flushing changes nothing that can be looked up. -/
theorem C104_frame (E : Env) (op : Op) (p : Part) (h : ¬ mayChange op p) (s : Tree) :
    p.Same s (op.run E s).final ∧ ∀ t ∈ (op.run E s).trace, p.Same s t := by
  have C := Act.rel_closed (same_preord p)
  suffices Act.Rel p.Same (op.run E) from this s
  cases op <;> simp only [mayChange, not_or] at h
  case addBlock b => exact addBlock_same E b p h.1 h.2.1 h.2.2
  case addNewBlock b txs =>
    exact C.bind (addBlock_same E b p h.1 h.2.1 h.2.2.1) fun _ => addTransactions_same E txs p h.2.2.2
  case addTransaction t => exact addTransaction_same E t p h
  case addTransactions ts => exact addTransactions_same E ts p h
  case addAmount o a => exact onSummary_same _ p h
  case setAmount o a => exact onSummary_same _ p h
  case subAmount o a => exact onSummary_same _ p h
  case sendAmount a b c => exact sendCoins_same a b c p h
  case addGas o a => exact onGas_same _ p h
  case subGas o a => exact onGas_same _ p h
  case sendGas a b c => exact onGas_same _ p h
  case sendTransaction tx =>
    show Act.Rel p.Same (Tree.sendTransaction E tx)
    unfold Tree.sendTransaction
    refine C.bind C.get fun t => C.bind (C.lift _) fun g => C.bind (C.lift _) fun a => C.bind (C.lift _) fun r => ?_
    split
    · exact C.lift _
    · refine C.bind (C.lift _) fun _ => C.bind (C.lift _) fun _ => C.bind (C.lift _) fun _ => C.bind (C.lift _) fun _ => ?_
      split
      · exact C.lift _
      · exact C.bind (addTransaction_same E tx p h.1) fun _ => C.bind (sendCoins_same _ _ _ p h.2.1) fun _ =>
          onGas_same _ p h.2.2
  case emitMain pow f txs ts =>
    obtain ⟨h1, h2, h3, h4, h5, h6, h7⟩ := h
    refine C.void (x := Tree.emitMain E pow f txs ts) ?_
    unfold Tree.emitMain
    refine C.bind C.get fun t => C.bind (C.lift _) fun _ => C.bind (C.lift _) fun _ => C.bind (C.lift _) fun _ => ?_
    split
    · exact C.lift _
    · refine C.bind (C.lift _) fun _ => C.bind (C.lift _) fun _ => C.bind (C.lift _) fun _ => C.bind ?_ fun _ =>
        C.bind (addBlock_same E _ p h1 h2 h3) fun _ => C.pure _
      split
      · split
        · exact C.lift _
        · exact C.bind (C.lift _) fun _ => C.bind (rotate_same p h4 h6 h7) fun _ =>
            C.bind (onSummary_same _ p h5) fun _ => C.pure _
      · split
        · exact C.lift _
        · exact C.bind (C.lift _) fun _ => C.pure _
  case emitDerivative pow f ts =>
    refine C.void (x := Tree.emitDerivative E pow f ts) ?_
    unfold Tree.emitDerivative
    refine C.bind (getDeriv_same E f p h.2) fun _ => C.bind C.get fun t => C.bind (C.lift _) fun _ =>
      C.bind (C.lift _) fun r => C.bind (C.lift _) fun _ => ?_
    split
    · exact C.lift _
    · exact C.bind (C.lift _) fun _ => C.bind (derivAdd_same E f _ p h.1 h.2) fun _ => C.pure _
  case getDerivativeChain o => exact getDeriv_same E o p h
  case derivAddBlock o b => exact C.bind (getDeriv_same E o p h.2) fun _ => derivAdd_same E o b p h.1 h.2
  case derivFlush o => exact C.bind (getDeriv_same E o p h.2) fun _ => derivFlush_same o p h.1 h.2
  case mainFlush => exact mainFlush_same p h
  case flush => exact flush_same p h

/-- A call that does change its own part: a deposit of gas in an empty node. -/
example (E : Env) :
    ¬ Part.gas.Same Disk.empty.boot ((Op.addGas [7] ⟨5, by decide⟩).run E Disk.empty.boot).final ∧
    Part.coins.Same Disk.empty.boot ((Op.addGas [7] ⟨5, by decide⟩).run E Disk.empty.boot).final := by
  refine ⟨fun h => ?_, (C104_frame E _ .coins (by simp [mayChange]) _).1⟩
  have h : 1 = 0 := congrArg (fun d : KV => d.entries.length) h
  cases h

end BCT.Props
