import Verif.Props.ForgetRestart
import Verif.Props.DerivEmit
/-!
# C169: derivative chains never reread their history either

C167 with less to agree in: of the derivative chains, too, only the height, the anchor and the last block need be the same
(blockchaintree.rs:85-101, :369-413, chain.rs:451-518, :582-714).
-/

namespace BCT.Props
open BCT

/-- The present of a derivative chain. -/
structure PresentDeriv (c d : DerivativeChain) : Prop where
  height : c.chain.height = d.chain.height
  difficulty : c.chain.difficulty = d.chain.difficulty
  anchor : c.genesisHash = d.genesisHash
  last : c.getLastRawBlock = d.getLastRawBlock

/-- Both succeed, with related results, or both fail in the same way. -/
def Outcome.Alike {α : Type} (R : α → α → Prop) : Outcome α → Outcome α → Prop
  | .ok a, .ok b => R a b
  | .err e, .err e' => e = e'
  | .panic p, .panic p' => p = p'
  | .ub, .ub => True
  | _, _ => False

/-- The chain found in the directory of an owner, were it opened with the anchor `g`. -/
def Tree.found (s : Tree) (o : Address) (g : Hash) : Outcome DerivativeChain :=
  let f := s.derivFiles (hexEncode o.val)
  DerivativeChain.new g f.blocks f.heightReference f.config

/-- The present of a node: of every chain only the height and the last block (and the anchor of derivative chains), open or
as it would be opened. -/
structure PresentAll (s t : Tree) : Prop where
  main : PresentMain s.main t.main
  mem : s.derivMem = t.derivMem
  opened : ∀ o, PresentDeriv (s.handle o) (t.handle o)
  closed : ∀ o, s.derivMem o = none → ∀ g, Outcome.Alike PresentDeriv (Tree.found s o g) (Tree.found t o g)
  coins : s.summary.cur = t.summary.cur
  gas : s.gas.cur = t.gas.cur

theorem PresentDeriv.block {c d : DerivativeChain} (h : PresentDeriv c d) : c.getLastBlock = d.getLastBlock := by
  unfold DerivativeChain.getLastBlock
  rw [h.last]

theorem derivLast_pos {m : DerivativeChain} {h : U256} (hh : m.chain.height = h) (hp : h.val ≠ 0) :
    m.getLastRawBlock =
      .ok (m.chain.blocks.get (⟨h.val - 1, Nat.lt_of_le_of_lt (Nat.sub_le _ _) h.lt⟩ : U256).toBE.val) := by
  have e := lastRaw_pos (m := ⟨m.chain, Db.open' KV.empty⟩) hh hp
  unfold DerivativeChain.getLastRawBlock
  rw [if_neg (by rw [hh]; exact hp)]
  exact e

/-- Adding a block is the same code for both kinds of chains. -/
theorem present_derivAdd (E : Env) (b : DerivativeBlock) : Paired PresentDeriv (DerivativeChain.addBlock E b) := by
  intro c d h
  unfold DerivativeChain.addBlock DerivativeChain.onChain
  rw [Act.zoom_run, Act.zoom_run]
  by_cases hb : b.defaultInfo.height = c.chain.height
  · have hb' : b.defaultInfo.height = d.chain.height := hb.trans h.height
    by_cases hm : c.chain.height.val + 1 < U256.size
    · have hm' : d.chain.height.val + 1 < U256.size := h.height ▸ hm
      have e1 : Chain.addBlock E b.defaultInfo.height b.dump c.chain = _ :=
        (congrArg (fun q => Chain.addBlock E q b.dump c.chain) hb).trans (Chain.addBlock_right hm)
      have e2 : Chain.addBlock E b.defaultInfo.height b.dump d.chain = _ :=
        (congrArg (fun q => Chain.addBlock E q b.dump d.chain) hb').trans (Chain.addBlock_right hm')
      simp only [e1, e2]
      have hl : ∀ (x : DerivativeChain) (hx : x.chain.height.val + 1 < U256.size),
          (DerivativeChain.mk (x.chain.put3 E b.dump ⟨x.chain.height.val + 1, hx⟩) x.genesisHash).getLastRawBlock =
            .ok (some b.dump) := by
        intro x hx
        rw [derivLast_pos (h := ⟨x.chain.height.val + 1, hx⟩) rfl (Nat.succ_ne_zero _)]
        show Outcome.ok ((x.chain.blocks.cur.insert x.chain.height.toBE.val b.dump).get x.chain.height.toBE.val) = _
        rw [KV.get_insert, if_pos rfl]
      refine ⟨trivial, U256.ext ?_, h.difficulty, h.anchor, ?_⟩
      · show c.chain.height.val + 1 = d.chain.height.val + 1
        rw [h.height]
      · rw [hl, hl]
    · have hm' : ¬ d.chain.height.val + 1 < U256.size := h.height ▸ hm
      have e1 : Chain.addBlock E b.defaultInfo.height b.dump c.chain = _ :=
        (congrArg (fun q => Chain.addBlock E q b.dump c.chain) hb).trans (Chain.addBlock_max hm)
      have e2 : Chain.addBlock E b.defaultInfo.height b.dump d.chain = _ :=
        (congrArg (fun q => Chain.addBlock E q b.dump d.chain) hb').trans (Chain.addBlock_max hm')
      simp only [e1, e2]
      refine ⟨trivial, h.height, h.difficulty, h.anchor, ?_⟩
      have hp : c.chain.height.val ≠ 0 := fun e => hm (by rw [e]; decide)
      have hl := h.last
      rw [derivLast_pos rfl hp, derivLast_pos h.height.symm hp] at hl
      have hput : ∀ x : DerivativeChain, x.chain.height = c.chain.height →
          (DerivativeChain.mk (x.chain.put2 E b.dump) x.genesisHash).getLastRawBlock = .ok (x.chain.blocks.get
            (⟨c.chain.height.val - 1, Nat.lt_of_le_of_lt (Nat.sub_le _ _) c.chain.height.lt⟩ : U256).toBE.val) := by
        intro x hx
        rw [derivLast_pos (m := ⟨x.chain.put2 E b.dump, x.genesisHash⟩) (h := c.chain.height) hx hp]
        show Outcome.ok ((x.chain.blocks.cur.insert x.chain.height.toBE.val b.dump).get _) = _
        rw [KV.get_insert, if_neg]
        · rfl
        · intro e
          have := congrArg U256.val (toBE_inj e)
          rw [hx] at this
          simp only at this
          omega
      rw [hput c rfl, hput d h.height.symm, hl]
  · have hb' : b.defaultInfo.height ≠ d.chain.height := fun q => hb (q.trans h.height.symm)
    rw [Chain.addBlock_wrong hb, Chain.addBlock_wrong hb']
    exact ⟨rfl, h⟩

theorem present_derivFlush : Paired PresentDeriv DerivativeChain.flush := by
  unfold DerivativeChain.flush DerivativeChain.dumpConfig DerivativeChain.writeConfig
  exact paired_step fun _ _ h => ⟨h.height, h.difficulty, h.anchor, h.last⟩

theorem PresentAll.put {s t : Tree} (h : PresentAll s t) (o : Address) {c d : DerivativeChain} (hc : PresentDeriv c d) :
    PresentAll (Tree.putHandle o c s) (Tree.putHandle o d t) := by
  refine ⟨h.main, ?_, fun o' => ?_, fun o' hn g => ?_, h.coins, h.gas⟩
  · unfold Tree.putHandle
    rw [h.mem, hc.height, hc.difficulty, hc.anchor]
  · by_cases e : o' = o
    · subst e
      rw [Tree.handle_put_self, Tree.handle_put_self]
      exact hc
    · rw [Tree.handle_put_other _ _ e, Tree.handle_put_other _ _ e]
      exact h.opened o'
  · by_cases e : o' = o
    · subst e
      rw [Tree.putHandle_mem_self] at hn
      cases hn
    · unfold Tree.found
      rw [(Tree.putHandle_mem_other c s e).1] at hn
      rw [(Tree.putHandle_mem_other c s e).2, (Tree.putHandle_mem_other d t e).2]
      exact h.closed o' hn g

theorem presentAll_onDeriv {α : Type} (o : Address) {x : Act DerivativeChain α} (hx : Paired PresentDeriv x) :
    Paired PresentAll (Tree.onDeriv o x) := fun s t h => by
  obtain ⟨h1, h2⟩ := hx _ _ (h.opened o)
  unfold Tree.onDeriv
  rw [Act.zoom_run, Act.zoom_run]
  exact ⟨h1, h.put o h2⟩

theorem presentAll_onMain {α : Type} {x : Act MainChain α} (hx : Paired PresentMain x) :
    Paired PresentAll (Tree.onMain x) := fun s t h => by
  obtain ⟨h1, h2⟩ := hx s.main t.main h.main
  exact ⟨h1, ⟨h2, h.mem, h.opened, h.closed, h.coins, h.gas⟩⟩

theorem presentAll_onSummary (c : KV → Outcome KV) : Paired PresentAll (Tree.onSummary (Ledger.transact c)) :=
  fun s t h => by
    obtain ⟨h1, h2⟩ := present_transact c s.summary t.summary h.coins
    exact ⟨h1, ⟨h.main, h.mem, h.opened, h.closed, h2, h.gas⟩⟩

theorem presentAll_onGas (c : KV → Outcome KV) : Paired PresentAll (Tree.onGas (Ledger.transact c)) := fun s t h => by
  obtain ⟨h1, h2⟩ := present_transact c s.gas t.gas h.gas
  exact ⟨h1, ⟨h.main, h.mem, h.opened, h.closed, h.coins, h2⟩⟩

theorem presentAll_getDeriv (E : Env) (o : Address) : Paired PresentAll (Tree.getDerivativeChain E o) := by
  unfold Tree.getDerivativeChain
  refine paired_get fun s t h => ?_
  rw [h.main.block, h.mem]
  by_cases hm : (t.derivMem o).isSome = true
  · rw [if_pos hm, if_pos hm]
    exact ⟨rfl, h⟩
  · rw [if_neg hm, if_neg hm]
    have hn : s.derivMem o = none := by rw [h.mem]; simpa using hm
    cases t.main.getLastBlock with
    | err e => exact ⟨rfl, h⟩
    | panic e => exact ⟨rfl, h⟩
    | ub => exact ⟨rfl, h⟩
    | ok l =>
      cases l with
      | none => exact ⟨rfl, h⟩
      | some b =>
        have hc := h.closed o hn (b.hash E)
        show ((Act.lift (Tree.found s o (b.hash E)) >>= fun c => Act.step (Tree.putHandle o c)) s).out =
            ((Act.lift (Tree.found t o (b.hash E)) >>= fun c => Act.step (Tree.putHandle o c)) t).out ∧
          PresentAll ((Act.lift (Tree.found s o (b.hash E)) >>= fun c => Act.step (Tree.putHandle o c)) s).final
            ((Act.lift (Tree.found t o (b.hash E)) >>= fun c => Act.step (Tree.putHandle o c)) t).final
        generalize Tree.found s o (b.hash E) = x at hc
        generalize Tree.found t o (b.hash E) = y at hc
        cases x <;> cases y <;> simp only [Outcome.Alike] at hc
        · exact ⟨rfl, h.put o hc⟩
        · subst hc; exact ⟨rfl, h⟩
        · subst hc; exact ⟨rfl, h⟩
        · exact ⟨rfl, h⟩

/-- Walks through a call: the last blocks and the balances may be used. -/
local macro "walk_all" : tactic => `(tactic| repeat' first
  | exact paired_lift _
  | exact paired_pure _
  | exact presentAll_onMain (present_addBlock _ _)
  | exact presentAll_onMain (present_addTransaction _ _)
  | exact presentAll_onMain (present_addTransactions _ _)
  | exact presentAll_onMain present_mainFlush
  | exact presentAll_onDeriv _ (present_derivAdd _ _)
  | exact presentAll_onDeriv _ present_derivFlush
  | exact presentAll_getDeriv _ _
  | exact presentAll_onSummary _
  | exact presentAll_onGas _
  | exact paired_step fun _ _ h => ⟨h.main, h.mem, h.opened, h.closed, h.coins, h.gas⟩
  | refine paired_ite ?_ ?_
  | refine paired_bind ?_ fun _ => ?_)

theorem presentAll_flush : Paired PresentAll Tree.flush := by
  unfold Tree.flush
  walk_all

theorem presentAll_rotate : Paired PresentAll Tree.rotateDbs := by
  unfold Tree.rotateDbs
  refine paired_bind presentAll_flush fun _ => ?_
  walk_all

theorem presentAll_sendAmount (o o' : Bytes) (a : U256) : Paired PresentAll (Tree.sendAmount o o' a) := by
  unfold Tree.sendAmount Ledger.transfer
  walk_all

theorem presentAll_sendTransaction (E : Env) (t : Transaction) : Paired PresentAll (Tree.sendTransaction E t) := by
  unfold Tree.sendTransaction
  refine paired_get fun s u h => ?_
  have e1 : s.getGas t.sender = u.getGas t.sender := by unfold Tree.getGas Db.get; rw [h.gas]
  have e2 : s.getAmount t.sender = u.getAmount t.sender := by unfold Tree.getAmount Db.get; rw [h.coins]
  rw [e1, e2, h.main.block]
  refine (?_ : Paired PresentAll _) s u h
  unfold Tree.subGas Ledger.sub Tree.sendAmount Ledger.transfer
  walk_all

theorem presentAll_emitMain (E : Env) (p : BytesN 32) (f : Address) (txs : List Hash) (ts : UInt64) :
    Paired PresentAll (Tree.emitMain E p f txs ts) := by
  unfold Tree.emitMain
  refine paired_get fun s u h => ?_
  have e1 : s.summarize E = u.summarize E := by unfold Tree.summarize Db.get; rw [h.coins, h.gas]
  rw [e1, h.main.block]
  refine (?_ : Paired PresentAll _) s u h
  unfold Tree.setAmount Ledger.set
  repeat' first
    | exact presentAll_rotate
    | exact paired_lift _
    | exact paired_pure _
    | exact presentAll_onMain (present_addBlock _ _)
    | exact presentAll_onSummary _
    | refine paired_ite ?_ ?_
    | refine paired_bind ?_ fun _ => ?_

theorem presentAll_emitDerivative (E : Env) (p : BytesN 32) (o : Address) (ts : UInt64) (s t : Tree) (h : PresentAll s t)
    (hn : ¬ Op.LooksBack E s (.emitDerivative p o ts)) :
    (Tree.emitDerivative E p o ts s).out = (Tree.emitDerivative E p o ts t).out ∧
    PresentAll (Tree.emitDerivative E p o ts s).final (Tree.emitDerivative E p o ts t).final := by
  obtain ⟨h1, h2⟩ := presentAll_getDeriv E o s t h
  unfold Tree.emitDerivative
  rw [Act.bind_def]
  unfold Act.bind
  simp only [← h1]
  cases (Tree.getDerivativeChain E o s).out with
  | err e => exact ⟨rfl, h2⟩
  | panic e => exact ⟨rfl, h2⟩
  | ub => exact ⟨rfl, h2⟩
  | ok u =>
    simp only [Act.get_bind]
    have hn' : ((Tree.getDerivativeChain E o s).final.handle o).getLastBlock ≠ .ok none := hn
    generalize (Tree.getDerivativeChain E o s).final = s' at h2 hn'
    generalize (Tree.getDerivativeChain E o t).final = t' at h2
    rw [← (h2.opened o).block]
    cases e : (s'.handle o).getLastBlock with
    | ok l =>
      cases l with
      | none => exact absurd e hn'
      | some b =>
        refine (?_ : Paired PresentAll _) s' t' h2
        walk_all
    | err e => exact ⟨rfl, h2⟩
    | panic e => exact ⟨rfl, h2⟩
    | ub => exact ⟨rfl, h2⟩

theorem presentAll_op (E : Env) (op : Op) (s t : Tree) (h : PresentAll s t) (hn : ¬ Op.LooksBack E s op) :
    (op.run E s).out = (op.run E t).out ∧ PresentAll (op.run E s).final (op.run E t).final := by
  cases op with
  | addBlock b => exact presentAll_onMain (present_addBlock E b) s t h
  | addNewBlock b txs =>
    exact paired_bind (presentAll_onMain (present_addBlock E b))
      (fun _ => presentAll_onMain (present_addTransactions E txs)) s t h
  | addTransaction u => exact presentAll_onMain (present_addTransaction E u) s t h
  | addTransactions us => exact presentAll_onMain (present_addTransactions E us) s t h
  | addAmount o a => exact presentAll_onSummary _ s t h
  | setAmount o a => exact presentAll_onSummary _ s t h
  | subAmount o a => exact presentAll_onSummary _ s t h
  | sendAmount o o' a => exact presentAll_sendAmount o o' a s t h
  | addGas o a => exact presentAll_onGas _ s t h
  | subGas o a => exact presentAll_onGas _ s t h
  | sendGas o o' a => exact presentAll_onGas _ s t h
  | sendTransaction u => exact presentAll_sendTransaction E u s t h
  | emitMain p f txs ts => exact paired_void (presentAll_emitMain E p f txs ts) s t h
  | emitDerivative p o ts =>
    obtain ⟨h1, h2⟩ := presentAll_emitDerivative E p o ts s t h hn
    exact ⟨by show Outcome.bind _ _ = Outcome.bind _ _; rw [h1], h2⟩
  | getDerivativeChain o => exact presentAll_getDeriv E o s t h
  | derivAddBlock o b =>
    exact paired_bind (presentAll_getDeriv E o) (fun _ => presentAll_onDeriv o (present_derivAdd E b)) s t h
  | derivFlush o =>
    exact paired_bind (presentAll_getDeriv E o) (fun _ => presentAll_onDeriv o present_derivFlush) s t h
  | mainFlush => exact presentAll_onMain present_mainFlush s t h
  | flush => exact presentAll_flush s t h

/-! ## C169 -/

/-- C169. C167 with the derivative chains, too, agreeing only in their height, anchor and last block, those not open yet as
they would be opened. -/
theorem C169_present (E : Env) (s t : Tree) (ops : List Op) (h : PresentAll s t) (hops : NeverBack E ops s) :
    (answers E ops s).1 = (answers E ops t).1 ∧ PresentAll (answers E ops s).2 (answers E ops t).2 := by
  induction ops generalizing s t with
  | nil => exact ⟨rfl, h⟩
  | cons op ops ih =>
    obtain ⟨h1, h2⟩ := presentAll_op E op s t h hops.1
    obtain ⟨i1, i2⟩ := ih _ _ h2 hops.2
    refine ⟨?_, i2⟩
    show (op.run E s).out :: _ = (op.run E t).out :: _
    rw [h1, i1]

/-- The chain without its past. -/
def forgetChain (c : DerivativeChain) : DerivativeChain :=
  { c with
    chain :=
      { c.chain with
        blocks := Db.open' (match c.getLastRawBlock with
          | .ok (some v) => KV.empty.insert (⟨c.chain.height.val - 1,
              Nat.lt_of_le_of_lt (Nat.sub_le _ _) c.chain.height.lt⟩ : U256).toBE.val v
          | _ => KV.empty)
        heightReference := Db.open' KV.empty } }

theorem forgetChain_present (c : DerivativeChain) : PresentDeriv c (forgetChain c) := by
  refine ⟨rfl, rfl, rfl, ?_⟩
  by_cases hp : c.chain.height.val = 0
  · unfold DerivativeChain.getLastRawBlock
    rw [if_pos hp, if_pos (show (forgetChain c).chain.height.val = 0 from hp)]
  · have e := derivLast_pos (m := c) rfl hp
    have e' := derivLast_pos (m := forgetChain c) (h := c.chain.height) rfl hp
    rw [e, e']
    refine congrArg Outcome.ok ?_
    show _ = (match c.getLastRawBlock with
      | .ok (some v) => KV.empty.insert (⟨c.chain.height.val - 1,
          Nat.lt_of_le_of_lt (Nat.sub_le _ _) c.chain.height.lt⟩ : U256).toBE.val v
      | _ => KV.empty).get _
    rw [e]
    cases c.chain.blocks.get (⟨c.chain.height.val - 1, Nat.lt_of_le_of_lt (Nat.sub_le _ _) c.chain.height.lt⟩ : U256).toBE.val
      with
    | none => rfl
    | some v => simp only; rw [KV.get_insert, if_pos rfl]

/-- A chain is alike to itself. -/
theorem alike_refl (x : Outcome DerivativeChain) : Outcome.Alike PresentDeriv x x := by
  cases x with
  | ok c => exact ⟨rfl, rfl, rfl, rfl⟩
  | err e => rfl
  | panic e => rfl
  | ub => trivial

/-- C169, an owner's open derivative chain without its past, on a main chain without its past: every series of calls is
answered the same. -/
theorem C169_forget (E : Env) (s : Tree) (o : Address) (ops : List Op) (ho : (s.derivMem o).isSome = true)
    (hops : NeverBack E ops s) :
    (answers E ops s).1 = (answers E ops (Tree.putHandle o (forgetChain (s.handle o)) (forget s))).1 := by
  have h0 : PresentAll s (forget s) := ⟨(forget_present s).main, rfl, fun _ => ⟨rfl, rfl, rfl, rfl⟩,
    fun _ _ _ => alike_refl _, rfl, rfl⟩
  have hs : Tree.putHandle o (s.handle o) s = s := putHandle_back ho
  have h1 := h0.put o (forgetChain_present (s.handle o))
  rw [hs] at h1
  exact (C169_present E s _ ops h1 hops).1

/-- A series on an owner's derivative chain and others: nothing in it looks back. -/
example (E : Env) (s : Tree) (o o' : Address) (ho : (s.derivMem o).isSome = true) (b b' : DerivativeBlock) (a : U256)
    (p : BytesN 32) (ts : UInt64) :
    let ops : List Op := [.derivAddBlock o b, .derivFlush o, .addAmount o.val a, .derivAddBlock o' b', .emitMain p o [] ts]
    (answers E ops s).1 = (answers E ops (Tree.putHandle o (forgetChain (s.handle o)) (forget s))).1 := by
  intro ops
  exact C169_forget E s o ops ho ⟨id, id, id, id, id, trivial⟩

end BCT.Props
