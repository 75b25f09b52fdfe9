import Verif.Lemmas.NodeMine
/-!
# Every call, and every question
-/

namespace BCT
open BCT.Props

section
variable {E : Env} {X : Spec.Leftovers} {t : Tree} {n : Spec.Node}

/-! ## No chain grows by more than one block -/

theorem short_same {k : Nat} {m : Spec.Node} (h : Short k n) (hb : m.blocks = n.blocks) (hc : m.chains = n.chains)
    (hs : m.saved = n.saved) :
    Short (k + 1) m := by
  refine ⟨by rw [hb]; have := h.1; omega, fun o c ho => ?_⟩
  rw [hc, hs] at ho
  have := h.2 o c ho
  omega

theorem short_append {k : Nat} {m : Spec.Node} {b : Block} (h : Short k n) (hb : m.blocks = n.blocks ++ [b])
    (hc : m.chains = n.chains) (hs : m.saved = n.saved) : Short (k + 1) m := by
  refine ⟨by rw [hb, List.length_append]; have := h.1; simp only [List.length_singleton]; omega, fun o c ho => ?_⟩
  rw [hc, hs] at ho
  have := h.2 o c ho
  omega

theorem short_getD {k : Nat} (h : Short k n) (o : Address) (g : Hash) : ((n.saved o).getD (g, [])).2.length ≤ k := by
  cases hs : n.saved o with
  | none => simp
  | some c => exact h.2 o c (.inr hs)

theorem short_chain {k : Nat} {o : Address} {c : Hash × List DerivativeBlock} (h : Short k n) (hc : c.2.length ≤ k + 1) :
    Short (k + 1) (n.setChain o c) := by
  refine ⟨by show n.blocks.length ≤ k + 1; have := h.1; omega, fun q d hq => ?_⟩
  simp only [Spec.Node.setChain] at hq
  rcases hq with hq | hq
  · split at hq
    · cases hq; exact hc
    · have := h.2 q d (.inl hq); omega
  · have := h.2 q d (.inr hq); omega

theorem short_withChain {k : Nat} {o : Address} {f : Spec.Node → Hash × List DerivativeBlock → Spec.Reply × Spec.Node}
    (h : Short k n) (hf : ∀ n' c, Short k n' → n'.chains o = some c → Short (k + 1) (f n' c).2) :
    Short (k + 1) (n.withChain E o f).2 := by
  unfold Spec.Node.withChain
  cases hn : n.openChain E o with
  | none => exact short_same h rfl rfl rfl
  | some n' =>
    simp only
    have h' : Short k n' := by
      unfold Spec.Node.openChain at hn
      cases hc : n.chains o with
      | some c => rw [hc] at hn; cases hn; exact h
      | none =>
        rw [hc] at hn
        cases ht : n.tip with
        | none => rw [ht] at hn; cases hn
        | some b =>
          rw [ht] at hn; cases hn
          refine ⟨h.1, fun q d hq => ?_⟩
          simp only [Spec.Node.setChain] at hq
          rcases hq with hq | hq
          · split at hq
            · cases hq; exact short_getD h o _
            · exact h.2 q d (.inl hq)
          · exact h.2 q d (.inr hq)
    cases hc : n'.chains o with
    | none => exact short_same h' rfl rfl rfl
    | some c => exact hf n' c h' hc

theorem short_coins {k : Nat} (h : Short k n) (b : Option Spec.Book) : Short (k + 1) (n.coinChange b).2 := by
  cases b <;> exact short_same h rfl rfl rfl

theorem short_gas {k : Nat} (h : Short k n) (b : Option Spec.Book) : Short (k + 1) (n.gasChange b).2 := by
  cases b <;> exact short_same h rfl rfl rfl

theorem short_mineFrom {k : Nat} (h : Short k n) (find : Spec.Node → Hash → Option Block) (p : BytesN 32) (f : Address)
    (ts : UInt64) : Short (k + 1) (n.withChain E f (fun n c => n.mineFrom E (find n) p f ts c)).2 := by
  refine short_withChain h fun n' c h' hc => ?_
  unfold Spec.Node.mineFrom
  repeat' split
  all_goals first | exact short_same h' rfl rfl rfl | skip
  all_goals
    refine short_chain h' ?_
    have := h'.2 f c (.inl hc)
    simp only [List.length_append, List.length_singleton]; omega

theorem short_step {k : Nat} (h : Short k n) (op : Op) : Short (k + 1) (n.step E op).2 := by
  cases op with
  | addBlock b =>
    simp only [Spec.Node.step]
    split
    · exact short_append h rfl rfl rfl
    · exact short_same h rfl rfl rfl
  | addNewBlock b ts =>
    simp only [Spec.Node.step]
    split
    · exact short_append h rfl rfl rfl
    · exact short_same h rfl rfl rfl
  | addTransaction t => exact short_same h rfl rfl rfl
  | addTransactions ts => exact short_same h rfl rfl rfl
  | addAmount o a => exact short_coins h _
  | setAmount o a => exact short_coins h _
  | subAmount o a => exact short_coins h _
  | sendAmount s t a =>
    simp only [Spec.Node.step]
    split
    · exact short_same h rfl rfl rfl
    · exact short_coins h _
  | addGas o a => exact short_gas h _
  | subGas o a => exact short_gas h _
  | sendGas s t a => exact short_gas h _
  | sendTransaction t =>
    show Short (k + 1) (n.send E t).2
    unfold Spec.Node.send
    repeat' split
    all_goals exact short_same h rfl rfl rfl
  | emitMain p f txs ts =>
    show Short (k + 1) (n.mine E p f txs ts).2
    unfold Spec.Node.mine
    repeat' split
    all_goals first | exact short_same h rfl rfl rfl | exact short_append h rfl rfl rfl
  | emitDerivative p f ts => exact short_mineFrom h (fun n => n.withDigest E) p f ts
  | getDerivativeChain o => exact short_withChain h fun n' c h' hc => short_same h' rfl rfl rfl
  | derivAddBlock o b =>
    refine short_withChain h fun n' c h' hc => ?_
    split
    · refine short_chain h' ?_
      have := h'.2 o c (.inl hc)
      simp only [List.length_append, List.length_singleton]; omega
    · exact short_same h' rfl rfl rfl
  | derivFlush o => exact short_withChain h fun n' c h' hc => short_same h' rfl rfl rfl
  | mainFlush => exact short_same h rfl rfl rfl
  | flush => exact short_same h rfl rfl rfl

theorem short_stepOver {k : Nat} (h : Short k n) (op : Op) : Short (k + 1) (n.stepOver E X op).2 := by
  cases op with
  | emitDerivative p f ts => exact short_mineFrom h (fun n => X.main.lookup (Spec.mainKey E) n.blocks) p f ts
  | addBlock b => exact short_step (E := E) h (.addBlock b)
  | addNewBlock b ts => exact short_step (E := E) h (.addNewBlock b ts)
  | addTransaction t => exact short_step (E := E) h (.addTransaction t)
  | addTransactions ts => exact short_step (E := E) h (.addTransactions ts)
  | addAmount o a => exact short_step (E := E) h (.addAmount o a)
  | setAmount o a => exact short_step (E := E) h (.setAmount o a)
  | subAmount o a => exact short_step (E := E) h (.subAmount o a)
  | sendAmount s t a => exact short_step (E := E) h (.sendAmount s t a)
  | addGas o a => exact short_step (E := E) h (.addGas o a)
  | subGas o a => exact short_step (E := E) h (.subGas o a)
  | sendGas s t a => exact short_step (E := E) h (.sendGas s t a)
  | sendTransaction t => exact short_step (E := E) h (.sendTransaction t)
  | emitMain p f txs ts => exact short_step (E := E) h (.emitMain p f txs ts)
  | getDerivativeChain o => exact short_step (E := E) h (.getDerivativeChain o)
  | derivAddBlock o b => exact short_step (E := E) h (.derivAddBlock o b)
  | derivFlush o => exact short_step (E := E) h (.derivFlush o)
  | mainFlush => exact short_step (E := E) h .mainFlush
  | flush => exact short_step (E := E) h .flush

/-! ## Every call -/

theorem sim_void {α : Type} {x : Act Tree α} {y : Spec.Reply × Spec.Node} (h : Sim E X (x t) y) : Sim E X (x.void t) y := by
  refine ⟨?_, h.2⟩
  rw [← h.1]
  unfold Act.void
  cases (x t).out <;> rfl

/-- What a mining call returns. -/
def Returned (E : Env) (t : Tree) (n' : Spec.Node) : Op → Prop
  | .emitMain p f txs ts => ∀ b, (Tree.emitMain E p f txs ts t).out = .ok b → n'.blocks.getLast? = some b
  | .emitDerivative p f ts => ∀ b, (Tree.emitDerivative E p f ts t).out = .ok b → NewOn f b n'
  | _ => True

theorem sim_emitDerivativeOver (h : Mirrors E X t n) {k : Nat} (hk : Short k n) (hm : k + 1 < U256.size) (p : BytesN 32)
    (f : Address) (ts : UInt64) :
    Sim E X (Tree.emitDerivative E p f ts t) (n.withChain E f (fun n c => n.mineFrom E (X.main.lookup (Spec.mainKey E) n.blocks) p f ts c)) ∧
    ∀ b, (Tree.emitDerivative E p f ts t).out = .ok b →
      NewOn f b (n.withChain E f (fun n c => n.mineFrom E (X.main.lookup (Spec.mainKey E) n.blocks) p f ts c)).2 := by
  rw [emitDerivative_checks]
  refine sim_withChain h f fun t' n' c h' hc hor => ?_
  rw [Act.get_bind]
  refine sim_mineOn h' hc ?_ p ts
  rcases hor with rfl | ⟨b, rfl⟩
  · have := hk.2 f c (.inl hc); omega
  · simp only [Spec.Node.setChain, if_true] at hc
    cases hc
    have := short_getD hk f (Spec.digest E b); omega

theorem sim_stepOver (h : Mirrors E X t n) {k : Nat} (hk : Short k n) (hm : k + 1 < U256.size) (op : Op) :
    Sim E X (op.run E t) (n.stepOver E X op) ∧ Returned E t (n.stepOver E X op).2 op := by
  have hb : n.blocks.length + 1 < U256.size := by have := hk.1; omega
  have hlen : ∀ (o : Address) (n' : Spec.Node) (c : Hash × List DerivativeBlock), n'.chains o = some c →
      (n' = n ∨ ∃ b, n' = n.setChain o ((n.saved o).getD (Spec.digest E b, []))) → c.2.length + 1 < U256.size := by
    intro o n' c hc hor
    rcases hor with rfl | ⟨b, rfl⟩
    · have := hk.2 o c (.inl hc); omega
    · simp only [Spec.Node.setChain, if_true] at hc
      cases hc
      have := short_getD hk o (Spec.digest E b); omega
  cases op with
  | addBlock b => exact ⟨sim_addBlock h hb b, trivial⟩
  | addNewBlock b ts => exact ⟨sim_addNewBlock h hb b ts, trivial⟩
  | addTransaction tx => exact ⟨sim_addTransaction h tx, trivial⟩
  | addTransactions ts => exact ⟨sim_addTransactions ts h, trivial⟩
  | addAmount o a => exact ⟨sim_coins h (h.coins.add o a), trivial⟩
  | setAmount o a => exact ⟨sim_setAmount h o a, trivial⟩
  | subAmount o a => exact ⟨sim_coins h (h.coins.sub o a), trivial⟩
  | sendAmount s r a => exact ⟨sim_sendAmount h s r a, trivial⟩
  | addGas o a => exact ⟨sim_gas h (h.gas.add o a), trivial⟩
  | subGas o a => exact ⟨sim_gas h (h.gas.sub o a), trivial⟩
  | sendGas s r a => exact ⟨sim_gas h (h.gas.move s r a), trivial⟩
  | sendTransaction tx => exact ⟨sim_send h tx, trivial⟩
  | emitMain p f txs ts =>
    refine ⟨sim_void (sim_mine h hb p f txs ts).1, fun b hbk => ?_⟩
    have := (sim_mine h hb p f txs ts).2 b hbk
    show (n.mine E p f txs ts).2.blocks.getLast? = _
    rw [this]; simp
  | emitDerivative p f ts =>
    exact ⟨sim_void (sim_emitDerivativeOver h hk hm p f ts).1, (sim_emitDerivativeOver h hk hm p f ts).2⟩
  | getDerivativeChain o =>
    refine ⟨?_, trivial⟩
    have hx := (sim_withChain h o (x := (pure () : Act Tree Unit)) (R := fun _ _ => True)
      (f := fun n _ => (.done, n)) fun t' n' c h' hc _ => ⟨⟨rfl, h'⟩, fun _ _ => trivial⟩).1
    have e : (Tree.getDerivativeChain E o >>= fun _ => (pure () : Act Tree Unit)) t = Tree.getDerivativeChain E o t := by
      cases ho : Tree.getDerivativeChain E o t with
      | mk out final trace =>
        cases out with
        | ok a => rw [Act.bind_ok ho]; simp [Act.pure_run]
        | err e => rw [Act.bind_err ho]
        | panic e => rw [Act.bind_panic ho]
        | ub => rw [Act.bind_ub ho]
    rw [e] at hx
    exact hx
  | derivAddBlock o b =>
    exact ⟨(sim_withChain h o (R := fun _ _ => True) fun t' n' c h' hc hor =>
      ⟨(sim_derivAdd h' hc (hlen o n' c hc hor) b).1, fun _ _ => trivial⟩).1, trivial⟩
  | derivFlush o =>
    exact ⟨(sim_withChain h o (R := fun _ _ => True) fun t' n' c h' hc hor =>
      ⟨sim_derivFlush h' hc, fun _ _ => trivial⟩).1, trivial⟩
  | mainFlush => exact ⟨sim_mainFlush h, trivial⟩
  | flush => exact ⟨sim_flush h, trivial⟩

/-! ## Nothing was found -/

theorem withChain_congr {o : Address} {f g : Spec.Node → Hash × List DerivativeBlock → Spec.Reply × Spec.Node}
    (h : ∀ n' c, n'.blocks = n.blocks → f n' c = g n' c) : n.withChain E o f = n.withChain E o g := by
  unfold Spec.Node.withChain
  cases hn : n.openChain E o with
  | none => rfl
  | some n' =>
    have hb : n'.blocks = n.blocks := by
      unfold Spec.Node.openChain at hn
      cases hc : n.chains o with
      | some c => rw [hc] at hn; cases hn; rfl
      | none =>
        rw [hc] at hn
        cases ht : n.tip with
        | none => rw [ht] at hn; cases hn
        | some b => rw [ht] at hn; cases hn; rfl
    simp only
    cases n'.chains o with
    | none => rfl
    | some c => exact h n' c hb

theorem mineOn_nothing (h : Matches E t n) (p : BytesN 32) (f : Address) (ts : UInt64) :
    n.withChain E f (fun n c => n.mineFrom E ((Spec.Leftovers.nothing).main.lookup (Spec.mainKey E) n.blocks) p f ts c) =
      n.withChain E f (fun n c => n.mineOn E p f ts c) := by
  refine withChain_congr fun n' c hb => ?_
  unfold Spec.Node.mineOn
  have e : (Spec.Leftovers.nothing).main.lookup (Spec.mainKey E) n'.blocks = n'.withDigest E := by
    funext q
    rw [hb]
    exact (withDigest_nothing h q).trans (by unfold Spec.Node.withDigest; rw [hb])
  simp only [e]

theorem stepOver_nothing (h : Matches E t n) (op : Op) : n.stepOver E .nothing op = n.step E op := by
  cases op with
  | emitDerivative p f ts => exact mineOn_nothing h p f ts
  | _ => rfl

theorem sim_emitDerivative (h : Matches E t n) {k : Nat} (hk : Short k n) (hm : k + 1 < U256.size) (p : BytesN 32)
    (f : Address) (ts : UInt64) :
    Sim E .nothing (Tree.emitDerivative E p f ts t) (n.withChain E f (fun n c => n.mineOn E p f ts c)) ∧
    ∀ b, (Tree.emitDerivative E p f ts t).out = .ok b →
      NewOn f b (n.withChain E f (fun n c => n.mineOn E p f ts c)).2 := by
  rw [← mineOn_nothing h]
  exact sim_emitDerivativeOver h hk hm p f ts

theorem sim_step (h : Matches E t n) {k : Nat} (hk : Short k n) (hm : k + 1 < U256.size) (op : Op) :
    Sim E .nothing (op.run E t) (n.step E op) ∧ Returned E t (n.step E op).2 op := by
  rw [← stepOver_nothing h]
  exact sim_stepOver h hk hm op

/-! ## A sequence of calls -/

/-- The calls on the node, one after the other, whatever each returns: the replies and the node after it. -/
def playTree (E : Env) (t : Tree) : List Op → List Spec.Reply × Tree
  | [] => ([], t)
  | op :: ops => (replyOf (op.run E t).out :: (playTree E (op.run E t).final ops).1, (playTree E (op.run E t).final ops).2)

theorem sim_play : ∀ (ops : List Op) {t : Tree} {n : Spec.Node} {k : Nat}, Matches E t n → Short k n →
    k + ops.length < U256.size →
    (playTree E t ops).1 = (n.play E ops).1 ∧ Matches E (playTree E t ops).2 (n.play E ops).2 ∧
    Short (k + ops.length) (n.play E ops).2
  | [], t, n, k, h, hk, _ => ⟨rfl, h, hk⟩
  | op :: ops, t, n, k, h, hk, hm => by
    rw [List.length_cons] at hm
    obtain ⟨hs, _⟩ := sim_step h hk (by omega) op
    have ih := sim_play ops hs.2 (short_step (E := E) hk op) (by omega)
    refine ⟨?_, ih.2.1, ?_⟩
    · show replyOf _ :: _ = (n.step E op).1 :: _
      rw [hs.1, ih.1]
    · have e : k + (op :: ops).length = k + 1 + ops.length := by rw [List.length_cons]; omega
      rw [e]; exact ih.2.2

/-! ## Every question -/

/-- What was read of the main chain. -/
def blockAnswer : Outcome (Option Block) → Spec.Answer
  | .ok b => .block b
  | _ => .nothing

/-- What was read of a derivative chain. -/
def derivAnswer : Outcome (Option DerivativeBlock) → Spec.Answer
  | .ok b => .deriv b
  | _ => .nothing

/-- A balance read. -/
def numberAnswer : Outcome U256 → Spec.Answer
  | .ok a => .number a.val
  | _ => .nothing

/-- A question about a derivative chain, on the handle in the map of open chains. -/
def onOpen (t : Tree) (o : Address) (f : DerivativeChain → Spec.Answer) : Spec.Answer :=
  if (t.derivMem o).isSome then f (t.handle o) else .nothing

/-- The node's answers. -/
def ask (E : Env) (t : Tree) : Spec.Query → Spec.Answer
  | .height => .number t.main.getHeight.val
  | .last => blockAnswer t.main.getLastBlock
  | .byHeight q => blockAnswer (t.main.findByHeight q)
  | .byHash h => blockAnswer (t.main.findByHash h)
  | .hasTransaction h => .truth (t.main.transactionExists h)
  | .transaction h => match t.main.getTransaction E h with
    | .ok x => .tx x
    | _ => .nothing
  | .amount a => numberAnswer (t.getAmount a)
  | .gas a => numberAnswer (t.getGas a)
  | .oldAmount a => numberAnswer (Ledger.balance (t.oldSummary.get a.val))
  | .oldGas a => numberAnswer (Ledger.balance (t.oldGas.get a.val))
  | .summary => match t.summarize E with
    | .ok h => .hash h
    | _ => .nothing
  | .isOpen o => .truth (t.derivMem o).isSome
  | .chainHeight o => onOpen t o fun c => .number c.chain.height.val
  | .chainAnchor o => onOpen t o fun c => .hash c.genesisHash
  | .chainLast o => onOpen t o fun c => derivAnswer c.getLastBlock
  | .chainByHeight o q => onOpen t o fun c => derivAnswer (c.findByHeight q)
  | .chainByHash o h => onOpen t o fun c => derivAnswer (c.findByHash h)

theorem Books.answer {b : Spec.Book} {d : Db} (h : Books b d.cur) (k : Bytes) :
    numberAnswer (Ledger.balance (d.get k)) = .number (b.get k) := by
  have : Ledger.balance (d.get k) = .ok (d.cur.amt k) := h.dec.balance k
  rw [this]
  show Spec.Answer.number _ = _
  rw [h.amt]

theorem onOpen_eq (h : Mirrors E X t n) (o : Address) {f : DerivativeChain → Spec.Answer}
    {g : Hash × List DerivativeBlock → Spec.Answer}
    (hf : ∀ (c : DerivativeChain) ds, Chain.Is E c.chain (ds.map Block.derivative) (Found.up (X.chains o)) → f c = g (c.genesisHash, ds)) :
    onOpen t o f = match n.chains o with
      | some c => g c
      | none => .nothing := by
  unfold onOpen
  cases hc : n.chains o with
  | none => rw [(h.closed o hc).1]; rfl
  | some c =>
    obtain ⟨h1, h2, h3⟩ := h.opened o c hc
    rw [if_pos h1, hf _ _ h3, h2]

theorem block_answer {o : Option Block} (ho : ∀ b, o = some b → b.info.height.val ≠ 0 ∨ b = genesis E) :
    blockAnswer (MainChain.decode (o.map Block.dump)) = Spec.Node.asAnswer o := by
  cases o with
  | none => rfl
  | some b =>
    have hd := decode_readable (ho b rfl)
    unfold Spec.Node.asAnswer
    cases hr : Spec.readable b with
    | true => simp only [Option.map_some, hd.1 hr, hr, if_true]; rfl
    | false =>
      obtain ⟨e, he⟩ := hd.2 hr
      simp only [Option.map_some, he, hr, Bool.false_eq_true, if_false]; rfl

theorem deriv_answer (o : Option DerivativeBlock) :
    derivAnswer (DerivativeChain.decode (o.map DerivativeBlock.dump)) = .deriv o := by
  cases o with
  | none => rfl
  | some b => rw [Option.map_some, decode_deriv]; rfl

theorem sim_askOver (h : Mirrors E X t n) (q : Spec.Query) : ask E t q = n.answerOver E X q := by
  have hh := h.height
  cases q with
  | height => show Spec.Answer.number _ = _; rw [show t.main.getHeight.val = n.blocks.length from hh]; rfl
  | last =>
    show blockAnswer t.main.getLastBlock = Spec.Node.asAnswer n.blocks.getLast?
    rcases h.last with ⟨b, h1, h2, h3, _⟩ | ⟨h1, e, h3⟩
    · rw [h2, h3]
      have hr : Spec.readable b = true := by
        unfold Spec.Node.tip at h1
        rw [h2] at h1
        exact (Option.filter_eq_some_iff.mp h1).2
      simp only [Spec.Node.asAnswer, hr, if_true]; rfl
    · rw [h3]
      obtain ⟨bs, hbs⟩ := h.first
      cases hg : n.blocks.getLast? with
      | none => rw [List.getLast?_eq_none_iff] at hg; rw [hg] at hbs; cases hbs
      | some b =>
        unfold Spec.Node.tip at h1
        rw [hg] at h1
        have hr : Spec.readable b = false := by
          cases hr : Spec.readable b with
          | false => rfl
          | true => rw [Option.filter, if_pos hr] at h1; cases h1
        simp only [Spec.Node.asAnswer, hr, Bool.false_eq_true, if_false]; rfl
  | byHeight q =>
    show blockAnswer (MainChain.decode (t.main.chain.findRawByHeight q)) = Spec.Node.asAnswer (X.main.read n.blocks q.val)
    rw [h.main.findRaw]
    exact block_answer fun b hb => h.read_ok hb
  | byHash q =>
    show blockAnswer (t.main.findByHash q) = Spec.Node.asAnswer (X.main.lookup (Spec.mainKey E) n.blocks q)
    have hw := h.withDigest q
    cases hf : X.main.lookup (Spec.mainKey E) n.blocks q with
    | none => rw [hf] at hw; simp only at hw; rw [hw]; rfl
    | some b =>
      rw [hf] at hw
      simp only at hw
      unfold Spec.Node.asAnswer
      cases hr : Spec.readable b with
      | true => simp only [hw.1 hr, hr, if_true]; rfl
      | false => obtain ⟨e, he⟩ := hw.2 hr; simp only [he, hr, Bool.false_eq_true, if_false]; rfl
  | hasTransaction q =>
    show Spec.Answer.truth (t.main.transactions.get q.val).isSome = .truth (n.stored q).isSome
    rw [h.txs q, Option.isSome_map]
  | transaction q =>
    show (match t.main.getTransaction E q with | .ok x => Spec.Answer.tx x | _ => .nothing) = .tx ((n.stored q).map _)
    have hq := h.txs q
    cases hs : n.stored q with
    | none =>
      rw [hs] at hq
      have : t.main.getTransaction E q = .ok none := by
        unfold MainChain.getTransaction MainChain.getTransactionRaw; rw [hq]; rfl
      rw [this]; rfl
    | some x =>
      rw [hs] at hq
      rw [getTransaction_dump (E := E) (m := t.main) (h := q) (t := x) hq]; rfl
  | amount a => exact h.coins.answer a.val
  | gas a => exact h.gas.answer a.val
  | oldAmount a => exact h.oldCoins.answer a.val
  | oldGas a => exact h.oldGas.answer a.val
  | summary =>
    show (match t.summarize E with | .ok h => Spec.Answer.hash h | _ => .nothing) = .hash (n.summary E)
    rw [summarize_eq, summary_eq h]
  | isOpen o =>
    show Spec.Answer.truth _ = .truth _
    cases hc : n.chains o with
    | none => rw [(h.closed o hc).1]; rfl
    | some c => rw [(h.opened o c hc).1]; rfl
  | chainHeight o =>
    refine (onOpen_eq h o (f := fun c => .number c.chain.height.val) (g := fun c => .number c.2.length) fun c ds hc => ?_).trans (by simp only [Spec.Node.answerOver, Spec.Node.answer]; cases n.chains o <;> rfl)
    have := hc.len
    rw [List.length_map] at this
    simp only [this]
  | chainAnchor o =>
    exact (onOpen_eq h o (f := fun c => .hash c.genesisHash) (g := fun c => .hash c.1) fun c ds hc => rfl).trans
      (by simp only [Spec.Node.answerOver, Spec.Node.answer]; cases n.chains o <;> rfl)
  | chainLast o =>
    refine (onOpen_eq h o (f := fun c => derivAnswer c.getLastBlock) (g := fun c => .deriv c.2.getLast?) fun c ds hc => ?_).trans (by simp only [Spec.Node.answerOver, Spec.Node.answer]; cases n.chains o <;> rfl)
    simp only [hc.derivLast]; rfl
  | chainByHeight o q =>
    refine (onOpen_eq h o (f := fun c => derivAnswer (c.findByHeight q)) (g := fun c => .deriv ((X.chains o).read c.2 q.val)) fun c ds hc => ?_).trans (by simp only [Spec.Node.answerOver]; cases n.chains o <;> rfl)
    have : c.findByHeight q = DerivativeChain.decode (((X.chains o).read ds q.val).map DerivativeBlock.dump) := by
      unfold DerivativeChain.findByHeight
      rw [hc.findRaw, Found.read_up, Option.map_map]; rfl
    simp only [this]
    exact deriv_answer _
  | chainByHash o q =>
    refine (onOpen_eq h o (f := fun c => derivAnswer (c.findByHash q)) (g := fun c => .deriv ((X.chains o).lookup (Spec.derivKey E) c.2 q))
      fun c ds hc => ?_).trans (by simp only [Spec.Node.answerOver]; cases n.chains o <;> rfl)
    have : c.findByHash q = DerivativeChain.decode (((X.chains o).lookup (Spec.derivKey E) ds q).map
        DerivativeBlock.dump) := by
      unfold DerivativeChain.findByHash
      rw [hc.findByHash, Found.lookup_up, Option.map_map]; rfl
    simp only [this]
    exact deriv_answer _

theorem answerOver_nothing (h : Matches E t n) (q : Spec.Query) : n.answerOver E .nothing q = n.answer E q := by
  cases q with
  | byHeight q => exact congrArg Spec.Node.asAnswer (Chain.Is.read_nothing _ _)
  | byHash q => exact congrArg Spec.Node.asAnswer (withDigest_nothing h q)
  | chainByHeight o q =>
    simp only [Spec.Node.answerOver, Spec.Node.answer]
    cases hc : n.chains o with
    | none => rfl
    | some c => exact congrArg Spec.Answer.deriv (Chain.Is.read_nothing _ _)
  | chainByHash o q =>
    simp only [Spec.Node.answerOver, Spec.Node.answer]
    cases hc : n.chains o with
    | none => rfl
    | some c =>
      refine congrArg Spec.Answer.deriv (Chain.Is.lookup_nothing (fun i hi => ?_) q)
      have := (h.opened o c hc).2.2.heights i (by rw [List.length_map]; exact hi)
      rw [List.getElem_map] at this
      exact this
  | _ => rfl

theorem sim_ask (h : Matches E t n) (q : Spec.Query) : ask E t q = n.answer E q := by
  rw [← answerOver_nothing h]
  exact sim_askOver h q

end

end BCT
