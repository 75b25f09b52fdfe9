import Verif.Lemmas.Durable
/-!
# Every call moves what would be left
-/

namespace BCT
open BCT.Props

/-! ## The chains of the abstract node -/

section
variable {E : Env} {X : Spec.Leftovers} {n : Spec.Node}

theorem Grown.same {m : Spec.Node} (hb : m.blocks = n.blocks) (hc : m.chains = n.chains) (hs : m.saved = n.saved) :
    Grown n m :=
  ⟨.inl hb, fun o => .inl (by unfold Spec.Node.blocksOf; rw [hc, hs])⟩

theorem Grown.append {m : Spec.Node} {b : Block} (hb : m.blocks = n.blocks ++ [b]) (hc : m.chains = n.chains)
    (hs : m.saved = n.saved) : Grown n m :=
  ⟨.inr ⟨b, hb⟩, fun o => .inl (by unfold Spec.Node.blocksOf; rw [hc, hs])⟩

/-- Opening a chain does not change its blocks. -/
theorem opened_blocksOf {n' : Spec.Node} {o : Address} (h : n.openChain E o = some n') :
    n'.blocks = n.blocks ∧ n'.txs = n.txs ∧ ∀ q, n'.blocksOf q = n.blocksOf q := by
  unfold Spec.Node.openChain at h
  cases hc : n.chains o with
  | some c => rw [hc] at h; cases h; exact ⟨rfl, rfl, fun _ => rfl⟩
  | none =>
    rw [hc] at h
    cases ht : n.tip with
    | none => rw [ht] at h; cases h
    | some b =>
      rw [ht] at h; cases h
      refine ⟨rfl, rfl, fun q => ?_⟩
      unfold Spec.Node.blocksOf Spec.Node.setChain
      simp only
      by_cases hq : q = o
      · subst hq
        rw [if_pos rfl, hc]
        cases n.saved q <;> rfl
      · rw [if_neg hq]

theorem Grown.set {n n' : Spec.Node} {o : Address} {c : Hash × List DerivativeBlock} (d : DerivativeBlock) (hc : n'.chains o = some c)
    (hb : n'.blocks = n.blocks) (hq : ∀ q, n'.blocksOf q = n.blocksOf q) : Grown n (n'.setChain o (c.1, c.2 ++ [d])) := by
  refine ⟨.inl hb, fun q => ?_⟩
  by_cases h : q = o
  · subst h
    right
    refine ⟨d, ?_⟩
    rw [← hq]
    unfold Spec.Node.blocksOf Spec.Node.setChain
    simp only [hc, if_true]
  · left
    rw [← hq]
    unfold Spec.Node.blocksOf Spec.Node.setChain
    simp only [h, if_false]

theorem grown_withChain {o : Address} {f : Spec.Node → Hash × List DerivativeBlock → Spec.Reply × Spec.Node}
    (hf : ∀ n' c, n'.chains o = some c → (f n' c).2.txs = n'.txs ∧
      ((f n' c).2 = n' ∨ ∃ d, (f n' c).2 = n'.setChain o (c.1, c.2 ++ [d]))) :
    Grown n (n.withChain E o f).2 ∧ (n.withChain E o f).2.txs = n.txs := by
  unfold Spec.Node.withChain
  cases hn : n.openChain E o with
  | none => exact ⟨.same rfl rfl rfl, rfl⟩
  | some n' =>
    obtain ⟨h1, h2, h3⟩ := opened_blocksOf hn
    simp only
    cases hc : n'.chains o with
    | none => exact ⟨⟨.inl h1, fun q => .inl (h3 q)⟩, h2⟩
    | some c =>
      obtain ⟨e1, e2⟩ := hf n' c hc
      refine ⟨?_, e1.trans h2⟩
      rcases e2 with e | ⟨d, e⟩
      · rw [e]; exact ⟨.inl h1, fun q => .inl (h3 q)⟩
      · rw [e]; exact Grown.set d hc h1 h3

theorem grown_mineFrom (find : Spec.Node → Hash → Option Block) (p : BytesN 32) (f : Address) (ts : UInt64) :
    Grown n (n.withChain E f (fun n c => n.mineFrom E (find n) p f ts c)).2 ∧
    (n.withChain E f (fun n c => n.mineFrom E (find n) p f ts c)).2.txs = n.txs := by
  refine grown_withChain fun n' c hc => ?_
  unfold Spec.Node.mineFrom
  repeat' split
  all_goals first | exact ⟨rfl, .inl rfl⟩ | exact ⟨rfl, .inr ⟨_, rfl⟩⟩

theorem grown_coins (b : Option Spec.Book) : Grown n (n.coinChange b).2 := by
  cases b <;> exact .same rfl rfl rfl

theorem grown_gas (b : Option Spec.Book) : Grown n (n.gasChange b).2 := by
  cases b <;> exact .same rfl rfl rfl

theorem grown_send (tx : Transaction) : Grown n (n.send E tx).2 ∧
    ((n.send E tx).2.txs = n.txs ∨ ∃ e, (n.send E tx).2.txs = e :: n.txs) := by
  unfold Spec.Node.send
  repeat' split
  all_goals first
    | exact ⟨.same rfl rfl rfl, .inl rfl⟩
    | exact ⟨.same rfl rfl rfl, .inr ⟨_, rfl⟩⟩

theorem grown_mine (p : BytesN 32) (f : Address) (txs : List Hash) (ts : UInt64) :
    Grown n (n.mine E p f txs ts).2 ∧ (n.mine E p f txs ts).2.txs = n.txs := by
  unfold Spec.Node.mine
  repeat' split
  all_goals first
    | exact ⟨.same rfl rfl rfl, rfl⟩
    | exact ⟨.append rfl rfl rfl, rfl⟩

end

/-! ## Transactions -/

theorem Mirrors.stores {E : Env} {X : Spec.Leftovers} {t : Tree} {n : Spec.Node} (h : Mirrors E X t n) :
    Stores t.main.transactions.cur n.txs := fun q => h.txs q

theorem TxLog.next {d d' : Db} {l l' : List (Hash × Transaction)} {k : Nat} (h : TxLog d l k) (hn : d.Next d') (hs : d.Sound)
    (hl : l' = l ∨ ∃ e, l' = e :: l) (hp : Stores d'.cur l') : TxLog d' l' k := by
  refine Log.next h hn hs ?_ (by rw [List.reverse_reverse]; exact hp)
  rcases hl with rfl | ⟨e, rfl⟩
  · exact .inl rfl
  · exact .inr ⟨e, by rw [List.reverse_cons]⟩

theorem TxLog.addTransactions {E : Env} {X : Spec.Leftovers} : ∀ (ts : List Transaction) {t : Tree} {n : Spec.Node} {k : Nat},
    Mirrors E X t n → Sound t → TxLog t.main.transactions n.txs k →
    TxLog (Tree.onMain (MainChain.addTransactions E ts) t).final.main.transactions (n.store E ts).txs k
  | [], t, n, k, _, _, h => h
  | tx :: ts, t, n, k, hm, hs, h => by
    have hw := hm.withTx tx
    have hsw : Sound (t.withTx E tx) :=
      ⟨hs.blocks, hs.heightReference, Db.sound_insert _ _ _, hs.summary, hs.oldSummary, hs.gas, hs.oldGas, hs.deriv⟩
    have h1 : TxLog (t.withTx E tx).main.transactions (n.store E [tx]).txs k :=
      h.next (Db.next_insert _ _ _) hs.transactions (.inr ⟨_, rfl⟩) hw.stores
    have ih := TxLog.addTransactions ts hw hsw h1
    rw [store_cons]
    exact ih

theorem Bears.slight {E : Env} {t t' : Tree} {f : Spec.Frail} {n' : Spec.Node} (h : Bears E t f)
    (hm : Mirrors E f.found t' n') (hs : Sound t') (hc : Slight t t')
    (hg : Grown f.node n' ∧ (n'.txs = f.node.txs ∨ ∃ e, n'.txs = e :: f.node.txs)) : Bears E t' (f.moved n') :=
  h.moved hm hs hc.toCalm hg.1 (h.txs.next hc.txs h.sound.transactions hg.2 hm.stores) hc.oldSummary hc.oldGas

theorem op_sound {E : Env} (op : Op) {t : Tree} (h : Sound t) : Sound (op.run E t).final :=
  ((Op.sat sound_prims (Act.rel_closed sound_preord) op op.adds_true t).1) h

/-! ## Flushing -/

theorem ChainLog.flush {E : Env} {c c' : Chain} {bs : List Block} {x : Spec.Found Block} (h : Chain.Is E c bs x)
    (hb : c'.blocks = c.blocks.flush) (hr : c'.heightReference = c.heightReference.flush) :
    ChainLog E c'.blocks c'.heightReference bs x bs.length :=
  ⟨h.count, Log.single (m := c.blocks.cur) (by rw [hb]; rfl) h.slots,
    Log.single (m := c.heightReference.cur) (by rw [hr]; rfl) h.refs⟩

theorem Bears.mainFlush {E : Env} {t : Tree} {f : Spec.Frail} (h : Bears E t f) :
    Bears E { t with main := t.main.flushed } f.mainFlushed := by
  have hlen := h.mirrors.main.len
  have hpos : 0 < f.node.blocks.length := by
    obtain ⟨bs, e⟩ := h.mirrors.first
    rw [e]; simp
  refine { mirrors := h.mirrors.contents ⟨⟨rfl, rfl, rfl⟩, rfl, rfl, rfl, rfl, rfl, ⟨rfl, rfl⟩⟩, sound := ?_, main := ?_, config := ?_, txs := ?_,
           coins := h.coins, gas := h.gas, deriv := h.deriv, says := h.says, oldCoins := h.oldCoins, oldGas := h.oldGas }
  · exact ⟨Db.sound_flush _, Db.sound_flush _, Db.sound_flush _, h.sound.summary, h.sound.oldSummary, h.sound.gas,
      h.sound.oldGas, h.sound.deriv⟩
  · exact ChainLog.flush h.mirrors.main (c' := t.main.flushed.chain) rfl rfl
  · refine .inr ⟨hpos, t.main.chain.difficulty, ?_⟩
    show some (t.main.chain.height.toBE.val ++ _) = some (beBytes 32 f.node.blocks.length ++ _)
    rw [hlen]; rfl
  · show TxLog t.main.transactions.flush f.node.txs f.node.txs.length
    have := Log.single (P := fun m l => Stores m l.reverse) (d := t.main.transactions.flush) (l := f.node.txs.reverse)
      (m := t.main.transactions.cur) rfl (by rw [List.reverse_reverse]; exact h.mirrors.stores)
    rw [List.length_reverse] at this
    exact this

theorem Bears.flush {E : Env} {t : Tree} {f : Spec.Frail} (h : Bears E t f) : Bears E t.flushed f.flushed := by
  have hm := h.mainFlush
  refine { mirrors := h.mirrors.contents ⟨⟨rfl, rfl, rfl⟩, rfl, rfl, rfl, rfl, rfl, ⟨rfl, rfl⟩⟩, sound := ?_, main := hm.main, config := hm.config,
           txs := hm.txs, coins := ?_, gas := ?_, deriv := h.deriv, says := h.says, oldCoins := ?_, oldGas := ?_ }
  · exact ⟨Db.sound_flush _, Db.sound_flush _, Db.sound_flush _, Db.sound_flush _, Db.sound_flush _, Db.sound_flush _,
      Db.sound_flush _, h.sound.deriv⟩
  · exact TableLog.single (m := t.summary.cur) rfl h.mirrors.coins
  · exact TableLog.single (m := t.gas.cur) rfl h.mirrors.gas
  · exact TableLog.single (m := t.oldSummary.cur) rfl h.mirrors.oldCoins
  · exact TableLog.single (m := t.oldGas.cur) rfl h.mirrors.oldGas

theorem putHandle_files_self (o : Address) (c : DerivativeChain) (t : Tree) :
    (Tree.putHandle o c t).derivFiles (hexEncode o.val) = ⟨c.chain.blocks, c.chain.heightReference, c.chain.config⟩ := by
  unfold Tree.putHandle; simp

/-- A derivative chain is flushed. -/
theorem Bears.keep {E : Env} {t : Tree} {f : Spec.Frail} (h : Bears E t f) {o : Address} {c : Hash × List DerivativeBlock}
    (hc : f.node.chains o = some c) (hm : Mirrors E f.found (Tree.putHandle o (t.handle o).flushed t) f.node)
    (hs : Sound (Tree.putHandle o (t.handle o).flushed t)) : Bears E (Tree.putHandle o (t.handle o).flushed t) (f.keep o) := by
  obtain ⟨_, h2, h3⟩ := h.mirrors.opened o c hc
  have hk : f.keep o = { f with keptOf := fun q => if q = o then some (c.1, c.2.length) else f.keptOf q } := by
    unfold Spec.Frail.keep; rw [hc]
  rw [hk]
  refine { mirrors := hm, sound := hs, main := h.main, config := h.config, txs := h.txs, coins := h.coins, gas := h.gas,
           deriv := fun q => ?_, says := fun q => ?_, oldCoins := h.oldCoins, oldGas := h.oldGas }
  · by_cases hq : q = o
    · subst hq
      have hl : Spec.Frail.lengthKept { f with keptOf := fun r => if r = q then some (c.1, c.2.length) else f.keptOf r } q =
          (c.2.map Block.derivative).length := by
        unfold Spec.Frail.lengthKept
        simp
      have hb : f.node.blocksOf q = c.2 := by unfold Spec.Node.blocksOf; rw [hc]
      rw [hl]
      show ChainLog E _ _ ((f.node.blocksOf q).map _) _ _
      rw [hb, putHandle_files_self]
      exact ChainLog.flush h3 (c' := (t.handle q).flushed.chain) rfl rfl
    · have hl : Spec.Frail.lengthKept { f with keptOf := fun r => if r = o then some (c.1, c.2.length) else f.keptOf r } q =
          f.lengthKept q := by
        unfold Spec.Frail.lengthKept
        simp only [hq, if_false]
      rw [hl, (Tree.putHandle_mem_other _ _ hq).2]
      exact h.deriv q
  · simp only
    by_cases hq : q = o
    · subst hq
      rw [if_pos rfl, putHandle_files_self]
      refine ⟨(t.handle q).chain.difficulty, ?_⟩
      have hl := h3.len
      rw [List.length_map] at hl
      show some ((t.handle q).chain.height.toBE.val ++ _ ++ (t.handle q).genesisHash.val) = _
      rw [h2, hl]
      rfl
    · rw [if_neg hq, (Tree.putHandle_mem_other _ _ hq).2]
      exact h.says q

/-! ## Every call -/

/-- The ways mining on the main chain can go. -/
theorem emitMain_ways {E : Env} {X : Spec.Leftovers} {t : Tree} {n : Spec.Node} (h : Mirrors E X t n)
    (hm : t.main.chain.height.val + 1 < U256.size) (p : BytesN 32) (f : Address) (txs : List Hash) (ts : UInt64) :
    ((Tree.emitMain E p f txs ts t).final = t ∧ ∀ b, (Tree.emitMain E p f txs ts t).out ≠ .ok b) ∨
    (n.blocks.length % 1000000 ≠ 0 ∧ ∃ b, (Tree.emitMain E p f txs ts t).final = (Tree.onMain (MainChain.addBlock E b) t).final) ∨
    (n.blocks.length % 1000000 = 0 ∧ ∃ b, (Tree.emitMain E p f txs ts t).out = .ok b ∧
      (Tree.emitMain E p f txs ts t).final = (Tree.onMain (MainChain.addBlock E b) t.rotated).final) := by
  have fin : ∀ (b : Block) (u : Tree),
      ((Tree.onMain (MainChain.addBlock E b) >>= fun _ => (pure b : Act Tree Block)) u).final =
        (Tree.onMain (MainChain.addBlock E b) u).final := by
    intro b u
    rcases Act.bind_cases (Tree.onMain (MainChain.addBlock E b)) (fun _ => (pure b : Act Tree Block)) u with
      ⟨a, _, h2, _, _⟩ | ⟨_, h2, _, _⟩
    · rw [h2]; rfl
    · rw [h2]
  rw [emitMain_checks]
  cases hc : emitChecks E t p f txs ts with
  | err e => exact .inl ⟨rfl, fun b hb => by cases hb⟩
  | panic e => exact .inl ⟨rfl, fun b hb => by cases hb⟩
  | ub => exact .inl ⟨rfl, fun b hb => by cases hb⟩
  | ok r =>
    rw [Act.lift_ok_bind]
    obtain ⟨last, h1, h2, _⟩ := emitChecks_ok hc
    have hh : r.1.height.val = n.blocks.length := by
      rcases h.last with ⟨b, _, _, h3, h4⟩ | ⟨_, e, h3⟩
      · rw [h3] at h1; cases h1
        have := h2.height
        omega
      · rw [h3] at h1; cases h1
    have hep : BLOCKS_PER_EPOCH = 1000000 := rfl
    by_cases he : n.blocks.length % 1000000 = 0
    · have he' : r.1.height.val % BLOCKS_PER_EPOCH = 0 := by rw [hh, hep]; exact he
      by_cases ht : txs = []
      · subst ht
        rw [emitRest_sum he']
        have hb : (newSumBlock E t r).info.height = t.rotated.main.chain.height := by
          apply U256.ext
          show r.1.height.val = t.main.chain.height.val
          rw [hh, h.height]
        obtain ⟨tr, e⟩ := addBlock_run_right (E := E) hb hm
        exact .inr (.inr ⟨he, _, by rw [Act.bind_ok e]; rfl, fin _ _⟩)
      · rw [emitRest_wrong_epoch he' ht]
        exact .inl ⟨rfl, fun b hb => by cases hb⟩
    · have he' : r.1.height.val % BLOCKS_PER_EPOCH ≠ 0 := by rw [hh, hep]; exact he
      by_cases ht : txs = []
      · subst ht
        rw [emitRest_no_txs he']
        exact .inl ⟨rfl, fun b hb => by cases hb⟩
      · rw [emitRest_tx he' ht]
        exact .inr (.inl ⟨he, _, fin _ _⟩)

/-- The end of an epoch. -/
theorem Bears.turn {E : Env} {t : Tree} {f : Spec.Frail} {n' : Spec.Node} (h : Bears E t f) {b : Block}
    (hb : t.main.chain.height.val + 1 < U256.size)
    (hm : Mirrors E f.found (Tree.onMain (MainChain.addBlock E b) t.rotated).final n')
    (hs : Sound (Tree.onMain (MainChain.addBlock E b) t.rotated).final) (hg : Grown f.node n') (ht : n'.txs = f.node.txs) :
    Bears E (Tree.onMain (MainChain.addBlock E b) t.rotated).final (f.turned n') := by
  have hf := h.flush
  have hr : (t.rotated.main.chain.height.val + 1 < U256.size) := hb
  have sl := slight_addBlock E (t := t.rotated) hr b
  have hcalm : Calm t.flushed (Tree.onMain (MainChain.addBlock E b) t.rotated).final :=
    ⟨sl.config, sl.blocks, sl.refs, by
      have : (Tree.onMain (MainChain.addBlock E b) t.rotated).final.summary = t.rotated.summary := by
        unfold Tree.onMain; rw [Act.zoom_run]
      rw [this]; exact Db.next_insert _ _ _, sl.gas, sl.files⟩
  have htx : TxLog (Tree.onMain (MainChain.addBlock E b) t.rotated).final.main.transactions n'.txs f.flushed.keptTxs :=
    hf.txs.next sl.txs hf.sound.transactions (.inl ht) hm.stores
  have hc := hf.toCarries.moved (n' := n') hm hs hcalm hg htx
  have e1 : (Tree.onMain (MainChain.addBlock E b) t.rotated).final.oldSummary = Db.open' t.summary.cur := sl.oldSummary
  have e2 : (Tree.onMain (MainChain.addBlock E b) t.rotated).final.oldGas = Db.open' t.gas.cur := sl.oldGas
  refine { mirrors := hc.mirrors, sound := hc.sound, main := hc.main, config := hc.config, txs := hc.txs, coins := hc.coins,
           gas := hc.gas, deriv := hc.deriv, says := hc.says, oldCoins := ?_, oldGas := ?_ }
  · exact TableLog.single (m := t.summary.cur) (by rw [e1]; rfl) (by have := hm.oldCoins; rw [e1] at this; exact this)
  · exact TableLog.single (m := t.gas.cur) (by rw [e2]; rfl) (by have := hm.oldGas; rw [e2] at this; exact this)

theorem bears_step {E : Env} {t : Tree} {f : Spec.Frail} (h : Bears E t f) {k : Nat} (hk : Short k f.node)
    (hm : k + 1 < U256.size) (op : Op) :
    replyOf (op.run E t).out = (f.step E op).1 ∧ Bears E (op.run E t).final (f.step E op).2 := by
  have hsim := (sim_stepOver h.mirrors hk hm op).1
  have hsound := op_sound (E := E) op h.sound
  have hhm : t.main.chain.height.val + 1 < U256.size := by
    have := h.mirrors.height; have := hk.1; omega
  refine ⟨by rw [hsim.1]; rfl, ?_⟩
  have go : Slight t (op.run E t).final → (Grown f.node (f.node.stepOver E f.found op).2 ∧
      ((f.node.stepOver E f.found op).2.txs = f.node.txs ∨ ∃ e, (f.node.stepOver E f.found op).2.txs = e :: f.node.txs)) →
      Bears E (op.run E t).final (f.moved (f.node.stepOver E f.found op).2) := fun hsl hg => h.slight hsim.2 hsound hsl hg
  have coins : ∀ b : Option Spec.Book, Grown f.node (f.node.coinChange b).2 ∧ ((f.node.coinChange b).2.txs = f.node.txs ∨
      ∃ e, (f.node.coinChange b).2.txs = e :: f.node.txs) := fun b => ⟨grown_coins b, .inl (by cases b <;> rfl)⟩
  have gas : ∀ b : Option Spec.Book, Grown f.node (f.node.gasChange b).2 ∧ ((f.node.gasChange b).2.txs = f.node.txs ∨
      ∃ e, (f.node.gasChange b).2.txs = e :: f.node.txs) := fun b => ⟨grown_gas b, .inl (by cases b <;> rfl)⟩
  -- something is written to a derivative chain
  have deriv : ∀ (o : Address) {α : Type} {x : Act Tree α},
      (∀ t', (t'.handle o).chain.height.val + 1 < U256.size → Slight t' (x t').final) →
      Slight t ((Tree.getDerivativeChain E o >>= fun _ => x) t).final := by
    intro o α x hx
    obtain ⟨s1, s2⟩ := still_getDeriv E o t
    rcases Act.bind_cases (Tree.getDerivativeChain E o) (fun _ => x) t with ⟨a, h1, h2, _, _⟩ | ⟨_, h2, _, _⟩
    · rw [h2]
      refine Slight.before s1 s2 (hx _ ?_)
      have ho := sim_open h.mirrors o
      cases hn : f.node.openChain E o with
      | none =>
        rw [hn] at ho
        obtain ⟨e, he⟩ := ho
        rw [he] at h1; cases h1
      | some n' =>
        rw [hn] at ho
        obtain ⟨_, g2, c, g3⟩ := ho
        have hl := (g2.opened o c g3).2.2.len
        rw [List.length_map] at hl
        rw [← hl]
        unfold Spec.Node.openChain at hn
        cases hc : f.node.chains o with
        | some d =>
          rw [hc] at hn; cases hn
          have := hk.2 o c (.inl g3); omega
        | none =>
          rw [hc] at hn
          cases htip : f.node.tip with
          | none => rw [htip] at hn; cases hn
          | some b =>
            rw [htip] at hn; cases hn
            simp only [Spec.Node.setChain, if_true] at g3
            cases g3
            have := short_getD hk o (Spec.digest E b); omega
    · rw [h2]; exact s1.slight s2
  cases op with
  | addBlock b =>
    refine go (slight_addBlock E hhm b) ?_
    have hn : (f.node.stepOver E f.found (.addBlock b)).2 = (if b.info.height.val = f.node.blocks.length then
      (Spec.Reply.done, f.node.append b) else (.refused, f.node)).2 := rfl
    rw [hn]
    split
    · exact ⟨.append rfl rfl rfl, .inl rfl⟩
    · exact ⟨.same rfl rfl rfl, .inl rfl⟩
  | addNewBlock b ts =>
    have hsl := slight_addBlock E hhm b
    have hab := (sim_addBlock h.mirrors (by have := hk.1; omega) b).2
    have hsa := op_sound (E := E) (.addBlock b) h.sound
    have hrun : (Op.addNewBlock b ts).run E t = (Tree.onMain (MainChain.addBlock E b) >>= fun _ =>
        Tree.onMain (MainChain.addTransactions E ts)) t := rfl
    by_cases hb : b.info.height = t.main.chain.height
    · have hb' : b.info.height.val = f.node.blocks.length := by rw [hb]; exact h.mirrors.height
      obtain ⟨tr, e⟩ := addBlock_run_right (E := E) hb hhm
      have hfin : ((Op.addNewBlock b ts).run E t).final =
          (Tree.onMain (MainChain.addTransactions E ts) (Tree.onMain (MainChain.addBlock E b) t).final).final := by
        rw [hrun, Act.bind_ok e, e]
      rw [if_pos hb'] at hab
      have hn : (f.node.stepOver E f.found (.addNewBlock b ts)).2 = (f.node.append b).store E ts := by
        show (if _ then _ else _ : Spec.Reply × Spec.Node).2 = _
        rw [if_pos hb']
      show Bears E _ (f.moved (f.node.stepOver E f.found (.addNewBlock b ts)).2)
      have hm2 := hsim.2
      rw [hn] at hm2 ⊢
      have st := still_addTransactions E ts (Tree.onMain (MainChain.addBlock E b) t).final
      have tl := TxLog.addTransactions ts hab hsa
        (h.txs.next hsl.txs h.sound.transactions (.inl rfl) hab.stores)
      rw [← hfin] at st tl
      exact h.moved hm2 hsound (hsl.toCalm.still st) (.append rfl rfl rfl) tl (st.oldSummary.trans hsl.oldSummary)
        (st.oldGas.trans hsl.oldGas)
    · have hb' : ¬ b.info.height.val = f.node.blocks.length := by
        intro e; exact hb (U256.ext (by rw [e]; exact h.mirrors.height.symm))
      refine go ?_ ?_
      · rw [hrun, Act.bind_err (addBlock_run_wrong hb)]; exact Slight.refl t
      · have hn : (f.node.stepOver E f.found (.addNewBlock b ts)).2 = f.node := by
          show (if _ then _ else _ : Spec.Reply × Spec.Node).2 = _
          rw [if_neg hb']
        rw [hn]
        exact ⟨.same rfl rfl rfl, .inl rfl⟩
  | addTransaction tx => exact go ⟨⟨rfl, .inl rfl, .inl rfl, .inl rfl, .inl rfl, fun _ => ⟨.inl rfl, .inl rfl, rfl⟩⟩,
      Db.next_insert _ _ _, rfl, rfl⟩ ⟨.same rfl rfl rfl, .inr ⟨_, rfl⟩⟩
  | addTransactions ts =>
    have st := still_addTransactions E ts t
    exact h.moved hsim.2 hsound (Calm.still (Slight.refl t).toCalm st) (.same rfl rfl rfl)
      (TxLog.addTransactions ts h.mirrors h.sound h.txs) st.oldSummary st.oldGas
  | addAmount o a => exact go (slight_summary _ t) (coins _)
  | setAmount o a => exact go (slight_summary _ t) (coins _)
  | subAmount o a => exact go (slight_summary _ t) (coins _)
  | sendAmount s r a =>
    refine go ?_ ?_
    · show Slight t (Tree.sendAmount s r a t).final
      unfold Tree.sendAmount
      split
      · exact Slight.refl t
      · exact slight_summary _ t
    · have hn : (f.node.stepOver E f.found (.sendAmount s r a)).2 =
        (if s = r then (Spec.Reply.done, f.node) else f.node.coinChange (f.node.coins.move s r a.val)).2 := rfl
      rw [hn]
      split
      · exact ⟨.same rfl rfl rfl, .inl rfl⟩
      · exact coins _
  | addGas o a => exact go (slight_gas _ t) (gas _)
  | subGas o a => exact go (slight_gas _ t) (gas _)
  | sendGas s r a => exact go (slight_gas _ t) (gas _)
  | sendTransaction tx => exact go (slight_send E h.mirrors.coins.dec h.mirrors.gas.dec tx) (grown_send tx)
  | emitMain p fo txs ts =>
    have hmine := (sim_mine h.mirrors (by have := hk.1; omega) p fo txs ts).1
    have hgr := grown_mine (E := E) (n := f.node) p fo txs ts
    have hstep : (f.step E (.emitMain p fo txs ts)).2 =
        if (f.node.mine E p fo txs ts).1 = .done ∧ f.node.blocks.length % 1000000 = 0 then f.turned (f.node.mine E p fo txs ts).2
        else f.moved (f.node.mine E p fo txs ts).2 := rfl
    have hfin : ((Op.emitMain p fo txs ts).run E t).final = (Tree.emitMain E p fo txs ts t).final := rfl
    rw [hstep, hfin]
    rw [hfin] at hsound
    rcases emitMain_ways h.mirrors hhm p fo txs ts with ⟨e1, e2⟩ | ⟨e1, b, e2⟩ | ⟨e1, b, e2, e3⟩
    · have hnd : (f.node.mine E p fo txs ts).1 ≠ .done := by
        rw [← hmine.1]
        intro hd
        cases ho : (Tree.emitMain E p fo txs ts t).out with
        | ok b => exact e2 b ho
        | err e => rw [ho] at hd; cases hd
        | panic e => rw [ho] at hd; cases hd
        | ub => rw [ho] at hd; cases hd
      rw [if_neg (fun hh => hnd hh.1)]
      exact h.slight hmine.2 hsound (by rw [e1]; exact Slight.refl t) ⟨hgr.1, .inl hgr.2⟩
    · rw [if_neg (fun hh => e1 hh.2)]
      exact h.slight hmine.2 hsound (by rw [e2]; exact slight_addBlock E hhm b) ⟨hgr.1, .inl hgr.2⟩
    · have hd : (f.node.mine E p fo txs ts).1 = .done := by rw [← hmine.1, e2]; rfl
      rw [if_pos ⟨hd, e1⟩]
      have hm2 := hmine.2
      rw [e3] at hm2 hsound ⊢
      exact h.turn hhm hm2 hsound hgr.1 hgr.2
  | emitDerivative p fo ts =>
    refine go ?_ ⟨(grown_mineFrom _ p fo ts).1, .inl (grown_mineFrom _ p fo ts).2⟩
    show Slight t (Tree.emitDerivative E p fo ts t).final
    rw [emitDerivative_checks]
    refine deriv fo fun t' ht' => ?_
    rw [Act.get_bind]
    cases derivChecks E t' p fo ts with
    | err e => exact Slight.refl t'
    | panic e => exact Slight.refl t'
    | ub => exact Slight.refl t'
    | ok b =>
      rw [Act.lift_ok_bind]
      have hsl := slight_derivAdd E ht' b
      rcases Act.bind_cases (Tree.onDeriv fo (DerivativeChain.addBlock E b)) (fun _ => (pure (Block.derivative b) : Act Tree Block)) t' with
        ⟨a, _, h2, _, _⟩ | ⟨_, h2, _, _⟩
      · rw [h2]; exact hsl
      · rw [h2]; exact hsl
  | getDerivativeChain o =>
    obtain ⟨s1, s2⟩ := still_getDeriv E o t
    refine go (s1.slight s2) ?_
    have := grown_withChain (E := E) (n := f.node) (o := o) (f := fun n _ => (.done, n)) fun n' c _ => ⟨rfl, .inl rfl⟩
    exact ⟨this.1, .inl this.2⟩
  | derivAddBlock o b =>
    refine go (deriv o fun t' ht' => slight_derivAdd E ht' b) ?_
    have := grown_withChain (E := E) (n := f.node) (o := o)
      (f := fun n c => if b.defaultInfo.height.val = c.2.length then (.done, n.setChain o (c.1, c.2 ++ [b])) else (.refused, n))
      fun n' c _ => by
        split
        · exact ⟨rfl, .inr ⟨b, rfl⟩⟩
        · exact ⟨rfl, .inl rfl⟩
    exact ⟨this.1, .inl this.2⟩
  | derivFlush o =>
    obtain ⟨s1, s2⟩ := still_getDeriv E o t
    have hrun : (Op.derivFlush o).run E t = (Tree.getDerivativeChain E o >>= fun _ => Tree.onDeriv o DerivativeChain.flush) t := rfl
    have hstep : (f.step E (.derivFlush o)).2 = (f.moved (f.node.withChain E o (fun n _ => (.done, n))).2).keep o := rfl
    have ho := sim_open h.mirrors o
    have hgw := grown_withChain (E := E) (n := f.node) (o := o) (f := fun n _ => (.done, n)) fun n' c _ => ⟨rfl, .inl rfl⟩
    rw [hstep]
    cases hn : f.node.openChain E o with
    | none =>
      rw [hn] at ho
      obtain ⟨e, he⟩ := ho
      have hw : (f.node.withChain E o (fun n _ => (.done, n))).2 = f.node := by
        unfold Spec.Node.withChain; rw [hn]
      have hc : f.node.chains o = none := by
        unfold Spec.Node.openChain at hn
        cases hc : f.node.chains o with
        | some c => rw [hc] at hn; cases hn
        | none => rfl
      have hk' : (f.moved f.node).keep o = f.moved f.node := by
        unfold Spec.Frail.keep
        have : (f.moved f.node).node.chains o = none := hc
        rw [this]
      rw [hw, hk', hrun, Act.bind_err he]
      exact h.slight h.mirrors h.sound (Slight.refl t) ⟨.same rfl rfl rfl, .inl rfl⟩
    | some n' =>
      rw [hn] at ho
      obtain ⟨h1, h2, c, h3⟩ := ho
      have hw : (f.node.withChain E o (fun n _ => (.done, n))).2 = n' := by
        unfold Spec.Node.withChain; rw [hn]; simp only [h3]
      rw [hw] at hgw ⊢
      have hr : Tree.getDerivativeChain E o t = ⟨.ok (), (Tree.getDerivativeChain E o t).final,
        (Tree.getDerivativeChain E o t).trace⟩ := by rw [← h1]
      have hso : Sound (Tree.getDerivativeChain E o t).final := op_sound (E := E) (.getDerivativeChain o) h.sound
      have hb := h.slight h2 hso (s1.slight s2) ⟨hgw.1, .inl hgw.2⟩
      have hfin : ((Op.derivFlush o).run E t).final = Tree.putHandle o ((Tree.getDerivativeChain E o t).final.handle o).flushed
          (Tree.getDerivativeChain E o t).final := by
        rw [hrun, Act.bind_ok hr]
        unfold Tree.onDeriv
        rw [Act.zoom_run, (DerivativeChain.flush_run _).2]
      have hm2 := hsim.2
      have hn2 : (f.node.stepOver E f.found (.derivFlush o)).2 = n' := hw
      rw [hn2] at hm2
      rw [hfin] at hm2 hsound ⊢
      exact hb.keep h3 hm2 hsound
  | mainFlush => exact h.mainFlush
  | flush => exact h.flush

end BCT
