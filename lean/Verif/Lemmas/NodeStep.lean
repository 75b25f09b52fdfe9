import Verif.Lemmas.NodeMatch
/-!
# Every call moves the node as it moves the abstract node
-/

namespace BCT
open BCT.Props

/-- The reply and the state left behind are the abstract node's. -/
def Sim (E : Env) (X : Spec.Leftovers) {α : Type} (r : Res Tree α) (x : Spec.Reply × Spec.Node) : Prop :=
  replyOf r.out = x.1 ∧ Mirrors E X r.final x.2

section
variable {E : Env} {X : Spec.Leftovers} {t : Tree} {n : Spec.Node}

/-! ## Balances -/

theorem Mirrors.setCoins (h : Mirrors E X t n) {b : Spec.Book} {d : Db} (hb : Books b d.cur) :
    Mirrors E X { t with summary := d } { n with coins := b } :=
  ⟨h.first, h.main, h.txs, hb, h.gas, h.oldCoins, h.oldGas, h.closed, h.opened⟩

theorem Mirrors.setGas (h : Mirrors E X t n) {b : Spec.Book} {d : Db} (hb : Books b d.cur) :
    Mirrors E X { t with gas := d } { n with gas := b } :=
  ⟨h.first, h.main, h.txs, h.coins, hb, h.oldCoins, h.oldGas, h.closed, h.opened⟩

theorem sim_coins (h : Mirrors E X t n) {x : Act Db Unit} {o : Option Spec.Book}
    (hx : match o with
      | some b => (x t.summary).out = .ok () ∧ Books b (x t.summary).final.cur
      | none => replyOf (x t.summary).out = .crash ∧ (x t.summary).final = t.summary) :
    Sim E X (Tree.onSummary x t) (n.coinChange o) := by
  unfold Tree.onSummary
  rw [Act.zoom_run]
  cases o with
  | some b => exact ⟨by simp only [hx.1]; rfl, h.setCoins hx.2⟩
  | none => exact ⟨hx.1, by simp only [hx.2]; exact h⟩

theorem sim_gas (h : Mirrors E X t n) {x : Act Db Unit} {o : Option Spec.Book}
    (hx : match o with
      | some b => (x t.gas).out = .ok () ∧ Books b (x t.gas).final.cur
      | none => replyOf (x t.gas).out = .crash ∧ (x t.gas).final = t.gas) :
    Sim E X (Tree.onGas x t) (n.gasChange o) := by
  unfold Tree.onGas
  rw [Act.zoom_run]
  cases o with
  | some b => exact ⟨by simp only [hx.1]; rfl, h.setGas hx.2⟩
  | none => exact ⟨hx.1, by simp only [hx.2]; exact h⟩

theorem sim_setAmount (h : Mirrors E X t n) (o : Bytes) (a : U256) :
    Sim E X (Tree.setAmount o a t) (n.coinChange (some (n.coins.put o a.val))) := by
  refine sim_coins h ?_
  simp only
  rw [Ledger.set_run]
  exact ⟨rfl, h.coins.insert o a⟩

theorem sim_sendAmount (h : Mirrors E X t n) (s r : Bytes) (a : U256) :
    Sim E X (Tree.sendAmount s r a t) (if s = r then (.done, n) else n.coinChange (n.coins.move s r a.val)) := by
  unfold Tree.sendAmount
  by_cases hs : s = r
  · rw [if_pos hs, if_pos hs]; exact ⟨rfl, h⟩
  · rw [if_neg hs, if_neg hs]; exact sim_coins h (h.coins.move s r a)

/-! ## Transactions -/

theorem stored_store (n : Spec.Node) (tx : Transaction) (q : Hash) :
    (n.store E [tx]).stored q = if E.sha256 tx.dump = q then some tx else n.stored q := by
  unfold Spec.Node.store Spec.Node.stored
  simp only [List.map_cons, List.map_nil, List.reverse_singleton, List.singleton_append, List.find?_cons]
  by_cases h : E.sha256 tx.dump = q
  · simp [h]
  · simp [h]

theorem store_cons (n : Spec.Node) (tx : Transaction) (ts : List Transaction) :
    n.store E (tx :: ts) = (n.store E [tx]).store E ts := by
  unfold Spec.Node.store
  simp

theorem Mirrors.withTx (h : Mirrors E X t n) (tx : Transaction) : Mirrors E X (t.withTx E tx) (n.store E [tx]) := by
  refine ⟨h.first, h.main, fun q => ?_, h.coins, h.gas, h.oldCoins, h.oldGas, h.closed, h.opened⟩
  rw [stored_store]
  show (t.main.transactions.insert (E.sha256 tx.dump).val tx.dump).get q.val = _
  rw [Db.get_insert]
  by_cases hq : E.sha256 tx.dump = q
  · rw [if_pos (congrArg Subtype.val hq), if_pos hq]; rfl
  · rw [if_neg (fun e => hq (Subtype.ext e)), if_neg hq]; exact h.txs q

theorem sim_addTransaction (h : Mirrors E X t n) (tx : Transaction) :
    Sim E X (Tree.onMain (MainChain.addTransaction E tx) t) (.done, n.store E [tx]) := by
  rw [addTx_run]; exact ⟨rfl, h.withTx tx⟩

theorem sim_addTransactions : ∀ (ts : List Transaction) {t : Tree} {n : Spec.Node}, Mirrors E X t n →
    Sim E X (Tree.onMain (MainChain.addTransactions E ts) t) (.done, n.store E ts)
  | [], t, n, h => by
    have : n.store E [] = n := rfl
    rw [this]; exact ⟨rfl, h⟩
  | tx :: ts, t, n, h => by
    have ih := sim_addTransactions ts (h.withTx tx)
    rw [store_cons]
    exact ih

/-! ## Blocks -/

theorem Mirrors.height (h : Mirrors E X t n) : t.main.chain.height.val = n.blocks.length := h.main.len.symm

theorem Mirrors.append (h : Mirrors E X t n) {b : Block} (hb : b.info.height = t.main.chain.height)
    (hm : t.main.chain.height.val + 1 < U256.size) :
    Mirrors E X { t with main := { t.main with chain := t.main.chain.put3 E b.dump ⟨t.main.chain.height.val + 1, hm⟩ } }
      (n.append b) := by
  obtain ⟨bs, hbs⟩ := h.first
  exact ⟨⟨bs ++ [b], by unfold Spec.Node.append; simp [hbs]⟩, h.main.add hb hm, h.txs, h.coins, h.gas, h.oldCoins,
    h.oldGas, h.closed, h.opened⟩

theorem addBlock_run_right {b : Block} (hb : b.info.height = t.main.chain.height)
    (hm : t.main.chain.height.val + 1 < U256.size) :
    ∃ tr, Tree.onMain (MainChain.addBlock E b) t = ⟨.ok (),
      { t with main := { t.main with chain := t.main.chain.put3 E b.dump ⟨t.main.chain.height.val + 1, hm⟩ } }, tr⟩ := by
  unfold Tree.onMain MainChain.addBlock MainChain.onChain
  rw [Act.zoom_run, Act.zoom_run, hb, Chain.addBlock_right hm]
  exact ⟨_, rfl⟩

theorem addBlock_run_wrong {b : Block} (hb : b.info.height ≠ t.main.chain.height) :
    Tree.onMain (MainChain.addBlock E b) t = ⟨.err .chainAddingBlock, t, []⟩ := by
  unfold Tree.onMain MainChain.addBlock MainChain.onChain
  rw [Act.zoom_run, Act.zoom_run, Chain.addBlock_wrong hb]
  rfl

theorem sim_addBlock (h : Mirrors E X t n) (hm : n.blocks.length + 1 < U256.size) (b : Block) :
    Sim E X (Tree.onMain (MainChain.addBlock E b) t)
      (if b.info.height.val = n.blocks.length then (.done, n.append b) else (.refused, n)) := by
  have hh := h.height
  by_cases hb : b.info.height.val = n.blocks.length
  · rw [if_pos hb]
    have hb' : b.info.height = t.main.chain.height := U256.ext (by omega)
    obtain ⟨tr, e⟩ := addBlock_run_right (E := E) hb' (by omega)
    rw [e]
    exact ⟨rfl, h.append hb' (by omega)⟩
  · rw [if_neg hb, addBlock_run_wrong (by intro e; rw [e] at hb; omega)]
    exact ⟨rfl, h⟩

theorem sim_addNewBlock (h : Mirrors E X t n) (hm : n.blocks.length + 1 < U256.size) (b : Block) (ts : List Transaction) :
    Sim E X (Tree.addNewBlock E b ts t)
      (if b.info.height.val = n.blocks.length then (.done, (n.append b).store E ts) else (.refused, n)) := by
  have hh := h.height
  unfold Tree.addNewBlock
  by_cases hb : b.info.height.val = n.blocks.length
  · rw [if_pos hb]
    have hb' : b.info.height = t.main.chain.height := U256.ext (by omega)
    obtain ⟨tr, e⟩ := addBlock_run_right (E := E) hb' (by omega)
    rw [Act.bind_ok e]
    exact sim_addTransactions ts (h.append hb' (by omega))
  · rw [if_neg hb, Act.bind_err (addBlock_run_wrong (by intro e; rw [e] at hb; omega))]
    exact ⟨rfl, h⟩

/-! ## Flushing -/

/-- The same contents. -/
structure Contents (s t : Tree) : Prop where
  main : Chain.Same s.main.chain t.main.chain
  txs : t.main.transactions.cur = s.main.transactions.cur
  summary : t.summary.cur = s.summary.cur
  gas : t.gas.cur = s.gas.cur
  oldSummary : t.oldSummary.cur = s.oldSummary.cur
  oldGas : t.oldGas.cur = s.oldGas.cur
  deriv : DerivSame s t

theorem Mirrors.contents {t' : Tree} (h : Mirrors E X t n) (hc : Contents t t') : Mirrors E X t' n := by
  refine ⟨h.first, h.main.same hc.main, fun q => ?_, ?_, ?_, ?_, ?_, fun o ho => ?_, fun o c ho => ?_⟩
  · unfold Db.get; rw [hc.txs]; exact h.txs q
  · rw [hc.summary]; exact h.coins
  · rw [hc.gas]; exact h.gas
  · rw [hc.oldSummary]; exact h.oldCoins
  · rw [hc.oldGas]; exact h.oldGas
  · rw [hc.deriv.1, hc.deriv.2]; exact h.closed o ho
  · rw [hc.deriv.2, hc.deriv.handle]; exact h.opened o c ho

theorem flush_contents (t : Tree) : (Tree.flush t).out = .ok () ∧ Contents t (Tree.flush t).final :=
  ⟨rfl, ⟨⟨rfl, rfl, rfl⟩, rfl, rfl, rfl, rfl, rfl, ⟨rfl, rfl⟩⟩⟩

theorem mainFlush_contents (t : Tree) :
    (Tree.onMain MainChain.flush t).out = .ok () ∧ Contents t (Tree.onMain MainChain.flush t).final :=
  ⟨rfl, ⟨⟨rfl, rfl, rfl⟩, rfl, rfl, rfl, rfl, rfl, ⟨rfl, rfl⟩⟩⟩

theorem sim_flush (h : Mirrors E X t n) : Sim E X (Tree.flush t) (.done, n) :=
  ⟨by rw [(flush_contents t).1]; rfl, h.contents (flush_contents t).2⟩

theorem sim_mainFlush (h : Mirrors E X t n) : Sim E X (Tree.onMain MainChain.flush t) (.done, n) :=
  ⟨by rw [(mainFlush_contents t).1]; rfl, h.contents (mainFlush_contents t).2⟩

/-! ## Sending -/

theorem gasPrice_eq (tx : Transaction) : Spec.Node.gasPrice tx = gasCost tx := by
  unfold Spec.Node.gasPrice gasCost Transaction.getDumpSize
  rw [u256Size_exact, ← amountBytes_eq]
  have hz : tx.amount.val = 0 → (Ledger.encode tx.amount).length = 1 := by
    intro h
    rw [amountBytes_eq, h]
    unfold Spec.amountBytes
    rw [digits_zero]; rfl
  have hp : BYTE_GAS_PRICE.val = 625000000000 := rfl
  rw [hp]
  have he : (encU256 tx.amount).length = (Ledger.encode tx.amount).length := rfl
  congr 1
  by_cases h0 : tx.amount.val = 0
  · have := hz h0
    simp only [h0, if_true]
    cases tx.data <;> simp <;> omega
  · simp only [h0, if_false]
    cases tx.data <;> simp <;> omega

theorem sim_send (h : Mirrors E X t n) (tx : Transaction) : Sim E X (Tree.sendTransaction E tx t) (n.send E tx) := by
  have hs : (2 : Nat) ^ 256 = U256.size := rfl
  have hgas : t.getGas tx.sender = .ok (t.gas.cur.amt tx.sender.val) := h.gas.dec.balance _
  have hcoin : t.getAmount tx.sender = .ok (t.summary.cur.amt tx.sender.val) := h.coins.dec.balance _
  have eg := h.gas.amt tx.sender.val
  have ec := h.coins.amt tx.sender.val
  unfold Tree.sendTransaction Spec.Node.send
  simp only [Act.get_bind, hgas, hcoin, Act.lift_ok_bind]
  rw [gasPrice_eq, hs]
  by_cases hmul : gasCost tx < U256.size
  · have hm : BYTE_GAS_PRICE.mulNat tx.getDumpSize = .ok ⟨gasCost tx, hmul⟩ := by
      unfold U256.mulNat; rw [dif_pos (show BYTE_GAS_PRICE.val * tx.getDumpSize < U256.size from hmul)]; rfl
    simp only [hm, Act.lift_ok_bind]
    rw [if_neg (show ¬ ¬ gasCost tx < U256.size from fun hn => hn hmul)]
    by_cases hlt : (t.gas.cur.amt tx.sender.val).val < gasCost tx
    · rw [if_pos hlt, if_pos (by omega)]
      exact ⟨rfl, h⟩
    · rw [if_neg hlt, if_neg (by omega)]
      rcases h.last with ⟨b, h1, _, h3, _⟩ | ⟨h1, e, h3⟩
      · rw [h1, h3]
        simp only [Act.lift_ok_bind, Outcome.ofOption_some, fee_spec]
        by_cases hadd : Spec.fee b.info.difficulty + tx.amount.val < U256.size
        · have ha : (⟨Spec.fee b.info.difficulty, fee_lt b.info.difficulty⟩ : U256).add tx.amount = .ok ⟨_, hadd⟩ := by
            unfold U256.add; rw [dif_pos hadd]
          simp only [ha, Act.lift_ok_bind]
          rw [if_neg (show ¬ ¬ Spec.fee b.info.difficulty + tx.amount.val < U256.size from fun hn => hn hadd)]
          by_cases hcl : (t.summary.cur.amt tx.sender.val).val < Spec.fee b.info.difficulty + tx.amount.val
          · rw [if_pos hcl, if_pos (by omega)]
            exact ⟨rfl, h⟩
          · rw [if_neg hcl, if_neg (by omega)]
            have hw := h.withTx tx
            rw [Act.bind_ok (addTx_run E t tx)]
            have hsa := sim_sendAmount hw tx.sender.val tx.receiver.val tx.amount
            have hcn : (n.store E [tx]).coins = n.coins := rfl
            -- the gas is taken
            have tail : ∀ {t' : Tree} {coins : Spec.Book}, Mirrors E X t' { n.store E [tx] with coins } →
                (Tree.subGas tx.sender.val ⟨gasCost tx, hmul⟩ t').out = .ok () ∧
                Mirrors E X (Tree.subGas tx.sender.val ⟨gasCost tx, hmul⟩ t').final
                  { n.store E [tx] with
                    coins, gas := n.gas.put tx.sender.val (n.gas.get tx.sender.val - gasCost tx) } := by
              intro t' coins h'
              have hg := h'.gas.sub tx.sender.val ⟨gasCost tx, hmul⟩
              have e1 : ({ n.store E [tx] with coins } : Spec.Node).gas = n.gas := rfl
              rw [e1] at hg
              unfold Spec.Book.sub at hg
              rw [if_pos (show gasCost tx ≤ n.gas.get tx.sender.val by omega)] at hg
              simp only at hg
              unfold Tree.subGas Tree.onGas
              rw [Act.zoom_run]
              exact ⟨hg.1, h'.setGas hg.2⟩
            by_cases hself : tx.sender = tx.receiver
            · rw [if_pos (congrArg Subtype.val hself)] at hsa
              rw [if_pos hself]
              have hrun : Tree.sendAmount tx.sender.val tx.receiver.val tx.amount (t.withTx E tx) =
                  ⟨.ok (), t.withTx E tx, []⟩ := by
                unfold Tree.sendAmount; rw [if_pos (congrArg Subtype.val hself)]; rfl
              rw [Act.bind_ok hrun]
              have := tail (t' := t.withTx E tx) (coins := n.coins) hw
              exact ⟨by rw [this.1]; rfl, this.2⟩
            · rw [if_neg (fun e => hself (Subtype.ext e)), hcn] at hsa
              rw [if_neg hself]
              cases hmv : n.coins.move tx.sender.val tx.receiver.val tx.amount.val with
              | none =>
                rw [hmv] at hsa
                obtain ⟨r1, r2⟩ := hsa
                simp only [Spec.Node.coinChange] at r1 r2
                cases ho : (Tree.sendAmount tx.sender.val tx.receiver.val tx.amount (t.withTx E tx)).out with
                | ok u => rw [ho] at r1; cases r1
                | err u => rw [ho] at r1; cases r1
                | ub => rw [ho] at r1; cases r1
                | panic p =>
                  have hrun : Tree.sendAmount tx.sender.val tx.receiver.val tx.amount (t.withTx E tx) = ⟨.panic p,
                    (Tree.sendAmount tx.sender.val tx.receiver.val tx.amount (t.withTx E tx)).final,
                    (Tree.sendAmount tx.sender.val tx.receiver.val tx.amount (t.withTx E tx)).trace⟩ := by
                    rw [← ho]
                  rw [Act.bind_panic hrun]
                  exact ⟨rfl, r2⟩
              | some coins =>
                rw [hmv] at hsa
                obtain ⟨r1, r2⟩ := hsa
                simp only [Spec.Node.coinChange] at r1 r2
                cases ho : (Tree.sendAmount tx.sender.val tx.receiver.val tx.amount (t.withTx E tx)).out with
                | panic u => rw [ho] at r1; cases r1
                | err u => rw [ho] at r1; cases r1
                | ub => rw [ho] at r1; cases r1
                | ok u =>
                  have hrun : Tree.sendAmount tx.sender.val tx.receiver.val tx.amount (t.withTx E tx) = ⟨.ok u,
                    (Tree.sendAmount tx.sender.val tx.receiver.val tx.amount (t.withTx E tx)).final,
                    (Tree.sendAmount tx.sender.val tx.receiver.val tx.amount (t.withTx E tx)).trace⟩ := by
                    rw [← ho]
                  rw [Act.bind_ok hrun]
                  have := tail r2
                  exact ⟨by rw [this.1]; rfl, this.2⟩
        · have ha : (⟨Spec.fee b.info.difficulty, fee_lt b.info.difficulty⟩ : U256).add tx.amount = .panic .overflow := by
            unfold U256.add; rw [dif_neg hadd]
          simp only [ha]
          rw [if_pos hadd]
          exact ⟨rfl, h⟩
      · rw [h1, h3]
        exact ⟨rfl, h⟩
  · have hm : BYTE_GAS_PRICE.mulNat tx.getDumpSize = .panic .overflow := by
      unfold U256.mulNat; rw [dif_neg]; exact hmul
    rw [hm, if_pos hmul]
    exact ⟨rfl, h⟩

end

end BCT
