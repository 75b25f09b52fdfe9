import Verif.Lemmas.NodeStep
/-!
# Mining, and derivative chains
-/

namespace BCT
open BCT.Props

section
variable {E : Env} {X : Spec.Leftovers} {t : Tree} {n : Spec.Node}

theorem ofNat_val {k : Nat} (h : k < U256.size) : (U256.ofNat k).val = k := Nat.mod_eq_of_lt h

theorem add_one_eq {a : U256} {k : Nat} (h : a.val + 1 = k) (hk : k < U256.size) : a.add U256.one = .ok (U256.ofNat k) := by
  have h1 : U256.one.val = 1 := rfl
  unfold U256.add
  rw [dif_pos (by omega)]
  congr 1
  apply U256.ext
  rw [ofNat_val hk]
  simp only [h1]; exact h

/-! ## The end of an epoch -/

theorem summary_eq (h : Mirrors E X t n) : merkleRootT E (t.summaryLeaves.map E.sha256) = n.summary E := by
  rw [treeRoot_eq]
  unfold Spec.Node.summary Tree.summaryLeaves
  rw [h.coins.entries]
  congr 1
  rw [List.map_map, List.map_map]
  apply List.map_congr_left
  intro e _
  have hg : t.gas.get e.1 = (n.gas.entry e.1).map Spec.amountBytes := h.gas.get e.1
  simp only [Function.comp_apply, hg]
  unfold Tree.leafBytes
  have : Spec.ascii "|" = [0x7C] := by decide
  rw [this]
  cases n.gas.entry e.1 <;> rfl

theorem Mirrors.rotated (h : Mirrors E X t n) : Mirrors E X t.rotated
    { n with oldCoins := n.coins, oldGas := n.gas, coins := n.coins.put Spec.root.val Spec.emission } := by
  obtain ⟨s', _, hf, h1, h2, h3, h4, h5, h6, h7, _, h9, h10, h11⟩ := rotate_run t
  unfold Tree.rotated
  rw [hf]
  refine ⟨h.first, h.main.same ⟨h5, h6, h7⟩, fun q => ?_, ?_, ?_, ?_, ?_, fun o ho => ?_, fun o c ho => ?_⟩
  · simp only
    unfold Db.get; rw [h9]; exact h.txs q
  · have := h.coins.insert ROOT_PUBLIC_ADDRESS.val COINS_PER_CYCLE
    rw [← h1] at this
    exact this
  · simp only [h2]; exact h.gas
  · simp only [h3]; exact h.coins
  · simp only [h4]; exact h.gas
  · simp only [h10, h11]; exact h.closed o ho
  · have hh : ∀ d : Db, ({ s' with summary := d } : Tree).handle o = t.handle o := by
      intro d; unfold Tree.handle; simp only [h10, h11]
    rw [hh]
    simp only [h11]; exact h.opened o c ho

/-! ## Mining on the main chain -/

/-- What `emmit_new_main_block` does, with the block it returns. -/
theorem sim_mine (h : Mirrors E X t n) (hm : n.blocks.length + 1 < U256.size) (pow : BytesN 32) (founder : Address)
    (txs : List Hash) (ts : UInt64) :
    Sim E X (Tree.emitMain E pow founder txs ts t) (n.mine E pow founder txs ts) ∧
    ∀ b, (Tree.emitMain E pow founder txs ts t).out = .ok b →
      (n.mine E pow founder txs ts).2.blocks = n.blocks ++ [b] := by
  have hh := h.height
  rw [emitMain_checks]
  unfold Spec.Node.mine emitChecks
  rcases h.last with ⟨b, h1, _, h3, h4⟩ | ⟨h1, e, h3⟩
  · rw [h1, h3]
    simp only [Outcome.ok_bind, Outcome.ofOption_some, checkPow_spec]
    have hd : b.hash E = Spec.digest E b := rfl
    rw [hd]
    cases hw : Spec.enoughWork E (Spec.digest E b) b.info.difficulty txs pow with
    | false =>
      simp only [Bool.false_eq_true, not_false_eq_true, if_true, Bool.not_false]
      exact ⟨⟨rfl, h⟩, fun b h => by cases h⟩
    | true =>
      simp only [not_true_eq_false, if_false, Bool.not_true, Bool.false_eq_true]
      have hdiff := difficulty_spec E b.info.timestamp ts b.info.difficulty
      cases hn : Spec.nextDifficulty E b.info.timestamp ts b.info.difficulty.val with
      | error r =>
        rw [hn] at hdiff
        simp only at hdiff ⊢
        obtain ⟨hr, hno⟩ := hdiff
        cases hrd : recalculateDifficulty E b.info.timestamp ts b.info.difficulty with
        | ok d => exact absurd hrd (hno d)
        | err e => rw [hrd] at hr; exact ⟨⟨hr, h⟩, fun b h => by cases h⟩
        | panic e => rw [hrd] at hr; exact ⟨⟨hr, h⟩, fun b h => by cases h⟩
        | ub => rw [hrd] at hr; exact ⟨⟨hr, h⟩, fun b h => by cases h⟩
      | ok l =>
        rw [hn] at hdiff
        simp only at hdiff ⊢
        rw [hdiff]
        have hof : U256.ofNat n.blocks.length = t.main.chain.height := U256.ext (by rw [ofNat_val (by omega)]; omega)
        simp only [Outcome.ok_bind, fee_spec, add_one_eq h4 (by omega), Act.lift_ok_bind]
        have hfee : (⟨Spec.fee (Spec.Node.bytes32 l), fee_lt _⟩ : U256) = U256.ofNat (Spec.fee (Spec.Node.bytes32 l)) :=
          U256.ext (by rw [ofNat_val (fee_lt _)])
        rw [hfee]
        generalize hinfo : BasicInfo.mk ts pow (Spec.digest E b) (U256.ofNat n.blocks.length) (Spec.Node.bytes32 l)
          founder = info
        have hih : info.height = U256.ofNat n.blocks.length := by rw [← hinfo]
        have hiv : info.height.val = n.blocks.length := by rw [hih, ofNat_val (by omega)]
        have hep : BLOCKS_PER_EPOCH = 1000000 := rfl
        have hie : info.height.val % BLOCKS_PER_EPOCH = n.blocks.length % 1000000 := by rw [hiv, hep]
        generalize U256.ofNat (Spec.fee (Spec.Node.bytes32 l)) = fee
        by_cases he : n.blocks.length % 1000000 = 0
        · rw [if_pos he]
          by_cases ht : txs = []
          · rw [if_pos ht]
            subst ht
            rw [emitRest_sum (by rw [hie]; exact he)]
            have hr := h.rotated
            have hs : Chain.Same t.main.chain t.rotated.main.chain := (Tree.rotate_mainSame t).1
            have hbl : newSumBlock E t (info, fee) = .summarize ⟨info, n.summary E⟩ := by
              unfold newSumBlock; rw [summary_eq h]
            have hb' : (newSumBlock E t (info, fee)).info.height = t.rotated.main.chain.height := by
              rw [hs.2.2, ← hof]; exact hih
            have hm' : t.rotated.main.chain.height.val + 1 < U256.size := by rw [hs.2.2]; omega
            obtain ⟨tr, e⟩ := addBlock_run_right (E := E) hb' hm'
            rw [Act.bind_ok e]
            have := hr.append hb' hm'
            rw [hbl] at this ⊢
            exact ⟨⟨rfl, this⟩, fun x hx => by cases hx; rfl⟩
          · rw [if_neg ht, emitRest_wrong_epoch (by rw [hie]; exact he) ht]
            exact ⟨⟨rfl, h⟩, fun b h => by cases h⟩
        · rw [if_neg he]
          by_cases ht : txs = []
          · rw [if_pos ht]
            subst ht
            rw [emitRest_no_txs (by rw [hie]; exact he)]
            exact ⟨⟨rfl, h⟩, fun b h => by cases h⟩
          · rw [if_neg ht, emitRest_tx (by rw [hie]; exact he) ht]
            have hbl : newTxBlock E txs (info, fee) = .transaction ⟨fee, Spec.treeRoot E txs, info, txs⟩ := by
              unfold newTxBlock; rw [treeRoot_eq]
            have hb' : (newTxBlock E txs (info, fee)).info.height = t.main.chain.height := by
              rw [← hof]; exact hih
            obtain ⟨tr, e⟩ := addBlock_run_right (E := E) hb' (by omega)
            rw [Act.bind_ok e]
            have := h.append hb' (by omega)
            rw [hbl] at this ⊢
            exact ⟨⟨rfl, this⟩, fun x hx => by cases hx; rfl⟩
  · rw [h1, h3]
    exact ⟨⟨rfl, h⟩, fun b h => by cases h⟩

/-! ## Derivative chains -/

/-- `get_last_block` of a derivative chain. -/
theorem Chain.Is.derivLast {c : DerivativeChain} {ds : List DerivativeBlock} {x : Spec.Found Block}
    (h : Chain.Is E c.chain (ds.map Block.derivative) x) : c.getLastBlock = .ok ds.getLast? := by
  have hl := h.len
  rw [List.length_map] at hl
  unfold DerivativeChain.getLastBlock DerivativeChain.getLastRawBlock
  by_cases hz : c.chain.height.val = 0
  · rw [if_pos hz]
    have : ds = [] := List.length_eq_zero_iff.mp (by omega)
    subst this; rfl
  · rw [if_neg hz, lastIndex (by omega)]
    simp only [Outcome.ok_bind]
    rw [h.findRaw]
    simp only
    rw [Chain.Is.read_lt (by rw [List.length_map]; omega), List.getElem?_map]
    rw [← hl, ← List.getLast?_eq_getElem?]
    cases hg : ds.getLast? with
    | none => rfl
    | some d => exact decode_deriv d

theorem Mirrors.putHandle (h : Mirrors E X t n) (o : Address) {c : DerivativeChain} {ds : List DerivativeBlock}
    (hc : Chain.Is E c.chain (ds.map Block.derivative) (Found.up (X.chains o))) :
    Mirrors E X (Tree.putHandle o c t) (n.setChain o (c.genesisHash, ds)) := by
  refine ⟨h.first, h.main, h.txs, h.coins, h.gas, h.oldCoins, h.oldGas, fun q hq => ?_, fun q d hq => ?_⟩
  · simp only [Spec.Node.setChain] at hq
    split at hq
    · cases hq
    · rename_i hne
      rw [(Tree.putHandle_mem_other c t hne).1, (Tree.putHandle_mem_other c t hne).2]
      exact h.closed q hq
  · simp only [Spec.Node.setChain] at hq
    split at hq
    · rename_i he
      subst he
      cases hq
      rw [Tree.putHandle_mem_self, Tree.handle_put_self]
      exact ⟨rfl, rfl, hc⟩
    · rename_i hne
      rw [(Tree.putHandle_mem_other c t hne).1, Tree.handle_put_other c t hne]
      exact h.opened q d hq

/-- `get_derivative_chain`. -/
theorem sim_open (h : Mirrors E X t n) (o : Address) :
    match n.openChain E o with
    | none => ∃ e, Tree.getDerivativeChain E o t = ⟨.err e, t, []⟩
    | some n' => (Tree.getDerivativeChain E o t).out = .ok () ∧ Mirrors E X (Tree.getDerivativeChain E o t).final n' ∧
        ∃ c, n'.chains o = some c := by
  unfold Spec.Node.openChain
  cases hc : n.chains o with
  | some c =>
    simp only
    rcases Tree.getDeriv_cases E o t with ⟨_, e⟩ | ⟨hm, _⟩
    · rw [e]; exact ⟨rfl, h, c, hc⟩
    · have := (h.opened o c hc).1
      rw [hm] at this; cases this
  | none =>
    obtain ⟨hm, hf⟩ := h.closed o hc
    unfold Tree.getDerivativeChain
    rw [Act.get_bind]
    simp only [hm, Option.isSome_none, Bool.false_eq_true, if_false]
    rcases h.last with ⟨b, h1, _, h3, _⟩ | ⟨h1, e, h3⟩
    · rw [h1, h3]
      obtain ⟨ch, hn, hg, hi⟩ := hf.opens (b.hash E)
      simp only [Option.map_some, Outcome.ofOption_some, Act.lift_ok_bind, hn]
      refine ⟨rfl, ?_, _, if_pos rfl⟩
      have hp := h.putHandle o hi
      rw [hg] at hp
      exact hp
    · rw [h1, h3]
      exact ⟨e, rfl⟩

/-- Something done with an open derivative chain. -/
theorem sim_withChain (h : Mirrors E X t n) (o : Address) {α : Type} {x : Act Tree α} {R : α → Spec.Node → Prop}
    {f : Spec.Node → Hash × List DerivativeBlock → Spec.Reply × Spec.Node}
    (hx : ∀ t' n' c, Mirrors E X t' n' → n'.chains o = some c → (n' = n ∨ ∃ b, n' = n.setChain o ((n.saved o).getD (Spec.digest E b, []))) →
      Sim E X (x t') (f n' c) ∧ ∀ a, (x t').out = .ok a → R a (f n' c).2) :
    Sim E X ((Tree.getDerivativeChain E o >>= fun _ => x) t) (n.withChain E o f) ∧
    ∀ a, ((Tree.getDerivativeChain E o >>= fun _ => x) t).out = .ok a → R a (n.withChain E o f).2 := by
  have ho := sim_open h o
  unfold Spec.Node.withChain
  cases hn : n.openChain E o with
  | none =>
    rw [hn] at ho
    obtain ⟨e, he⟩ := ho
    rw [Act.bind_err he]
    exact ⟨⟨rfl, h⟩, fun _ h => by cases h⟩
  | some n' =>
    rw [hn] at ho
    obtain ⟨h1, h2, c, h3⟩ := ho
    have hrun : Tree.getDerivativeChain E o t = ⟨.ok (), (Tree.getDerivativeChain E o t).final,
        (Tree.getDerivativeChain E o t).trace⟩ := by rw [← h1]
    rw [Act.bind_ok hrun]
    simp only [h3]
    have hor : n' = n ∨ ∃ b, n' = n.setChain o ((n.saved o).getD (Spec.digest E b, [])) := by
      unfold Spec.Node.openChain at hn
      cases hc : n.chains o with
      | some c => rw [hc] at hn; cases hn; exact .inl rfl
      | none =>
        rw [hc] at hn
        cases ht : n.tip with
        | none => rw [ht] at hn; cases hn
        | some b => rw [ht] at hn; cases hn; exact .inr ⟨b, rfl⟩
    exact hx _ n' c h2 h3 hor

theorem setChain_self {o : Address} {c : Hash × List DerivativeBlock} (hc : n.chains o = some c) :
    n.setChain o c = n := by
  unfold Spec.Node.setChain
  have : (fun q => if q = o then some c else n.chains q) = n.chains := by
    funext q
    by_cases hq : q = o
    · rw [if_pos hq, hq, hc]
    · rw [if_neg hq]
  rw [this]

theorem sim_derivAdd (h : Mirrors E X t n) {o : Address} {c : Hash × List DerivativeBlock} (hc : n.chains o = some c)
    (hm : c.2.length + 1 < U256.size) (b : DerivativeBlock) :
    Sim E X (Tree.onDeriv o (DerivativeChain.addBlock E b) t)
      (if b.defaultInfo.height.val = c.2.length then (.done, n.setChain o (c.1, c.2 ++ [b])) else (.refused, n)) ∧
    ((Tree.onDeriv o (DerivativeChain.addBlock E b) t).out = .ok () ↔ b.defaultInfo.height.val = c.2.length) := by
  obtain ⟨h1, h2, h3⟩ := h.opened o c hc
  have hl := h3.len
  rw [List.length_map] at hl
  unfold Tree.onDeriv DerivativeChain.addBlock DerivativeChain.onChain
  rw [Act.zoom_run, Act.zoom_run]
  by_cases hb : b.defaultInfo.height.val = c.2.length
  · rw [if_pos hb]
    have hb' : (Block.derivative b).info.height = (t.handle o).chain.height := U256.ext (by
      show b.defaultInfo.height.val = _; omega)
    have hadd := h3.add hb' (by omega)
    have hb'' : b.defaultInfo.height = (t.handle o).chain.height := hb'
    rw [hb'', Chain.addBlock_right (by omega)]
    refine ⟨⟨rfl, ?_⟩, iff_of_true rfl (by rw [← hb'']; exact hb)⟩
    have hp := h.putHandle o (ds := c.2 ++ [b]) (c := ⟨(t.handle o).chain.put3 E b.dump
      ⟨(t.handle o).chain.height.val + 1, by omega⟩, (t.handle o).genesisHash⟩) (by rw [List.map_append]; exact hadd)
    rw [← h2]
    exact hp
  · rw [if_neg hb, Chain.addBlock_wrong (by intro e; rw [e] at hb; omega)]
    refine ⟨⟨rfl, ?_⟩, iff_of_false (by simp) hb⟩
    have hp := h.putHandle o (ds := c.2) (c := t.handle o) h3
    rw [h2] at hp
    have : n.setChain o (c.1, c.2) = n := setChain_self hc
    rw [this] at hp
    exact hp

theorem sim_derivFlush (h : Mirrors E X t n) {o : Address} {c : Hash × List DerivativeBlock} (hc : n.chains o = some c) :
    Sim E X (Tree.onDeriv o DerivativeChain.flush t) (.done, n) := by
  obtain ⟨h1, h2, h3⟩ := h.opened o c hc
  unfold Tree.onDeriv
  rw [Act.zoom_run]
  refine ⟨rfl, ?_⟩
  have hp := h.putHandle o (ds := c.2) (c := (DerivativeChain.flush (t.handle o)).final)
    (h3.same (DerivativeChain.flush_same (t.handle o)).1)
  have e : (DerivativeChain.flush (t.handle o)).final.genesisHash = (t.handle o).genesisHash := rfl
  rw [e, h2] at hp
  have : n.setChain o (c.1, c.2) = n := setChain_self hc
  rw [this] at hp
  exact hp

/-- The block is the last one of the founder's chain. -/
def NewOn (f : Address) (b : Block) (n : Spec.Node) : Prop :=
  ∃ d, b = .derivative d ∧ ∃ c, n.chains f = some c ∧ c.2.getLast? = some d

/-- `emmit_new_derivative_block` on an open chain, with the block it returns. -/
theorem sim_mineOn (h : Mirrors E X t n) {f : Address} {c : Hash × List DerivativeBlock} (hc : n.chains f = some c)
    (hm : c.2.length + 1 < U256.size) (pow : BytesN 32) (ts : UInt64) :
    Sim E X ((Act.lift (derivChecks E t pow f ts) >>= fun b =>
        Tree.onDeriv f (DerivativeChain.addBlock E b) >>= fun _ => pure (Block.derivative b)) t)
      (n.mineFrom E (X.main.lookup (Spec.mainKey E) n.blocks) pow f ts c) ∧
    ∀ a, ((Act.lift (derivChecks E t pow f ts) >>= fun b =>
        Tree.onDeriv f (DerivativeChain.addBlock E b) >>= fun _ => pure (Block.derivative b)) t).out = .ok a →
      NewOn f a (n.mineFrom E (X.main.lookup (Spec.mainKey E) n.blocks) pow f ts c).2 := by
  obtain ⟨h1, h2, h3⟩ := h.opened f c hc
  have hl := h3.len
  have hlast := h3.derivLast
  rw [List.length_map] at hl
  -- once the block before is known
  have key : ∀ (prev difficulty : Hash) (before : UInt64),
      Sim E X ((Act.lift (checkPow E prev difficulty [] pow.val >>= fun good =>
          if !good then .err .treeWrongPow
          else recalculateDifficulty E before ts difficulty >>= fun difficulty =>
            .ok (⟨{ timestamp := ts, pow, previousHash := prev, height := U256.ofNat c.2.length, difficulty,
                    founder := f }⟩ : DerivativeBlock)) >>= fun b =>
          Tree.onDeriv f (DerivativeChain.addBlock E b) >>= fun _ => pure (Block.derivative b)) t)
        (if ¬ Spec.enoughWork E prev difficulty [] pow then (.refused, n)
          else match Spec.nextDifficulty E before ts difficulty.val with
            | .error r => (r, n)
            | .ok d =>
              (.done, n.setChain f (c.1, c.2 ++
                [⟨{ timestamp := ts, pow, previousHash := prev, height := U256.ofNat c.2.length,
                    difficulty := Spec.Node.bytes32 d, founder := f }⟩]))) ∧
      ∀ a, ((Act.lift (checkPow E prev difficulty [] pow.val >>= fun good =>
          if !good then .err .treeWrongPow
          else recalculateDifficulty E before ts difficulty >>= fun difficulty =>
            .ok (⟨{ timestamp := ts, pow, previousHash := prev, height := U256.ofNat c.2.length, difficulty,
                    founder := f }⟩ : DerivativeBlock)) >>= fun b =>
          Tree.onDeriv f (DerivativeChain.addBlock E b) >>= fun _ => pure (Block.derivative b)) t).out = .ok a → NewOn f a (if ¬ Spec.enoughWork E prev difficulty [] pow then (.refused, n)
          else match Spec.nextDifficulty E before ts difficulty.val with
            | .error r => (r, n)
            | .ok d =>
              (.done, n.setChain f (c.1, c.2 ++
                [⟨{ timestamp := ts, pow, previousHash := prev, height := U256.ofNat c.2.length,
                    difficulty := Spec.Node.bytes32 d, founder := f }⟩]))).2 := by
    intro prev difficulty before
    simp only [checkPow_spec, Outcome.ok_bind]
    cases hw : Spec.enoughWork E prev difficulty [] pow with
    | false =>
      simp only [Bool.false_eq_true, not_false_eq_true, if_true, Bool.not_false]
      exact ⟨⟨rfl, h⟩, fun _ h => by cases h⟩
    | true =>
      simp only [not_true_eq_false, if_false, Bool.not_true, Bool.false_eq_true]
      have hdiff := difficulty_spec E before ts difficulty
      cases hn : Spec.nextDifficulty E before ts difficulty.val with
      | error r =>
        rw [hn] at hdiff
        simp only at hdiff ⊢
        obtain ⟨hr, hno⟩ := hdiff
        cases hrd : recalculateDifficulty E before ts difficulty with
        | ok d => exact absurd hrd (hno d)
        | err e => rw [hrd] at hr; exact ⟨⟨hr, h⟩, fun _ h => by cases h⟩
        | panic e => rw [hrd] at hr; exact ⟨⟨hr, h⟩, fun _ h => by cases h⟩
        | ub => rw [hrd] at hr; exact ⟨⟨hr, h⟩, fun _ h => by cases h⟩
      | ok l =>
        rw [hn] at hdiff
        simp only at hdiff ⊢
        rw [hdiff]
        simp only [Outcome.ok_bind, Act.lift_ok_bind]
        generalize hb : DerivativeBlock.mk (BasicInfo.mk ts pow prev (U256.ofNat c.2.length) (Spec.Node.bytes32 l)
          f) = b
        have hbh : b.defaultInfo.height.val = c.2.length := by rw [← hb]; exact ofNat_val (by omega)
        have hadd := sim_derivAdd h hc hm b
        rw [if_pos hbh] at hadd
        have hok := hadd.2.mpr hbh
        have hrun : Tree.onDeriv f (DerivativeChain.addBlock E b) t = ⟨.ok (),
          (Tree.onDeriv f (DerivativeChain.addBlock E b) t).final,
          (Tree.onDeriv f (DerivativeChain.addBlock E b) t).trace⟩ := by rw [← hok]
        rw [Act.bind_ok hrun]
        refine ⟨⟨rfl, hadd.1.2⟩, fun a ha => ?_⟩
        cases ha
        exact ⟨b, rfl, _, if_pos rfl, by simp⟩
  unfold derivChecks Spec.Node.mineFrom
  rw [hlast]
  simp only [Outcome.ok_bind]
  cases hg : c.2.getLast? with
  | some d =>
    simp only
    have hdh : d.defaultInfo.height.val + 1 = c.2.length := by
      rw [List.getLast?_eq_getElem?] at hg
      have hlt : c.2.length - 1 < c.2.length := (List.getElem?_eq_some_iff.mp hg).1
      have := h3.heights (c.2.length - 1) (by rw [List.length_map]; exact hlt)
      rw [List.getElem_map] at this
      have he : c.2[c.2.length - 1] = d := (List.getElem?_eq_some_iff.mp hg).2
      rw [he] at this
      have e2 : (Block.derivative d).info = d.defaultInfo := rfl
      rw [e2] at this
      omega
    rw [add_one_eq hdh (by omega)]
    simp only [Outcome.ok_bind]
    exact key _ _ _
  | none =>
    simp only
    have hds : c.2 = [] := List.getLast?_eq_none_iff.mp hg
    rw [h2]
    have hz : U256.zero = U256.ofNat c.2.length := by rw [hds]; rfl
    have hw := h.withDigest c.1
    cases hf : X.main.lookup (Spec.mainKey E) n.blocks c.1 with
    | none =>
      rw [hf] at hw
      simp only at hw
      rw [hw]
      exact ⟨⟨rfl, h⟩, fun _ h => by cases h⟩
    | some b =>
      rw [hf] at hw
      simp only at hw
      cases hr : Spec.readable b with
      | false =>
        obtain ⟨e, he⟩ := hw.2 hr
        rw [he]
        simp only [Option.filter, hr]
        exact ⟨⟨rfl, h⟩, fun _ h => by cases h⟩
      | true =>
        rw [hw.1 hr]
        simp only [Outcome.ok_bind, Option.filter, hr, if_true, Option.map_some, hz]
        exact key _ _ _

end

end BCT
