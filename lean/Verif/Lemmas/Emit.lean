import Verif.Lemmas.Ledger
import Verif.Props.Chain
/-!
# The emit calls, case by case
-/

namespace BCT
open BCT.Props

theorem rotate_run (s : Tree) : ∃ s', (Tree.rotateDbs s).out = .ok () ∧ (Tree.rotateDbs s).final = s' ∧
    s'.summary.cur = s.summary.cur ∧ s'.gas.cur = s.gas.cur ∧
    s'.oldSummary = Db.open' s.summary.cur ∧ s'.oldGas = Db.open' s.gas.cur ∧
    s'.main.chain.blocks.cur = s.main.chain.blocks.cur ∧
    s'.main.chain.heightReference.cur = s.main.chain.heightReference.cur ∧
    s'.main.chain.height = s.main.chain.height ∧ s'.main.chain.difficulty = s.main.chain.difficulty ∧
    s'.main.transactions.cur = s.main.transactions.cur ∧
    s'.derivFiles = s.derivFiles ∧ s'.derivMem = s.derivMem :=
  ⟨_, rfl, rfl, rfl, rfl, rfl, rfl, rfl, rfl, rfl, rfl, rfl, rfl, rfl⟩

/-- The checks at the start of `emmit_new_main_block`: the header of the new block and the fee. -/
def emitChecks (E : Env) (s : Tree) (pow : BytesN 32) (founder : Address) (txs : List Hash) (ts : UInt64) :
    Outcome (BasicInfo × U256) := do
  let last ← s.main.getLastBlock
  let last ← Outcome.ofOption last
  let good ← checkPow E (last.hash E) last.info.difficulty txs pow.val
  if !good then .err .treeWrongPow
  else do
    let difficulty ← recalculateDifficulty E last.info.timestamp ts last.info.difficulty
    let fee ← recalculateFee difficulty
    let height ← last.info.height.add U256.one
    .ok ({ timestamp := ts, pow, previousHash := last.hash E, height, difficulty, founder }, fee)

/-- The rest of `emmit_new_main_block`. -/
def emitRest (E : Env) (s : Tree) (txs : List Hash) (r : BasicInfo × U256) : Act Tree Block := do
  let newBlock ←
    (if r.1.height.val % BLOCKS_PER_EPOCH = 0 then
      (if !txs.isEmpty then Act.lift (.err .treeSummarizeBlockWrongTransactionsAmount)
      else do
        let merkleTreeRoot ← Act.lift (s.summarize E)
        Tree.rotateDbs
        Tree.setAmount ROOT_PUBLIC_ADDRESS.val COINS_PER_CYCLE
        pure (Block.summarize ⟨r.1, merkleTreeRoot⟩))
    else
      (if txs.isEmpty then Act.lift (.err .treeCreateMainChainBlock)
      else do
        let root ← Act.lift (merkleRoot E txs)
        pure (Block.transaction ⟨r.2, root, r.1, txs⟩)) : Act Tree Block)
  Tree.onMain (MainChain.addBlock E newBlock)
  pure newBlock

theorem lift_bind_assoc {σ α β : Type} (o : Outcome α) (f : α → Outcome β) :
    (Act.lift (σ := σ) (o >>= f)) = (Act.lift o >>= fun a => Act.lift (f a)) := by
  cases o <;> simp

theorem emitMain_checks (E : Env) (s : Tree) (pow : BytesN 32) (founder : Address) (txs : List Hash) (ts : UInt64) :
    Tree.emitMain E pow founder txs ts s = (Act.lift (emitChecks E s pow founder txs ts) >>= emitRest E s txs) s := by
  unfold Tree.emitMain emitChecks
  rw [Act.get_bind]
  cases s.main.getLastBlock with
  | err e => simp
  | panic e => simp
  | ub => simp
  | ok o =>
    cases o with
    | none => simp
    | some last =>
      simp only [Outcome.ofOption_some, Outcome.ok_bind, Act.lift_ok_bind]
      cases checkPow E (last.hash E) last.info.difficulty txs pow.val with
      | err e => simp
      | panic e => simp
      | ub => simp
      | ok g =>
        cases g with
        | false => simp
        | true =>
          simp only [Outcome.ok_bind, Act.lift_ok_bind, Bool.not_true, Bool.false_eq_true, if_false]
          cases recalculateDifficulty E last.info.timestamp ts last.info.difficulty with
          | err e => simp
          | panic e => simp
          | ub => simp
          | ok d =>
            simp only [Outcome.ok_bind, Act.lift_ok_bind]
            cases recalculateFee d with
            | err e => simp
            | panic e => simp
            | ub => simp
            | ok fee =>
              simp only [Outcome.ok_bind, Act.lift_ok_bind]
              cases last.info.height.add U256.one with
              | err e => simp
              | panic e => simp
              | ub => simp
              | ok h => simp only [Outcome.ok_bind, Act.lift_ok_bind]; rfl

/-- The header `emmit_new_main_block` builds on top of `last`. -/
structure NextInfo (E : Env) (last : Block) (info : BasicInfo) : Prop where
  link : info.previousHash = last.hash E
  height : info.height.val = last.info.height.val + 1
  difficulty : recalculateDifficulty E last.info.timestamp info.timestamp last.info.difficulty = .ok info.difficulty

theorem emitChecks_ok {E : Env} {s : Tree} {pow : BytesN 32} {founder : Address} {txs : List Hash} {ts : UInt64}
    {r : BasicInfo × U256} (h : emitChecks E s pow founder txs ts = .ok r) :
    ∃ last, s.main.getLastBlock = .ok (some last) ∧ NextInfo E last r.1 ∧
      checkPow E (last.hash E) last.info.difficulty txs pow.val = .ok true ∧
      recalculateFee r.1.difficulty = .ok r.2 ∧ r.1.timestamp = ts ∧ r.1.pow = pow ∧ r.1.founder = founder := by
  unfold emitChecks at h
  cases hl : s.main.getLastBlock with
  | err e => simp [hl] at h
  | panic e => simp [hl] at h
  | ub => simp [hl] at h
  | ok o =>
    cases o with
    | none => simp [hl] at h
    | some last =>
      simp only [hl, Outcome.ofOption_some, Outcome.ok_bind] at h
      refine ⟨last, rfl, ?_⟩
      cases hc : checkPow E (last.hash E) last.info.difficulty txs pow.val with
      | err e => simp [hc] at h
      | panic e => simp [hc] at h
      | ub => simp [hc] at h
      | ok g =>
        cases g with
        | false => simp [hc] at h
        | true =>
          simp only [hc, Outcome.ok_bind, Bool.not_true, Bool.false_eq_true, if_false] at h
          cases hd : recalculateDifficulty E last.info.timestamp ts last.info.difficulty with
          | err e => simp [hd] at h
          | panic e => simp [hd] at h
          | ub => simp [hd] at h
          | ok d =>
            simp only [hd, Outcome.ok_bind] at h
            cases hf : recalculateFee d with
            | err e => simp [hf] at h
            | panic e => simp [hf] at h
            | ub => simp [hf] at h
            | ok fee =>
              simp only [hf, Outcome.ok_bind] at h
              cases hh : last.info.height.add U256.one with
              | err e => simp [hh] at h
              | panic e => simp [hh] at h
              | ub => simp [hh] at h
              | ok ht =>
                simp only [hh, Outcome.ok_bind, Outcome.ok.injEq] at h
                subst h
                refine ⟨⟨rfl, ?_, hd⟩, rfl, hf, rfl, rfl, rfl⟩
                unfold U256.add at hh
                split at hh
                · cases hh; rfl
                · cases hh

/-- The block `emmit_new_main_block` adds. -/
def newTxBlock (E : Env) (txs : List Hash) (r : BasicInfo × U256) : Block :=
  .transaction ⟨r.2, merkleRootT E txs, r.1, txs⟩

/-- The leaves of the balance summary. -/
def Tree.summaryLeaves (t : Tree) : List Bytes :=
  t.summary.cur.entries.map (fun e => Tree.leafBytes e.1 e.2 ((t.gas.get e.1).getD []))

theorem summarize_eq (E : Env) (t : Tree) : t.summarize E = .ok (merkleRootT E (t.summaryLeaves.map E.sha256)) := by
  unfold Tree.summarize Tree.summaryLeaves
  rw [merkleRoot_eq, List.map_map]; rfl

/-- The summarize block `emmit_new_main_block` adds. -/
def newSumBlock (E : Env) (s : Tree) (r : BasicInfo × U256) : Block :=
  .summarize ⟨r.1, merkleRootT E (s.summaryLeaves.map E.sha256)⟩

/-- The state right before a summarize block is added. -/
def Tree.rotated (s : Tree) : Tree :=
  { (Tree.rotateDbs s).final with
    summary := (Tree.rotateDbs s).final.summary.insert ROOT_PUBLIC_ADDRESS.val (Ledger.encode COINS_PER_CYCLE) }

theorem emitRest_wrong_epoch {E : Env} {s : Tree} {txs : List Hash} {r : BasicInfo × U256}
    (he : r.1.height.val % BLOCKS_PER_EPOCH = 0) (ht : txs ≠ []) :
    emitRest E s txs r s = ⟨.err .treeSummarizeBlockWrongTransactionsAmount, s, []⟩ := by
  unfold emitRest
  rw [if_pos he, if_pos (by cases txs <;> simp_all), Act.lift_err_bind]
  rfl

theorem emitRest_no_txs {E : Env} {s : Tree} {r : BasicInfo × U256}
    (he : r.1.height.val % BLOCKS_PER_EPOCH ≠ 0) :
    emitRest E s [] r s = ⟨.err .treeCreateMainChainBlock, s, []⟩ := by
  unfold emitRest
  rw [if_neg he, if_pos (by simp), Act.lift_err_bind]
  rfl

theorem emitRest_tx {E : Env} {s : Tree} {txs : List Hash} {r : BasicInfo × U256}
    (he : r.1.height.val % BLOCKS_PER_EPOCH ≠ 0) (ht : txs ≠ []) :
    emitRest E s txs r s = (Tree.onMain (MainChain.addBlock E (newTxBlock E txs r)) >>= fun _ =>
      pure (newTxBlock E txs r)) s := by
  unfold emitRest
  rw [if_neg he, if_neg (by cases txs <;> simp_all), merkleRoot_eq, Act.lift_ok_bind, Act.pure_bind']
  rfl

theorem emitRest_sum {E : Env} {s : Tree} {r : BasicInfo × U256} (he : r.1.height.val % BLOCKS_PER_EPOCH = 0) :
    emitRest E s [] r s =
      ⟨((Tree.onMain (MainChain.addBlock E (newSumBlock E s r)) >>= fun _ => pure (newSumBlock E s r)) s.rotated).out,
       ((Tree.onMain (MainChain.addBlock E (newSumBlock E s r)) >>= fun _ => pure (newSumBlock E s r)) s.rotated).final,
       (Tree.rotateDbs s).trace ++ s.rotated ::
        ((Tree.onMain (MainChain.addBlock E (newSumBlock E s r)) >>= fun _ => pure (newSumBlock E s r)) s.rotated).trace⟩ := by
  unfold emitRest
  rw [if_pos he, if_neg (by simp), summarize_eq, Act.lift_ok_bind]
  simp only [Act.bind_assoc', Act.pure_bind']
  have h1 : Tree.rotateDbs s = ⟨.ok (), (Tree.rotateDbs s).final, (Tree.rotateDbs s).trace⟩ := by
    obtain ⟨_, h, _⟩ := rotate_run s
    rw [← h]
  rw [Act.bind_ok h1]
  have h2 : Tree.setAmount ROOT_PUBLIC_ADDRESS.val COINS_PER_CYCLE (Tree.rotateDbs s).final =
      ⟨.ok (), s.rotated, [s.rotated]⟩ := by
    unfold Tree.setAmount Tree.onSummary
    rw [Act.zoom_run, Ledger.set_run]; rfl
  rw [Act.bind_ok h2]
  rfl

theorem onMain_addBlock_ok {E : Env} {s : Tree} {b : Block} (hb : b.info.height = s.main.chain.height)
    (hm : s.main.chain.height.val + 1 < U256.size) :
    ∃ c tr, (Tree.onMain (MainChain.addBlock E b) >>= fun _ => pure b) s =
      (⟨.ok b, { s with main := { s.main with chain := c } }, tr⟩ : Res Tree Block) ∧
      c = s.main.chain.put3 E b.dump ⟨s.main.chain.height.val + 1, hm⟩ ∧
      (Chain.addBlock E b.info.height b.dump s.main.chain).final = c := by
  have h : ∃ tr, Tree.onMain (MainChain.addBlock E b) s = ⟨.ok (),
      { s with main := { s.main with chain := s.main.chain.put3 E b.dump ⟨s.main.chain.height.val + 1, hm⟩ } }, tr⟩ := by
    unfold Tree.onMain MainChain.addBlock MainChain.onChain
    rw [Act.zoom_run, Act.zoom_run, hb, Chain.addBlock_right hm]
    exact ⟨_, rfl⟩
  obtain ⟨tr, h⟩ := h
  rw [Act.bind_ok h]
  refine ⟨_, _, rfl, rfl, ?_⟩
  rw [hb, Chain.addBlock_right hm]

/-- On a chain that holds `bs`, `get_last_block` can only return the last of them. -/
theorem Chain.Holds.last {E : Env} {m : MainChain} {bs : List Block} (h : Chain.Holds E m.chain (genesis E :: bs)) :
    ∃ b, (genesis E :: bs).getLast? = some b ∧ b.info.height.val + 1 = m.chain.height.val ∧
      m.getLastRawBlock = .ok (some b.dump) ∧
      (b.IsMain → m.getLastBlock = .ok (some b)) ∧ (¬ b.IsMain → ∃ e, m.getLastBlock = .err e) := by
  have hl := h.len
  have hp : 1 ≤ m.chain.height.val := by rw [← hl]; simp
  have hi : m.chain.height.val - 1 < (genesis E :: bs).length := by omega
  have hh := h.heights _ hi
  have hraw : m.getLastRawBlock = .ok (some (genesis E :: bs)[m.chain.height.val - 1].dump) := by
    unfold MainChain.getLastRawBlock MainChain.findRawByHeight
    rw [lastIndex hp]
    simp only [Outcome.ok_bind]
    rw [h.findRaw, List.getElem?_eq_getElem hi]; rfl
  refine ⟨(genesis E :: bs)[m.chain.height.val - 1], ?_, by omega, hraw, fun hb => ?_, fun hb => ?_⟩
  · rw [List.getLast?_eq_getElem?, hl, List.getElem?_eq_getElem hi]
  · unfold MainChain.getLastBlock
    rw [hraw, Outcome.ok_bind]
    refine decode_main _ hb ?_
    by_cases hz : m.chain.height.val - 1 = 0
    · right
      refine ⟨⟨MainChain.genesisInfo, merkleRootT E [E.sha256 MainChain.initialAmount]⟩, ?_⟩
      simp only [hz]; rfl
    · left; rw [hh]; exact hz
  · unfold MainChain.getLastBlock
    rw [hraw, Outcome.ok_bind]
    cases hk : (genesis E :: bs)[m.chain.height.val - 1] with
    | derivative d =>
      obtain ⟨e, he⟩ := C11_main_block_read_back_partial.2.1 d
      exact ⟨.chainFindByHeight, by simp [MainChain.decode, Block.dump, he]⟩
    | transaction d => rw [hk] at hb; exact absurd trivial hb
    | summarize d => rw [hk] at hb; exact absurd trivial hb

/-- Everything `emmit_new_main_block` can do on a chain that holds some blocks. -/
theorem emitMain_cases {E : Env} {s : Tree} {bs : List Block} (h : Chain.Holds E s.main.chain (genesis E :: bs))
    (hm : s.main.chain.height.val + 1 < U256.size) (pow : BytesN 32) (founder : Address) (txs : List Hash)
    (ts : UInt64) :
    (∃ out, (∀ b, out ≠ .ok b) ∧ Tree.emitMain E pow founder txs ts s = ⟨out, s, []⟩ ∧
      ((∃ e, out = .err e ∧ (e = .treeSummarizeBlockWrongTransactionsAmount ∨ e = .treeCreateMainChainBlock) ∧
        ∃ r, emitChecks E s pow founder txs ts = .ok r ∧
          (e = .treeSummarizeBlockWrongTransactionsAmount ↔ r.1.height.val % BLOCKS_PER_EPOCH = 0) ∧
          (r.1.height.val % BLOCKS_PER_EPOCH = 0 ↔ txs ≠ [])) ∨
       (∀ r, emitChecks E s pow founder txs ts ≠ .ok r) ∧
        (Act.lift (emitChecks E s pow founder txs ts) >>= emitRest E s txs) s = ⟨out, s, []⟩)) ∨
    ∃ last r b s0 c tr, s.main.getLastBlock = .ok (some last) ∧ (genesis E :: bs).getLast? = some last ∧
      emitChecks E s pow founder txs ts = .ok r ∧ NextInfo E last r.1 ∧ b.info = r.1 ∧
      r.1.height = s.main.chain.height ∧
      Tree.emitMain E pow founder txs ts s = ⟨.ok b, { s0 with main := { s0.main with chain := c } }, tr⟩ ∧
      Chain.Same s.main.chain s0.main.chain ∧
      c = s0.main.chain.put3 E b.dump ⟨s.main.chain.height.val + 1, hm⟩ ∧
      Chain.Holds E c (genesis E :: bs ++ [b]) ∧
      ((r.1.height.val % BLOCKS_PER_EPOCH ≠ 0 ∧ txs ≠ [] ∧ b = newTxBlock E txs r ∧ s0 = s) ∨
       (r.1.height.val % BLOCKS_PER_EPOCH = 0 ∧ txs = [] ∧ b = newSumBlock E s r ∧ s0 = s.rotated)) := by
  rw [emitMain_checks]
  cases hc : emitChecks E s pow founder txs ts with
  | err e => left; exact ⟨.err e, by simp, by simp, .inr ⟨by simp, by simp⟩⟩
  | panic e => left; exact ⟨.panic e, by simp, by simp, .inr ⟨by simp, by simp⟩⟩
  | ub => left; exact ⟨.ub, by simp, by simp, .inr ⟨by simp, by simp⟩⟩
  | ok r =>
    rw [Act.lift_ok_bind]
    obtain ⟨last, hl, hn, _, _, _, _, _⟩ := emitChecks_ok hc
    obtain ⟨b', hb1, hb2, _, hb4, hb5⟩ := h.last
    have hbm : b'.IsMain := by
      apply Classical.byContradiction
      intro hne
      obtain ⟨e, he⟩ := hb5 hne
      rw [hl] at he; cases he
    have hlb : last = b' := by
      have := hb4 hbm
      rw [hl] at this; cases this; rfl
    subst hlb
    have hh : r.1.height = s.main.chain.height := U256.ext (by rw [hn.height]; exact hb2)
    by_cases he : r.1.height.val % BLOCKS_PER_EPOCH = 0
    · by_cases ht : txs = []
      · right
        subst ht
        rw [emitRest_sum he]
        have hs : Chain.Same s.main.chain s.rotated.main.chain := (Tree.rotate_mainSame s).1
        have hm' : s.rotated.main.chain.height.val + 1 < U256.size := by rw [hs.2.2]; exact hm
        have hb : (newSumBlock E s r).info.height = s.rotated.main.chain.height := by rw [hs.2.2]; exact hh
        obtain ⟨c, tr, e1, e2, e3⟩ := onMain_addBlock_ok (E := E) hb hm'
        rw [e1]
        refine ⟨last, r, newSumBlock E s r, s.rotated, c, _, hl, hb1, rfl, hn, rfl, hh, rfl, hs, ?_, ?_,
          .inr ⟨he, rfl, rfl, rfl⟩⟩
        · rw [e2]; congr 1
        · rw [← e3]; exact (h.same hs).addBlock hb hm'
      · left
        rw [emitRest_wrong_epoch he ht]
        exact ⟨_, by simp, rfl, .inl ⟨_, rfl, .inl rfl, r, rfl, by simp [he], by simp [he, ht]⟩⟩
    · by_cases ht : txs = []
      · left
        subst ht
        rw [emitRest_no_txs he]
        exact ⟨_, by simp, rfl, .inl ⟨_, rfl, .inr rfl, r, rfl, by simp [he], by simp [he]⟩⟩
      · right
        rw [emitRest_tx he ht]
        obtain ⟨c, tr, e1, e2, e3⟩ := onMain_addBlock_ok (E := E) (b := newTxBlock E txs r) hh hm
        rw [e1]
        refine ⟨last, r, newTxBlock E txs r, s, c, _, hl, hb1, rfl, hn, rfl, hh, rfl, Chain.same_preord.refl _, e2, ?_,
          .inl ⟨he, ht, rfl, rfl⟩⟩
        rw [← e3]; exact h.addBlock hh hm

/-- Histories in which main-chain blocks come from `emmit_new_main_block` only. -/
def EmitOnly : Op → Prop
  | .addBlock _ => False
  | .addNewBlock _ _ => False
  | _ => True

/-- What `emmit_new_main_block` makes of the block before. -/
structure NextBlock (E : Env) (a b : Block) : Prop where
  info : NextInfo E a b.info
  epoch : b.info.height.val % BLOCKS_PER_EPOCH = 0 → ∃ x, b = .summarize x
  other : b.info.height.val % BLOCKS_PER_EPOCH ≠ 0 → ∃ x, b = .transaction x ∧ x.transactions ≠ [] ∧
    x.merkleTreeRoot = merkleRootT E x.transactions ∧ recalculateFee x.defaultInfo.difficulty = .ok x.fee

/-- Every block but the first is made from the one before. -/
def Linked (E : Env) : List Block → Prop
  | [] => True
  | [_] => True
  | a :: b :: l => NextBlock E a b ∧ Linked E (b :: l)

theorem Linked.snoc {E : Env} : ∀ {l : List Block} {a b : Block}, Linked E l → l.getLast? = some a →
    NextBlock E a b → Linked E (l ++ [b])
  | [], _, _, _, h, _ => by simp at h
  | [x], a, b, _, h, hn => by
    simp at h; subst h; exact ⟨hn, trivial⟩
  | x :: y :: l, a, b, hl, h, hn => by
    refine ⟨hl.1, Linked.snoc hl.2 ?_ hn⟩
    rw [List.getLast?_cons_cons] at h; exact h

theorem Linked.get {E : Env} : ∀ {l : List Block} (_ : Linked E l) (i : Nat) (h : i + 1 < l.length),
    NextBlock E l[i] l[i + 1]
  | [], _, i, h => by simp at h
  | [_], _, i, h => by simp at h
  | a :: b :: l, hl, 0, h => hl.1
  | a :: b :: l, hl, i + 1, h => Linked.get hl.2 i (by simpa using h)

theorem emitted_next {E : Env} {s : Tree} {bs : List Block} (h : Chain.Holds E s.main.chain (genesis E :: bs))
    (hm : s.main.chain.height.val + 1 < U256.size) {pow : BytesN 32} {founder : Address} {txs : List Hash}
    {ts : UInt64} {b : Block} (ho : (Tree.emitMain E pow founder txs ts s).out = .ok b) :
    ∃ last, s.main.getLastBlock = .ok (some last) ∧ (genesis E :: bs).getLast? = some last ∧ NextBlock E last b ∧
      Chain.Holds E (Tree.emitMain E pow founder txs ts s).final.main.chain (genesis E :: bs ++ [b]) ∧
      b.info.height = s.main.chain.height ∧ b.IsMain ∧
      checkPow E (last.hash E) last.info.difficulty txs pow.val = .ok true ∧ b.info.timestamp = ts ∧
      b.info.pow = pow ∧ b.info.founder = founder ∧ b.transactions.getD [] = txs := by
  rcases emitMain_cases h hm pow founder txs ts with ⟨out, h1, h2, _⟩ | ⟨last, r, b', s0, c, tr, h1, h2, h3, h4, h5, h6, h7, h8, h9, h10, h11⟩
  · rw [h2] at ho; exact absurd ho (h1 b)
  · rw [h7] at ho ⊢
    simp only [Outcome.ok.injEq] at ho
    subst ho
    obtain ⟨last', hl', _, hp, hf, ht, hpw, hfo⟩ := emitChecks_ok h3
    have : last' = last := by rw [h1] at hl'; cases hl'; rfl
    subst this
    refine ⟨last', h1, h2, ⟨by rw [h5]; exact h4, fun he => ?_, fun he => ?_⟩, h10, by rw [h5]; exact h6, ?_,
      hp, by rw [h5]; exact ht, by rw [h5]; exact hpw, by rw [h5]; exact hfo, ?_⟩
    · rw [h5] at he
      rcases h11 with ⟨hne, _⟩ | ⟨_, _, hb, _⟩
      · exact absurd he hne
      · exact ⟨_, hb⟩
    · rw [h5] at he
      rcases h11 with ⟨_, hne, hb, _⟩ | ⟨h0, _⟩
      · exact ⟨_, hb, hne, rfl, hf⟩
      · exact absurd h0 he
    · rcases h11 with ⟨_, _, hb, _⟩ | ⟨_, _, hb, _⟩ <;> rw [hb] <;> trivial
    · rcases h11 with ⟨_, _, hb, _⟩ | ⟨_, ht, hb, _⟩
      · rw [hb]; rfl
      · rw [hb, ht]; rfl

theorem emitMain_op (E : Env) (s : Tree) (p : BytesN 32) (f : Address) (txs : List Hash) (ts : UInt64) :
    (Op.emitMain p f txs ts).run E s = ⟨(Tree.emitMain E p f txs ts s).out >>= fun _ => .ok (),
      (Tree.emitMain E p f txs ts s).final, (Tree.emitMain E p f txs ts s).trace⟩ := rfl

theorem EmitOnly.adds {op : Op} (h : EmitOnly op) : (∃ p f txs ts, op = .emitMain p f txs ts) ∨ op.Adds (fun _ => False) := by
  cases op <;> first | exact .inl ⟨_, _, _, _, rfl⟩ | exact .inr trivial | exact .inr h

/-- Chains grown by emitting only. -/
theorem emitOnly_linked {E : Env} {s : Tree} (hr : RunWith E EmitOnly s) (hm : s.main.chain.height.val + 1 < U256.size) :
    ∃ bs, Chain.Holds E s.main.chain (genesis E :: bs) ∧ Linked E (genesis E :: bs) ∧ ∀ b ∈ bs, b.IsMain := by
  induction hr with
  | fresh =>
    refine ⟨[], ?_, trivial, by simp⟩
    rw [(openTree_fresh E).2]; exact bootChain_holds E _ _
  | call s op _ ho ih =>
    have hgr := (Op.sat (mainGrows_prims E (fun _ => True)) (Act.relF_closed (mainGrows_preord E _)) op op.adds_true s).1
    obtain ⟨bs, h1, h2, h3⟩ := ih (by omega)
    rcases ho.adds with ⟨p, f, txs, ts, rfl⟩ | ha
    · have hms : s.main.chain.height.val + 1 < U256.size := by omega
      rw [emitMain_op]
      cases hout : (Tree.emitMain E p f txs ts s).out with
      | ok b =>
        obtain ⟨last, _, g2, g3, g4, _, g5, _⟩ := emitted_next h1 hms hout
        refine ⟨bs ++ [b], g4, h2.snoc g2 g3, fun x hx => ?_⟩
        rcases List.mem_append.mp hx with hx | hx
        · exact h3 x hx
        · rw [List.mem_singleton.mp hx]; exact g5
      | _ =>
        rcases emitMain_cases h1 hms p f txs ts with ⟨out, _, e, _⟩ | ⟨_, _, _, _, _, _, _, _, _, _, _, _, e, _⟩
        · rw [e]; exact ⟨bs, h1, h2, h3⟩
        · rw [e] at hout; cases hout
    · obtain ⟨new, g1, g2⟩ := (Op.sat (mainGrows_prims E (fun _ => False)) (Act.relF_closed (mainGrows_preord E _)) op ha s).2
        hm _ h1
      cases new with
      | nil => exact ⟨bs, by simpa using g1, h2, h3⟩
      | cons b l => exact absurd (g2 b List.mem_cons_self) id

end BCT
