import Verif.Lemmas.EmitDeriv
import Verif.Props.Send
import Verif.Props.Codec
/-!
# C30, C38 – C43, C45: emitting blocks (blockchaintree.rs)
-/

namespace BCT.Props
open BCT

/-! ## Histories that reach any height -/

/-- A request the node accepts when its digest is constantly zero: the transaction list is chosen by the height. -/
def steadyTxs (height : Nat) : List Hash := if height % 1000000 = 0 then [] else [BytesN.fill 32 5]

theorem checkPow_zero (first difficulty : Hash) (txs : List Hash) (pow : Bytes) :
    checkPow zeroEnv first difficulty txs pow = .ok true := by
  unfold checkPow
  rw [merkleRoot_eq, Outcome.ok_bind]
  have : countLeadingZeros (zeroEnv.sha256 (first.val ++ (merkleRootT zeroEnv txs).val ++ pow)).val = 256 := by
    show countLeadingZeros (BytesN.fill 32 0).val = 256
    decide +kernel
  show Outcome.ok (decide (_ ≤ countLeadingZeros (zeroEnv.sha256 (first.val ++ (merkleRootT zeroEnv txs).val ++ pow)).val)) = _
  rw [this]
  simp [clz_le_256]

theorem recalc_steady (E : Env) (t : UInt64) (d : Hash) (h : t.toNat + 600 < 2 ^ 64) :
    recalculateDifficulty E t (t + 600) d = .ok d := by
  have e : (t + 600).toNat = t.toNat + 600 := by
    rw [UInt64.toNat_add]
    exact Nat.mod_eq_of_lt h
  have hle : t ≤ t + 600 := UInt64.le_iff_toNat_le.mpr (by rw [e]; omega)
  exact (stepBy_cases E t (t + 600) d hle).2.2 (by rw [e]; omega)

/-- The checks of `emmit_new_main_block` pass when each of them does. -/
theorem emitChecks_of {E : Env} {s : Tree} {pow : BytesN 32} {founder : Address} {txs : List Hash} {ts : UInt64}
    {last : Block} {d : Hash} {fee height : U256} (h1 : s.main.getLastBlock = .ok (some last))
    (h2 : checkPow E (last.hash E) last.info.difficulty txs pow.val = .ok true)
    (h3 : recalculateDifficulty E last.info.timestamp ts last.info.difficulty = .ok d)
    (h4 : recalculateFee d = .ok fee) (h5 : last.info.height.add U256.one = .ok height) :
    emitChecks E s pow founder txs ts =
      .ok ({ timestamp := ts, pow, previousHash := last.hash E, height, difficulty := d, founder }, fee) := by
  unfold emitChecks
  rw [h1]
  simp only [Outcome.ok_bind, Outcome.ofOption_some, h2, Bool.not_true, Bool.false_eq_true, if_false, h3, h4, h5]

/-- Histories in which nothing but `emmit_new_main_block` is called. -/
def JustEmit : Op → Prop
  | .emitMain _ _ _ _ => True
  | _ => False

theorem JustEmit.emitOnly {op : Op} (h : JustEmit op) : EmitOnly op := by cases op <;> first | trivial | exact h.elim

theorem RunWith.mono {E : Env} {A B : Op → Prop} (h : ∀ op, A op → B op) {s : Tree} (hr : RunWith E A s) :
    RunWith E B s := by
  induction hr with
  | fresh => exact .fresh
  | call s op _ ho ih => exact .call s op ih (h op ho)

/-- With a digest that meets every difficulty, emitting alone reaches every height (here up to ten million, ten
epochs). -/
theorem steady_just (n : Nat) (hn : n < 10000000) : ∃ s last, RunWith zeroEnv JustEmit s ∧
    s.main.chain.height.val = n + 1 ∧ s.main.getLastBlock = .ok (some last) ∧
    last.info.timestamp.toNat = 1597924800 + 600 * n ∧ last.info.difficulty = BEGINNING_DIFFICULTY := by
  induction n with
  | zero =>
    obtain ⟨t, _, h2, h3, ⟨b, _, h4, h5⟩, _⟩ := C37_fresh_node zeroEnv
    subst h2
    exact ⟨_, .summarize b, .fresh, h3, h4, by simp [Block.info, h5], by simp only [Block.info, h5]; rfl⟩
  | succ n ih =>
    obtain ⟨s, last, h1, h2, h3, h4, h5⟩ := ih (by omega)
    have hm : s.main.chain.height.val + 1 < U256.size := by
      rw [h2]
      have : U256.size > 20000000 := by decide
      omega
    obtain ⟨bs, hb, _⟩ := emitOnly_linked (RunWith.mono (fun _ => JustEmit.emitOnly) h1) hm
    let ts := last.info.timestamp + 600
    obtain ⟨txs, htxs⟩ : ∃ t, t = steadyTxs s.main.chain.height.val := ⟨_, rfl⟩
    let s' := ((Op.emitMain (BytesN.fill 32 0) ROOT_PUBLIC_ADDRESS txs ts).run zeroEnv s).final
    have hlh : last.info.height.val + 1 = s.main.chain.height.val := by
      obtain ⟨b', _, g2, _, g4, g5⟩ := hb.last
      by_cases hbm : b'.IsMain
      · have := g4 hbm; rw [h3] at this; cases this; exact g2
      · obtain ⟨e, he⟩ := g5 hbm; rw [h3] at he; cases he
    obtain ⟨fee, hfee, _⟩ := C26_fee last.info.difficulty
    have hchk : emitChecks zeroEnv s (BytesN.fill 32 0) ROOT_PUBLIC_ADDRESS txs ts =
        .ok ({ timestamp := ts, pow := BytesN.fill 32 0, previousHash := last.hash zeroEnv,
               height := s.main.chain.height, difficulty := last.info.difficulty,
               founder := ROOT_PUBLIC_ADDRESS }, fee) := by
      have : last.info.height.add U256.one = .ok s.main.chain.height := by
        unfold U256.add
        rw [dif_pos (by rw [U256.val_one, hlh]; omega)]
        congr 1
        exact U256.ext (by show last.info.height.val + U256.one.val = _; rw [U256.val_one]; exact hlh)
      exact emitChecks_of h3 (checkPow_zero ..) (recalc_steady _ _ _ (by omega)) hfee this
    have hepoch : s.main.chain.height.val % BLOCKS_PER_EPOCH = 0 ↔ txs = [] := by
      rw [htxs]
      unfold steadyTxs
      rw [show BLOCKS_PER_EPOCH = 1000000 from rfl]
      by_cases h : s.main.chain.height.val % 1000000 = 0 <;> simp [h]
    rcases emitMain_cases hb hm (BytesN.fill 32 0) ROOT_PUBLIC_ADDRESS txs ts with
      ⟨out, _, _, ⟨e, _, _, r, g1, _, g3⟩ | ⟨g, _⟩⟩ | ⟨l, r, b, s0, c, tr, g1, g2, g3, g4, g5, g6, g7, g8, g9, g10, g11⟩
    · have := Outcome.ok.inj (hchk.symm.trans g1)
      subst this
      simp only at g3
      rw [hepoch] at g3
      by_cases ht : txs = []
      · exact absurd ht (g3.mp ht)
      · exact absurd (g3.mpr ht) ht
    · exact absurd hchk (g _)
    · have hre := Outcome.ok.inj (hchk.symm.trans g3)
      subst hre
      have hfin : s' = { s0 with main := { s0.main with chain := c } } := by
        show ((Op.emitMain _ _ _ _).run zeroEnv s).final = _
        rw [emitMain_op, g7]
      refine ⟨s', b, .call s _ h1 trivial, ?_, ?_, ?_, ?_⟩
      · rw [hfin, g9]; simp only [Chain.put3]; omega
      · rw [hfin]
        have hH : Chain.Holds zeroEnv ({ s0 with main := { s0.main with chain := c } } : Tree).main.chain
            (genesis zeroEnv :: (bs ++ [b])) := g10
        obtain ⟨b', k1, _, _, k4, _⟩ := hH.last
        have : b' = b := by
          rw [show genesis zeroEnv :: (bs ++ [b]) = (genesis zeroEnv :: bs) ++ [b] from rfl, List.getLast?_concat] at k1
          cases k1; rfl
        subst this
        apply k4
        rcases g11 with ⟨_, _, hb, _⟩ | ⟨_, _, hb, _⟩ <;> rw [hb] <;> trivial
      · rw [g5]
        show (last.info.timestamp + 600).toNat = _
        rw [UInt64.toNat_add, Nat.mod_eq_of_lt (by rw [h4]; simp; omega), h4]
        simp; omega
      · rw [g5]; exact h5

theorem steady (n : Nat) (hn : n < 10000000) : ∃ s last, RunWith zeroEnv EmitOnly s ∧
    s.main.chain.height.val = n + 1 ∧ s.main.getLastBlock = .ok (some last) ∧
    last.info.timestamp.toNat = 1597924800 + 600 * n ∧ last.info.difficulty = BEGINNING_DIFFICULTY := by
  obtain ⟨s, last, h, h'⟩ := steady_just n hn
  exact ⟨s, last, RunWith.mono (fun _ => JustEmit.emitOnly) h, h'⟩

/-! ## C30 -/

/-- C30 at full strength. -/
def C30_full : Prop := ∀ (E : Env) (s : Tree) (pow : BytesN 32) (founder : Address) (txs : List Hash) (ts : UInt64)
  (prev b : Block), Run E s → s.main.getHeight.val + 1 < U256.size → s.main.getLastBlock = .ok (some prev) →
  (Tree.emitMain E pow founder txs ts s).out = .ok b → b.validate E (some prev) = .ok true

/-- C30, what holds: an emitted block passes every check of the validator but one; it validates iff the nonce also
meets the difficulty with the Merkle root in the place of the previous block's hash. Missing: that clause, which
emitting does not establish (`C30_refuted`). -/
theorem C30_validates_iff_partial (E : Env) (s : Tree) (pow : BytesN 32) (founder : Address) (txs : List Hash)
    (ts : UInt64) (prev b : Block) (hr : Run E s) (hm : s.main.getHeight.val + 1 < U256.size)
    (hp : s.main.getLastBlock = .ok (some prev)) (ho : (Tree.emitMain E pow founder txs ts s).out = .ok b) :
    MeetsPow E (prev.hash E) prev.info.difficulty txs pow.val ∧
    ∃ root, b.merkleRoot = .ok root ∧
      (b.validate E (some prev) = .ok true ↔ MeetsPow E root prev.info.difficulty txs pow.val) := by
  obtain ⟨bs, h⟩ := run_holds hr hm
  obtain ⟨last, g1, _, g3, _, _, g6, g7, _, g9, _, g11⟩ := emitted_next h hm ho
  have : last = prev := by rw [hp] at g1; cases g1; rfl
  subst this
  refine ⟨(checkPow_iff ..).mp g7, ?_⟩
  cases b with
  | derivative d => exact absurd g6 id
  | summarize d =>
    have ht : txs = [] := g11.symm
    subst ht
    refine ⟨_, rfl, ?_⟩
    show d.validate E (some last) = .ok true ↔ _
    rw [C27_sumblock_validate]
    refine ⟨fun hv => ?_, fun hv => ⟨g3.info.link, g3.info.difficulty, ?_⟩⟩
    · rw [← g9]; exact hv.2.2
    · rw [← g9] at hv; exact hv
  | transaction d =>
    have ht : d.transactions = txs := g11
    refine ⟨_, rfl, ?_⟩
    show d.validate E (some last) = .ok true ↔ _
    rw [C27_txblock_validate, ht]
    have hroot : IsMerkleRoot E txs d.merkleTreeRoot := by
      rw [← merkleRoot_iff, merkleRoot_eq]
      by_cases he : (Block.transaction d).info.height.val % BLOCKS_PER_EPOCH = 0
      · obtain ⟨x, hx⟩ := g3.epoch he; cases hx
      · obtain ⟨x, hx, _, hx3, _⟩ := g3.other he
        cases hx
        rw [hx3, ht]
    refine ⟨fun hv => ?_, fun hv => ⟨g3.info.link, hroot, g3.info.difficulty, ?_⟩⟩
    · rw [← g9]; exact hv.2.2.2
    · rw [← g9] at hv; exact hv

/-- A digest for which the two proof-of-work rules differ. -/
def splitEnv : Env where
  sha256 b := if b.length = 96 then (if b.take 32 = List.replicate 32 0 then BytesN.fill 32 0 else BytesN.fill 32 0xff)
    else if b.length = 32 then BytesN.fill 32 1 else BytesN.fill 32 0
  overflowChecks := true

/-- C30 is false of the code. -/
theorem C30_refuted : ¬ C30_full := by
  intro hf
  obtain ⟨t, _, h2, h3, ⟨g, _, h4, h5⟩, _⟩ := C37_fresh_node splitEnv
  have hr : Run splitEnv t := h2 ▸ .fresh
  have hm : t.main.getHeight.val + 1 < U256.size := by rw [h3]; decide
  have hlen : ∀ g : SummarizeBlock, g.dump.length ≠ 96 ∧ g.dump.length ≠ 32 := by
    intro g
    have : 138 ≤ g.dump.length := by
      rw [SummarizeBlock.dump_eq]
      simp [g.defaultInfo.fixed_length]
      omega
    omega
  have hgh : (Block.summarize g).hash splitEnv = BytesN.fill 32 0 := by
    show splitEnv.sha256 g.dump = _
    simp only [splitEnv]
    rw [if_neg (hlen g).1, if_neg (hlen g).2]
  have hroot : merkleRootT splitEnv [BytesN.fill 32 5] = BytesN.fill 32 1 := by
    unfold merkleRootT
    have : findClosestPowerOf2 [BytesN.fill 32 5].length = 1 := by
      simp [findClosestPowerOf2, closestPowerLoop]
    rw [this]; decide +kernel
  have hpow : checkPow splitEnv ((Block.summarize g).hash splitEnv) g.defaultInfo.difficulty [BytesN.fill 32 5]
      (BytesN.fill 32 0).val = .ok true := by
    rw [hgh, h5]
    unfold checkPow
    rw [merkleRoot_eq, hroot]
    decide +kernel
  have hok : ∃ b, (Tree.emitMain splitEnv (BytesN.fill 32 0) ROOT_PUBLIC_ADDRESS [BytesN.fill 32 5] 1597925400 t).out = .ok b := by
    obtain ⟨bs, hb⟩ := run_holds hr hm
    have hchk : ∃ r, emitChecks splitEnv t (BytesN.fill 32 0) ROOT_PUBLIC_ADDRESS [BytesN.fill 32 5] 1597925400 = .ok r ∧
        r.1.height.val = 1 := by
      obtain ⟨fee, hfee, _⟩ := C26_fee g.defaultInfo.difficulty
      have hd := recalc_steady splitEnv g.defaultInfo.timestamp g.defaultInfo.difficulty (by rw [h5]; decide)
      have ht : g.defaultInfo.timestamp + 600 = 1597925400 := by rw [h5]; decide
      rw [ht] at hd
      refine ⟨_, emitChecks_of h4 hpow hd hfee (height := U256.one) ?_, rfl⟩
      · show g.defaultInfo.height.add U256.one = _
        rw [h5]; rfl
    obtain ⟨r, hr1, hr2⟩ := hchk
    rcases emitMain_cases hb hm (BytesN.fill 32 0) ROOT_PUBLIC_ADDRESS [BytesN.fill 32 5] 1597925400 with
      ⟨out, _, _, ⟨e, _, _, r', g1, _, g3⟩ | ⟨g, _⟩⟩ | ⟨l, r, b, s0, c, tr, _, _, _, _, _, _, g7, _⟩
    · rw [hr1] at g1; cases g1
      rw [hr2] at g3
      exact absurd (g3.mpr (by simp)) (by decide)
    · exact absurd hr1 (g _)
    · exact ⟨b, by rw [g7]⟩
  obtain ⟨b, hb⟩ := hok
  have hv := hf splitEnv t _ _ _ _ _ b hr hm h4 hb
  obtain ⟨_, root, k1, k2⟩ := C30_validates_iff_partial splitEnv t _ _ _ _ _ b hr hm h4 hb
  have k3 := k2.mp hv
  have hbr : root = BytesN.fill 32 1 := by
    obtain ⟨bs, hbs⟩ := run_holds hr hm
    obtain ⟨last, _, _, g3, _, g5, _, _, _, _, _, g11⟩ := emitted_next hbs hm hb
    have he : b.info.height.val % BLOCKS_PER_EPOCH ≠ 0 := by
      rw [g5]
      have : t.main.chain.height.val = 1 := h3
      rw [this]; decide
    obtain ⟨x, rfl, _, hx3, _⟩ := g3.other he
    have e1 : x.transactions = [BytesN.fill 32 5] := g11
    have e2 : x.merkleTreeRoot = root := by
      have : (Outcome.ok x.merkleTreeRoot) = .ok root := k1
      cases this; rfl
    rw [← e2, hx3, e1, hroot]
  rw [hbr, ← checkPow_iff] at k3
  have : checkPow splitEnv (BytesN.fill 32 1) g.defaultInfo.difficulty [BytesN.fill 32 5] (BytesN.fill 32 0).val =
      .ok false := by
    rw [h5]
    unfold checkPow
    rw [merkleRoot_eq, hroot]
    decide +kernel
  rw [show (Block.summarize g).info.difficulty = g.defaultInfo.difficulty from rfl, this] at k3
  cases k3

/-! ## C38 -/

/-- C38. On a chain grown through `emmit_new_main_block` only, each stored block carries the hash of the stored block
before it, the next height, and the difficulty recalculated from that block's. -/
theorem C38_hash_linked (E : Env) (s : Tree) (hr : RunWith E EmitOnly s) (hm : s.main.getHeight.val + 1 < U256.size)
    (q q' : U256) (hq : q'.val = q.val + 1) (hl : q'.val < s.main.getHeight.val) :
    ∃ a b : Block, s.main.findByHeight q = .ok (some a) ∧ s.main.findByHeight q' = .ok (some b) ∧
      b.info.previousHash = E.sha256 a.dump ∧ a.info.height = q ∧ b.info.height = q' ∧
      recalculateDifficulty E a.info.timestamp b.info.timestamp a.info.difficulty = .ok b.info.difficulty := by
  obtain ⟨bs, h, hk, hb⟩ := emitOnly_linked hr hm
  have hlen : (genesis E :: bs).length = s.main.getHeight.val := h.len
  have hi : q.val + 1 < (genesis E :: bs).length := by omega
  have hn := hk.get q.val hi
  have find : ∀ (x : U256) (hx : x.val < (genesis E :: bs).length),
      s.main.findByHeight x = .ok (some (genesis E :: bs)[x.val]) := by
    intro x hx
    unfold MainChain.findByHeight MainChain.findRawByHeight
    rw [h.findRaw, List.getElem?_eq_getElem hx]
    exact mainOnly_decode h hb _ hx
  refine ⟨_, _, find q (by omega), find q' (by omega), ?_, ?_, ?_, ?_⟩
  · simp only [hq]; exact hn.info.link
  · exact U256.ext (h.heights q.val (by omega))
  · exact U256.ext (h.heights q'.val (by omega))
  · simp only [hq]; exact hn.info.difficulty

/-- Such chains reach every height (up to ten million). -/
example : ∃ s, RunWith zeroEnv EmitOnly s ∧ s.main.getHeight.val = 1000002 := by
  obtain ⟨s, _, h1, h2, _⟩ := steady 1000001 (by omega)
  exact ⟨s, h1, h2⟩

/-! ## C39 -/

/-- C39. On such a chain the blocks at multiples of 1 000 000 are summarize blocks; every other one is a transaction
block with a non-empty list, the Merkle root of that list, and the fee of its difficulty (62500 for each leading zero
bit). -/
theorem C39_kinds (E : Env) (s : Tree) (hr : RunWith E EmitOnly s) (hm : s.main.getHeight.val + 1 < U256.size)
    (q : U256) (hq : q.val < s.main.getHeight.val) :
    (q.val % 1000000 = 0 → ∃ x, s.main.findByHeight q = .ok (some (.summarize x))) ∧
    (q.val % 1000000 ≠ 0 → ∃ x, s.main.findByHeight q = .ok (some (.transaction x)) ∧ x.transactions ≠ [] ∧
      IsMerkleRoot E x.transactions x.merkleTreeRoot ∧
      x.fee.val = 62500 * countLeadingZeros x.defaultInfo.difficulty.val) := by
  obtain ⟨bs, h, hk, hb⟩ := emitOnly_linked hr hm
  have hlen : (genesis E :: bs).length = s.main.getHeight.val := h.len
  have hi : q.val < (genesis E :: bs).length := by omega
  have hf : s.main.findByHeight q = .ok (some (genesis E :: bs)[q.val]) := by
    unfold MainChain.findByHeight MainChain.findRawByHeight
    rw [h.findRaw, List.getElem?_eq_getElem hi]
    exact mainOnly_decode h hb _ hi
  have hh := h.heights q.val hi
  rw [hf]
  obtain ⟨n, hn⟩ : ∃ n, n = q.val := ⟨_, rfl⟩
  simp only [← hn] at hi hh ⊢
  cases n with
  | zero => exact ⟨fun _ => ⟨_, rfl⟩, fun h => absurd rfl h⟩
  | succ n =>
    have hx := hk.get n hi
    refine ⟨fun he => ?_, fun he => ?_⟩
    · obtain ⟨x, e⟩ := hx.epoch (by rw [hh]; exact he)
      exact ⟨x, by rw [e]⟩
    · obtain ⟨x, e, e1, e2, e3⟩ := hx.other (by rw [hh]; exact he)
      refine ⟨x, by rw [e], e1, ?_, ?_⟩
      · rw [← merkleRoot_iff, merkleRoot_eq, e2]
      · obtain ⟨f, hf1, hf2⟩ := C26_fee x.defaultInfo.difficulty
        rw [e3] at hf1; cases hf1; exact hf2

/-! ## C40 -/

/-- The request is answered with the error and nothing has happened, not even in between. -/
def Rejected (E : Env) (s : Tree) (pow : BytesN 32) (founder : Address) (txs : List Hash) (ts : UInt64) (e : Err) : Prop :=
  Tree.emitMain E pow founder txs ts s = ⟨.err e, s, []⟩

/-- What C40 asks for on top of the last block. -/
def EmitSpec (E : Env) (s : Tree) (prev : Block) (pow : BytesN 32) (founder : Address) (txs : List Hash)
    (ts : UInt64) : Prop :=
  (¬ MeetsPow E (E.sha256 prev.dump) prev.info.difficulty txs pow.val → Rejected E s pow founder txs ts .treeWrongPow) ∧
  (MeetsPow E (E.sha256 prev.dump) prev.info.difficulty txs pow.val →
    (s.main.getHeight.val % 1000000 = 0 → txs ≠ [] →
      Rejected E s pow founder txs ts .treeSummarizeBlockWrongTransactionsAmount) ∧
    (s.main.getHeight.val % 1000000 ≠ 0 → txs = [] → Rejected E s pow founder txs ts .treeCreateMainChainBlock) ∧
    ((s.main.getHeight.val % 1000000 = 0 ↔ txs = []) →
      ∃ b, (Tree.emitMain E pow founder txs ts s).out = .ok b ∧
        (Tree.emitMain E pow founder txs ts s).final.main.getLastBlock = .ok (some b) ∧
        (Tree.emitMain E pow founder txs ts s).final.main.getHeight.val = s.main.getHeight.val + 1))

/-- C35. After any history the block a successful `emmit_new_main_block` returns is the last block. -/
theorem C35_emitted_is_last (E : Env) (s : Tree) (pow : BytesN 32) (founder : Address) (txs : List Hash) (ts : UInt64)
    (b : Block) (hr : Run E s) (hm : s.main.getHeight.val + 1 < U256.size)
    (ho : (Tree.emitMain E pow founder txs ts s).out = .ok b) :
    (Tree.emitMain E pow founder txs ts s).final.main.getLastBlock = .ok (some b) ∧
    b.info.height = s.main.getHeight ∧
    (Tree.emitMain E pow founder txs ts s).final.main.getHeight.val = s.main.getHeight.val + 1 := by
  obtain ⟨bs, h⟩ := run_holds hr hm
  obtain ⟨last, -, -, -, hh, hb, hmain, -⟩ := emitted_next h hm ho
  obtain ⟨b', g1, g2, _, g4, _⟩ := hh.last
  obtain rfl : b' = b := by
    have g1' : ((genesis E :: bs) ++ [b]).getLast? = some b' := g1
    rw [List.getLast?_concat] at g1'
    exact (Option.some.inj g1').symm
  refine ⟨g4 hmain, hb, ?_⟩
  rw [hb] at g2
  exact g2.symm

/-- C40 at full strength. -/
def C40_full : Prop := ∀ (E : Env) (s : Tree) (prev : Block) (pow : BytesN 32) (founder : Address) (txs : List Hash)
  (ts : UInt64), Run E s → s.main.getHeight.val + 1 < U256.size → s.main.getLastBlock = .ok (some prev) →
  EmitSpec E s prev pow founder txs ts

/-- C40, the part that holds of every history: a call that does not succeed changes nothing, and insufficient proof
of work is always answered with the corresponding error. -/
theorem C40_no_side_effects_partial (E : Env) (s : Tree) (pow : BytesN 32) (founder : Address)
    (txs : List Hash) (ts : UInt64) (hr : Run E s) (hm : s.main.getHeight.val + 1 < U256.size) :
    ((∀ b, (Tree.emitMain E pow founder txs ts s).out ≠ .ok b) →
      (Tree.emitMain E pow founder txs ts s).final = s ∧ (Tree.emitMain E pow founder txs ts s).trace = []) ∧
    (∀ prev, s.main.getLastBlock = .ok (some prev) →
      ¬ MeetsPow E (E.sha256 prev.dump) prev.info.difficulty txs pow.val → Rejected E s pow founder txs ts .treeWrongPow) := by
  obtain ⟨bs, h⟩ := run_holds hr hm
  refine ⟨fun hb => ?_, fun prev hp hn => ?_⟩
  · rcases emitMain_cases h hm pow founder txs ts with ⟨out, _, e, _⟩ | ⟨_, _, b, _, _, _, _, _, _, _, _, _, e, _⟩
    · rw [e]; exact ⟨rfl, rfl⟩
    · exact absurd (by rw [e]) (hb b)
  · unfold Rejected
    rw [emitMain_checks]
    have hc : checkPow E (prev.hash E) prev.info.difficulty txs pow.val = .ok false := by
      have hn' : checkPow E (prev.hash E) prev.info.difficulty txs pow.val ≠ .ok true :=
        fun x => hn ((checkPow_iff ..).mp x)
      obtain ⟨_, _, _, _, _, _, e⟩ := C22_check_pow E (prev.hash E) prev.info.difficulty txs pow.val
      rw [e] at hn' ⊢
      simpa using hn'
    have : emitChecks E s pow founder txs ts = .err .treeWrongPow := by
      unfold emitChecks
      rw [hp]
      simp only [Outcome.ok_bind, Outcome.ofOption_some, hc, Bool.not_false, if_true]
    rw [this, Act.lift_err_bind]
    rfl

theorem linked_good {E : Env} : ∀ {l : List Block} {a : Block}, GoodHead a.info.difficulty → Linked E (a :: l) →
    ∀ b ∈ a :: l, GoodHead b.info.difficulty
  | [], a, ha, _, b, hb => by rw [List.mem_singleton.mp hb]; exact ha
  | c :: l, a, ha, hl, b, hb => by
    rcases List.mem_cons.mp hb with rfl | hb
    · exact ha
    · refine linked_good ?_ hl.2 b hb
      have hd := hl.1.info.difficulty
      rw [recalculate_eq] at hd
      cases hu : u64Sub E c.info.timestamp a.info.timestamp with
      | ok delta =>
        rw [hu, Outcome.ok_bind] at hd
        obtain ⟨d', h1, h2⟩ := stepBy_good E delta _ ha
        rw [hd] at h1; cases h1; exact h2
      | err e => rw [hu] at hd; cases hd
      | panic e => rw [hu] at hd; cases hd
      | ub => rw [hu] at hd; cases hd

theorem runWith_run {E : Env} {A : Op → Prop} {s : Tree} (hr : RunWith E A s) : Run E s := by
  induction hr with
  | fresh => exact .fresh
  | call s op _ _ ih => exact .call s op ih trivial

/-- C40, exact answers: on chains grown by emitting, all of C40 holds whenever the new timestamp is not before that of
the last block, and in builds without overflow checks for every timestamp. Missing: an earlier timestamp in a build
with overflow checks panics (`C40_refuted`), and chains to which blocks with arbitrary difficulty were added. -/
theorem C40_exact_partial (E : Env) (s : Tree) (prev : Block) (pow : BytesN 32) (founder : Address) (txs : List Hash)
    (ts : UInt64) (hr : RunWith E EmitOnly s) (hm : s.main.getHeight.val + 1 < U256.size)
    (hp : s.main.getLastBlock = .ok (some prev)) (ht : prev.info.timestamp ≤ ts ∨ E.overflowChecks = false) :
    EmitSpec E s prev pow founder txs ts := by
  obtain ⟨bs, h, hk, hb⟩ := emitOnly_linked hr hm
  have hrun := runWith_run hr
  refine ⟨(C40_no_side_effects_partial E s pow founder txs ts hrun hm).2 prev hp, fun hpow => ?_⟩
  obtain ⟨b', g1, g2, _, g4, g5⟩ := h.last
  have hbp : b' = prev := by
    by_cases hbm : b'.IsMain
    · have := g4 hbm; rw [hp] at this; cases this; rfl
    · obtain ⟨e, he⟩ := g5 hbm; rw [hp] at he; cases he
  subst hbp
  have hgood : GoodHead b'.info.difficulty :=
    linked_good (a := genesis E) good_beginning hk b' (List.mem_of_getLast? g1)
  have hrec : ∃ d, recalculateDifficulty E b'.info.timestamp ts b'.info.difficulty = .ok d := by
    rw [recalculate_eq]
    have : u64Sub E ts b'.info.timestamp = .ok (ts - b'.info.timestamp) := by
      rcases ht with ht | ht
      · exact u64Sub_inorder E _ _ ht
      · rw [u64Sub, if_neg (by simp [ht])]
    rw [this, Outcome.ok_bind]
    obtain ⟨d', h1, _⟩ := stepBy_good E (ts - b'.info.timestamp) _ hgood
    exact ⟨d', h1⟩
  obtain ⟨d, hd⟩ := hrec
  obtain ⟨fee, hfee, _⟩ := C26_fee d
  have hadd : b'.info.height.add U256.one = .ok s.main.chain.height := by
    have hm' : s.main.chain.height.val + 1 < U256.size := hm
    unfold U256.add
    rw [dif_pos (by rw [U256.val_one, g2]; omega)]
    congr 1
    exact U256.ext (by show b'.info.height.val + U256.one.val = _; rw [U256.val_one]; exact g2)
  have hchk := emitChecks_of (founder := founder) hp ((checkPow_iff ..).mpr hpow) hd hfee hadd
  have hH : s.main.getHeight = s.main.chain.height := rfl
  rw [hH]
  refine ⟨fun he hne => ?_, fun he hne => ?_, fun he => ?_⟩
  · unfold Rejected
    rw [emitMain_checks, hchk, Act.lift_ok_bind]
    exact emitRest_wrong_epoch he hne
  · unfold Rejected
    subst hne
    rw [emitMain_checks, hchk, Act.lift_ok_bind]
    exact emitRest_no_txs he
  · rcases emitMain_cases h hm pow founder txs ts with
      ⟨out, _, _, ⟨e, _, _, r, k1, _, k3⟩ | ⟨k, _⟩⟩ | ⟨l, r, b, s0, c, tr, _, _, _, _, _, _, k7, k8, k9, k10, k11⟩
    · have hre := Outcome.ok.inj (hchk.symm.trans k1)
      subst hre
      have k3' : s.main.chain.height.val % 1000000 = 0 ↔ txs ≠ [] := k3
      rw [he] at k3'
      by_cases hte : txs = []
      · exact absurd hte (k3'.mp hte)
      · exact absurd (k3'.mpr hte) hte
    · exact absurd hchk (k _)
    · rw [k7]
      refine ⟨b, rfl, ?_, ?_⟩
      · have hHo : Chain.Holds E ({ s0 with main := { s0.main with chain := c } } : Tree).main.chain
            (genesis E :: (bs ++ [b])) := k10
        obtain ⟨x, j1, _, _, j4, _⟩ := hHo.last
        have : x = b := by
          rw [show genesis E :: (bs ++ [b]) = (genesis E :: bs) ++ [b] from rfl, List.getLast?_concat] at j1
          cases j1; rfl
        subst this
        apply j4
        rcases k11 with ⟨_, _, hb, _⟩ | ⟨_, _, hb, _⟩ <;> rw [hb] <;> trivial
      · show c.height.val = _
        rw [k9]; rfl

/-- C40 is false of the code: with overflow checks a timestamp before that of the last block panics, although the
proof of work and the transactions are fine, and also instead of the error about the transactions. -/
theorem C40_refuted : (∀ E s prev pow founder txs ts, E.overflowChecks = true →
      s.main.getLastBlock = .ok (some prev) → ts < prev.info.timestamp →
      MeetsPow E (E.sha256 prev.dump) prev.info.difficulty txs pow.val →
      (Tree.emitMain E pow founder txs ts s).out = .panic .overflow) ∧ ¬ C40_full := by
  have key : ∀ E s prev pow founder txs ts, E.overflowChecks = true →
      s.main.getLastBlock = .ok (some prev) → ts < prev.info.timestamp →
      MeetsPow E (E.sha256 prev.dump) prev.info.difficulty txs pow.val →
      (Tree.emitMain E pow founder txs ts s).out = .panic .overflow := by
    intro E s prev pow founder txs ts hE hp ht hpow
    rw [emitMain_checks]
    have : emitChecks E s pow founder txs ts = .panic .overflow := by
      unfold emitChecks
      rw [hp]
      have hc : checkPow E (prev.hash E) prev.info.difficulty txs pow.val = .ok true := (checkPow_iff ..).mpr hpow
      simp only [Outcome.ok_bind, Outcome.ofOption_some, hc, Bool.not_true, Bool.false_eq_true, if_false,
        C25_out_of_order_partial E hE _ _ _ ht]
      rfl
    rw [this, Act.lift_panic_bind]
    rfl
  refine ⟨key, fun hf => ?_⟩
  obtain ⟨t, _, h2, h3, ⟨b, _, h4, h5⟩, _⟩ := C37_fresh_node zeroEnv
  have hpow : MeetsPow zeroEnv (zeroEnv.sha256 (Block.summarize b).dump) (Block.summarize b).info.difficulty
      [BytesN.fill 32 5] (BytesN.fill 32 0).val := (checkPow_iff ..).mp (checkPow_zero ..)
  obtain ⟨_, h⟩ := hf zeroEnv t _ (BytesN.fill 32 0) ROOT_PUBLIC_ADDRESS [BytesN.fill 32 5] 0 (h2 ▸ .fresh)
    (by rw [h3]; decide) h4
  obtain ⟨x, hx, _⟩ := (h hpow).2.2 (by rw [h3]; simp)
  rw [key zeroEnv t _ _ _ _ _ rfl h4 (by simp only [Block.info, h5]; decide) hpow] at hx
  cases hx

/-! ## C41 -/

/-- C41. When a summarize block is emitted, the old databases hold exactly the balances and the gas from before the
call, the new root account holds the emission of one cycle, everything else carries over, and the block commits to the
balances from before the call: its Merkle root is that of the accounts in the order of their addresses. -/
theorem C41_epoch (E : Env) (s : Tree) (pow : BytesN 32) (founder : Address) (txs : List Hash) (ts : UInt64) (b : Block)
    (f g : Spec.Accounts) (hr : Run E s) (hm : s.main.getHeight.val + 1 < U256.size)
    (he : s.main.getHeight.val % 1000000 = 0) (hf : Shows s.summary f) (hg : Shows s.gas g)
    (ho : (Tree.emitMain E pow founder txs ts s).out = .ok b) :
    (let t := (Tree.emitMain E pow founder txs ts s).final
     (∀ k, t.oldSummary.get k = s.summary.get k) ∧ Shows t.oldSummary f ∧
     (∀ k, t.oldGas.get k = s.gas.get k) ∧ Shows t.oldGas g ∧
     Shows t.summary (f.update ROOT_PUBLIC_ADDRESS.val 50010000000000000000000000) ∧ Shows t.gas g) ∧
    ∃ (x : SummarizeBlock) (l : List (Bytes × Bytes)), b = .summarize x ∧ Sorted l ∧
      (∀ k v, (k, v) ∈ l ↔ s.summary.get k = some v) ∧
      IsMerkleRoot E (l.map fun a => E.sha256 (a.1 ++ [0x7C] ++ a.2 ++ [0x7C] ++ (s.gas.get a.1).getD []))
        x.merkleTreeRoot := by
  obtain ⟨bs, h⟩ := run_holds hr hm
  have hinv := run_storeInv hr
  rcases emitMain_cases h hm pow founder txs ts with ⟨out, h1, h2, _⟩ | ⟨l, r, b', s0, c, tr, _, _, _, _, _, k6, k7, _, _, _, k11⟩
  · rw [h2] at ho; exact absurd ho (h1 b)
  · rw [k7] at ho ⊢
    simp only [Outcome.ok.injEq] at ho
    subst ho
    rcases k11 with ⟨hne, _⟩ | ⟨_, _, hb, hs0⟩
    · exact absurd (by rw [k6]; exact he) hne
    · subst hs0
      have e1 := shows_eq hf
      refine ⟨⟨fun _ => rfl, fun k => hf k, fun _ => rfl, fun k => hg k, ?_, fun k => hg k⟩, ?_⟩
      · subst e1
        exact shows_insert (d := (Tree.rotateDbs s).final.summary) hinv.summary.1 _ _
      · refine ⟨_, s.summary.cur.entries, hb, s.summary.cur.sorted, fun k v => KV.mem_entries, ?_⟩
        rw [← merkleRoot_iff, merkleRoot_eq]
        unfold Tree.summaryLeaves
        rw [List.map_map]; rfl

/-- The hypotheses are met one epoch after the start. -/
example : ∃ s b, Run zeroEnv s ∧ s.main.getHeight.val = 1000000 ∧
    (Tree.emitMain zeroEnv (BytesN.fill 32 0) ROOT_PUBLIC_ADDRESS [] (1597924800 + 600 * 1000000) s).out = .ok b := by
  obtain ⟨s, last, h1, h2, h3, h4, _⟩ := steady 999999 (by omega)
  have hm : s.main.getHeight.val + 1 < U256.size := by
    have : U256.size > 20000000 := by decide
    have : s.main.getHeight.val = 999999 + 1 := h2
    omega
  have hle : last.info.timestamp ≤ 1597924800 + 600 * 1000000 := by
    rw [UInt64.le_iff_toNat_le, h4]; decide
  have := (C40_exact_partial zeroEnv s last (BytesN.fill 32 0) ROOT_PUBLIC_ADDRESS []
    (1597924800 + 600 * 1000000) h1 hm h3 (.inl hle)).2 ((checkPow_iff ..).mp (checkPow_zero ..))
  have hh : s.main.getHeight.val = 1000000 := h2
  obtain ⟨b, hb, _⟩ := this.2.2 (by rw [hh]; simp)
  exact ⟨s, b, runWith_run h1, hh, hb⟩

/-! ## C42 -/

/-- The bytes the summary hashes for one account, from what the account holds. -/
def accountLeaf (a : Address) (coins : U256) (gas : Option U256) : Bytes :=
  a.val ++ [0x7C] ++ dumpU256 coins [] ++ [0x7C] ++ (gas.map (fun g => dumpU256 g [])).getD []

/-- C42 at full strength: leaves determine accounts, and every account with coins or gas has a leaf (so that a
change of what it holds is a change of the leaves). -/
def C42_full : Prop :=
  (∀ a a' c c' g g', accountLeaf a c g = accountLeaf a' c' g' → a = a' ∧ c = c' ∧ g = g') ∧
  ∀ (E : Env) (s : Tree) (f g : Spec.Accounts) (a : Address), Run E s → Shows s.summary f → Shows s.gas g →
    (f a.val ≠ 0 ∨ g a.val ≠ 0) → ∃ rest, a.val ++ [0x7C] ++ rest ∈ s.summaryLeaves

/-- C42, what holds: the leaf bytes determine address, coins and gas, and every account holding coins contributes
its leaf. Missing: accounts that hold gas only (`C42_refuted`). -/
theorem C42_leaves_partial :
    (∀ a a' c c' g g', accountLeaf a c g = accountLeaf a' c' g' → a = a' ∧ c = c' ∧ g = g') ∧
    ∀ (E : Env) (s : Tree) (f g : Spec.Accounts) (a : Address), Run E s → Shows s.summary f → Shows s.gas g →
      f a.val ≠ 0 → ∃ (c : U256) (o : Option U256), c.val = f a.val ∧ (o.map (·.val)).getD 0 = g a.val ∧
        accountLeaf a c o ∈ s.summaryLeaves := by
  refine ⟨fun a a' c c' g g' h => ?_, fun E s f g a hr hf hg ha => ?_⟩
  · unfold accountLeaf at h
    simp only [List.append_assoc] at h
    obtain ⟨h1, h2⟩ := List.append_inj h (by rw [a.property, a'.property])
    have h3 := (List.append_inj h2 rfl).2
    obtain ⟨h4, h5⟩ := C02_u256_prefix_free c c' _ _ h3
    have h6 := (List.append_inj h5 rfl).2
    refine ⟨Subtype.ext h1, h4, ?_⟩
    cases g with
    | none =>
      cases g' with
      | none => rfl
      | some y => exact absurd h6.symm (encU256_ne_nil y)
    | some x =>
      cases g' with
      | none => exact absurd h6 (encU256_ne_nil x)
      | some y =>
        have h7 : dumpU256 x [] ++ [] = dumpU256 y [] ++ [] := by simpa using h6
        rw [(C02_u256_prefix_free x y [] [] h7).1]
  · have hinv := run_storeInv hr
    obtain ⟨c, hc1, hc2⟩ := hf a.val
    obtain ⟨d, hd1, hd2⟩ := hg a.val
    cases hv : s.summary.get a.val with
    | none =>
      rw [hv] at hc1
      cases hc1
      exact absurd hc2.symm ha
    | some v =>
      obtain ⟨c', rfl⟩ := hinv.summary.1 a.val v hv
      rw [hv, Ledger.balance_encode] at hc1
      cases hc1
      have hmem : Tree.leafBytes a.val (Ledger.encode c) ((s.gas.get a.val).getD []) ∈ s.summaryLeaves :=
        List.mem_map.mpr ⟨(a.val, Ledger.encode c), KV.mem_entries.mpr hv, rfl⟩
      cases hw : s.gas.get a.val with
      | none =>
        rw [hw] at hd1 hmem
        cases hd1
        exact ⟨c, none, hc2, hd2, hmem⟩
      | some w =>
        obtain ⟨d', rfl⟩ := hinv.gas.1 a.val w hw
        rw [hw, Ledger.balance_encode] at hd1
        cases hd1
        rw [hw] at hmem
        exact ⟨c, some d, hc2, hd2, hmem⟩

/-- Giving gas to an account without coins does not change the commitment. -/
theorem summary_ignores_gas_only (s : Tree) (k v : Bytes) (h : s.summary.get k = none) :
    ({ s with gas := s.gas.insert k v } : Tree).summaryLeaves = s.summaryLeaves := by
  unfold Tree.summaryLeaves
  refine List.map_congr_left fun e he => ?_
  have hk : e.1 ≠ k := by
    rintro rfl
    have := KV.mem_entries.mp (show (e.1, e.2) ∈ s.summary.cur.entries from he)
    rw [show s.summary.cur.get e.1 = s.summary.get e.1 from rfl, h] at this
    cases this
  show Tree.leafBytes e.1 e.2 (((s.gas.insert k v).get e.1).getD []) = _
  rw [Db.get_insert, if_neg (Ne.symm hk)]

/-- C42 is false of the code: gas of an account without a coin entry is not committed to. -/
theorem C42_refuted : (∀ (s : Tree) (k v : Bytes), s.summary.get k = none →
      ({ s with gas := s.gas.insert k v } : Tree).summaryLeaves = s.summaryLeaves) ∧ ¬ C42_full := by
  refine ⟨summary_ignores_gas_only, fun hf => ?_⟩
  let a : Address := BytesN.fill 33 9
  let s0 := (openTree zeroEnv Disk.empty).final
  let s := ((Op.addGas a.val U256.one).run zeroEnv s0).final
  have hs : s = { s0 with gas := s0.gas.insert a.val (Ledger.encode U256.one) } := by
    show ((Op.addGas a.val U256.one).run zeroEnv (openTree zeroEnv Disk.empty).final).final = _
    rw [show s0 = (openTree zeroEnv Disk.empty).final from rfl, (openTree_fresh zeroEnv).2]
    rfl
  have hr : Run zeroEnv s := .call s0 _ .fresh trivial
  have hinv := run_storeInv hr
  obtain ⟨rest, hrest⟩ := hf.2 zeroEnv s _ _ a hr (shows_amt hinv.summary.1) (shows_amt hinv.gas.1) (.inr (by
    show (s.gas.cur.amt a.val).val ≠ 0
    rw [hs]
    show ((s0.gas.cur.insert a.val (Ledger.encode U256.one)).amt a.val).val ≠ 0
    rw [KV.amt_insert, if_pos rfl]; decide))
  rw [hs, summary_ignores_gas_only] at hrest
  · obtain ⟨e, he, h⟩ := List.mem_map.mp hrest
    have hsum : s0.summary.cur.entries = [(ROOT_PUBLIC_ADDRESS.val, Ledger.encode COINS_PER_CYCLE)] := by
      show (openTree zeroEnv Disk.empty).final.summary.cur.entries = _
      rw [(openTree_fresh zeroEnv).2]; rfl
    rw [hsum] at he
    rw [List.mem_singleton.mp he] at h
    have := congrArg (List.take 33) h
    simp only [Tree.leafBytes, List.append_assoc] at this
    rw [List.take_left' ROOT_PUBLIC_ADDRESS.property, List.take_left' a.property] at this
    exact absurd this (by decide +kernel)
  · show (openTree zeroEnv Disk.empty).final.summary.get a.val = none
    rw [(openTree_fresh zeroEnv).2]
    rfl

/-! ## C43 -/

/-- What the genesis block hashes, and what a summary of the same ledger hashes. -/
def genesisLeaf : Bytes := MainChain.initialAmount
def freshLeaf : Bytes := accountLeaf ROOT_PUBLIC_ADDRESS COINS_PER_CYCLE none

/-- No collision among the strings involved. -/
def NoCollision (E : Env) : Prop :=
  let l : List Bytes := [genesisLeaf, freshLeaf, (E.sha256 genesisLeaf).val, (E.sha256 freshLeaf).val]
  ∀ x ∈ l, ∀ y ∈ l, E.sha256 x = E.sha256 y → x = y

/-- C43 at full strength: the genesis block of a fresh node carries the summary of its ledger. -/
def C43_full : Prop := ∀ (E : Env) (x : SummarizeBlock), NoCollision E →
  (openTree E Disk.empty).final.main.findByHeight U256.zero = .ok (some (.summarize x)) →
  (openTree E Disk.empty).final.summarize E = .ok x.merkleTreeRoot

theorem nodeHash_pad (E : Env) (x : Hash) : nodeHash E x specPad = E.sha256 x.val := by
  unfold nodeHash andHash specPad
  congr 1
  show List.zipWith _ x.val (List.replicate 32 255) = x.val
  have hx := x.property
  generalize x.val = l at hx
  have : ∀ (n : Nat) (l : Bytes), l.length = n → List.zipWith (fun a b : UInt8 => a &&& b) l (List.replicate n 255) = l := by
    intro n
    induction n with
    | zero => intro l hl; rw [List.length_eq_zero_iff.mp hl]; rfl
    | succ n ih =>
      intro l hl
      cases l with
      | nil => cases hl
      | cons a l =>
        rw [List.replicate_succ, List.zipWith_cons_cons, ih l (by simpa using hl)]
        congr 1
        exact UInt8.and_neg_one
  exact this 32 l hx

theorem root_single (E : Env) (x : Hash) : merkleRootT E [x] = E.sha256 x.val := by
  have h := merkleRoot_eq E [x]
  rw [merkleRoot_iff] at h
  obtain ⟨p, hp, h⟩ := h
  have : p = 1 := Nat.le_antisymm (hp.2 1 (by simp)) (by
    rcases Nat.eq_zero_or_pos p with rfl | h
    · exact absurd hp.1 (by simp)
    · exact h)
  subst this
  rw [h, specParent_eq]
  show nodeHash E x specPad = _
  exact nodeHash_pad E x

theorem fresh_roots (E : Env) :
    (openTree E Disk.empty).final.summarize E = .ok (E.sha256 (E.sha256 freshLeaf).val) ∧
    ∃ x : SummarizeBlock, (openTree E Disk.empty).final.main.findByHeight U256.zero = .ok (some (.summarize x)) ∧
      x.merkleTreeRoot = E.sha256 (E.sha256 genesisLeaf).val := by
  constructor
  · rw [summarize_eq, (openTree_fresh E).2]
    rw [← root_single]
    rfl
  · have hr : RunWith E EmitOnly (openTree E Disk.empty).final := .fresh
    have hb := bootChain_holds E (d := BEGINNING_DIFFICULTY) none
    have hf : (openTree E Disk.empty).final.main.findByHeight U256.zero = .ok (some (genesis E)) := by
      rw [(openTree_fresh E).2]
      unfold MainChain.findByHeight MainChain.findRawByHeight
      rw [hb.findRaw]
      exact decode_main _ trivial (.inr ⟨_, rfl⟩)
    exact ⟨_, hf, root_single E _⟩

/-- C43, what holds: the genesis block commits to the one account of the initial ledger, in a textual format of its own
(address, decimal amount, "0"). Missing: the format is not the one later summaries use (`C43_refuted`). -/
theorem C43_genesis_text_partial (E : Env) : ∃ x : SummarizeBlock,
    (openTree E Disk.empty).final.main.findByHeight U256.zero = .ok (some (.summarize x)) ∧
    IsMerkleRoot E [E.sha256 (ROOT_PUBLIC_ADDRESS.val ++ [0x7C] ++
      "50010000000000000000000000".toUTF8.toList ++ [0x7C] ++ "0".toUTF8.toList)] x.merkleTreeRoot := by
  obtain ⟨_, x, h1, h2⟩ := fresh_roots E
  refine ⟨x, h1, ?_⟩
  rw [← merkleRoot_iff, merkleRoot_eq, root_single, h2]
  have : genesisLeaf = ROOT_PUBLIC_ADDRESS.val ++ [0x7C] ++
      "50010000000000000000000000".toUTF8.toList ++ [0x7C] ++ "0".toUTF8.toList := by decide +kernel
  rw [this]

/-- A digest without a collision among the strings involved. -/
def spreadEnv : Env where
  sha256 b := if b = genesisLeaf then BytesN.fill 32 1 else if b = List.replicate 32 1 then BytesN.fill 32 2
    else if b = List.replicate 32 0 then BytesN.fill 32 3 else BytesN.fill 32 0
  overflowChecks := true

/-- C43 is false of the code: for no digest without collisions is the genesis root the summary of the initial
ledger. -/
theorem C43_refuted : (∀ (E : Env) (x : SummarizeBlock), NoCollision E →
    (openTree E Disk.empty).final.main.findByHeight U256.zero = .ok (some (.summarize x)) →
    (openTree E Disk.empty).final.summarize E ≠ .ok x.merkleTreeRoot) ∧ ¬ C43_full := by
  have key : ∀ (E : Env) (x : SummarizeBlock), NoCollision E →
      (openTree E Disk.empty).final.main.findByHeight U256.zero = .ok (some (.summarize x)) →
      (openTree E Disk.empty).final.summarize E ≠ .ok x.merkleTreeRoot := by
    intro E x hn hx h
    obtain ⟨h1, y, h2, h3⟩ := fresh_roots E
    rw [hx] at h2
    cases h2
    rw [h1, h3] at h
    have e1 := hn _ (by simp) _ (by simp) (Outcome.ok.inj h)
    have e2 := hn _ (by simp) _ (by simp) (Subtype.ext e1)
    exact absurd e2 (by decide +kernel)
  refine ⟨key, fun hf => ?_⟩
  have hn : NoCollision spreadEnv := by unfold NoCollision; decide +kernel
  obtain ⟨_, x, h1, _⟩ := fresh_roots spreadEnv
  exact key spreadEnv x hn h1 (hf spreadEnv x hn h1)

/-! ## C44 -/

/-- C44. A derivative chain grown through `emmit_new_derivative_block` only starts at height 0 with the hash of a
stored main-chain block as previous hash and a difficulty recalculated from the beginning difficulty; each later block
carries the hash of the block before it, the next height and the recalculated difficulty. -/
theorem C44_anchored_and_linked (E : Env) (s : Tree) (hr : RunWith E DerivEmitOnly s)
    (hm : s.main.getHeight.val + 1 < U256.size) (o : Address) (ho : (s.handle o).chain.height.val + 1 < U256.size) :
    (0 < (s.handle o).chain.height.val → ∃ (q : U256) (a : Block) (d : DerivativeBlock),
      s.main.findByHeight q = .ok (some a) ∧ (s.handle o).findByHeight U256.zero = .ok (some d) ∧
      d.defaultInfo.previousHash = E.sha256 a.dump ∧ d.defaultInfo.height.val = 0 ∧
      recalculateDifficulty E a.info.timestamp d.defaultInfo.timestamp ⟨0x7F :: List.replicate 31 0xFF, rfl⟩ =
        .ok d.defaultInfo.difficulty) ∧
    ∀ q q' : U256, q'.val = q.val + 1 → q'.val < (s.handle o).chain.height.val → ∃ a b : DerivativeBlock,
      (s.handle o).findByHeight q = .ok (some a) ∧ (s.handle o).findByHeight q' = .ok (some b) ∧
      b.defaultInfo.previousHash = E.sha256 a.dump ∧ a.defaultInfo.height = q ∧ b.defaultInfo.height = q' ∧
      recalculateDifficulty E a.defaultInfo.timestamp b.defaultInfo.timestamp a.defaultInfo.difficulty =
        .ok b.defaultInfo.difficulty := by
  obtain ⟨bs, h, hall⟩ := derivEmitOnly_linked hr hm
  obtain ⟨ds, hd, hl⟩ := hall o ho
  have hlen := hd.len
  rw [List.length_map] at hlen
  have find : ∀ (x : U256) (hx : x.val < ds.length), (s.handle o).findByHeight x = .ok (some ds[x.val]) := by
    intro x hx
    unfold DerivativeChain.findByHeight
    rw [hd.findRaw, List.getElem?_map, List.getElem?_eq_getElem hx]
    exact decode_deriv _
  refine ⟨fun hp => ?_, fun q q' hq hlt => ?_⟩
  · have h0 : 0 < ds.length := by omega
    obtain ⟨a, ha, hmain, h1, h2, h3⟩ := hl.first ds[0] (List.getElem?_eq_getElem h0)
    obtain ⟨i, hi, rfl⟩ := List.mem_iff_getElem.mp ha
    have hlm : (genesis E :: bs).length = s.main.chain.height.val := h.len
    refine ⟨⟨i, by have := s.main.chain.height.lt; omega⟩, _, ds[0], ?_, find U256.zero h0, h1, h2, h3⟩
    unfold MainChain.findByHeight MainChain.findRawByHeight
    rw [h.findRaw, List.getElem?_eq_getElem hi]
    refine decode_main _ hmain ?_
    cases i with
    | zero => exact .inr ⟨_, rfl⟩
    | succ j => left; rw [h.heights _ hi]; omega
  · have hi : q.val + 1 < ds.length := by omega
    have hn := hl.next q.val ds[q.val] ds[q.val + 1] (List.getElem?_eq_getElem _) (List.getElem?_eq_getElem hi)
    have hh : ∀ (i : Nat) (hi : i < ds.length), ds[i].defaultInfo.height.val = i := by
      intro i hi
      have := hd.heights i (by rw [List.length_map]; exact hi)
      rw [List.getElem_map] at this; exact this
    refine ⟨_, _, find q (by omega), find q' (by omega), ?_, ?_, ?_, ?_⟩
    · simp only [hq]; exact hn.link
    · exact U256.ext (hh _ _)
    · exact U256.ext (hh _ _)
    · simp only [hq]; exact hn.difficulty

/-- C44, isolation: whatever the outcome, emitting for one owner leaves the main chain, both ledgers and every other
owner's chain exactly as they were. -/
theorem C44_isolation (E : Env) (s : Tree) (p : BytesN 32) (f : Address) (ts : UInt64) :
    (Tree.emitDerivative E p f ts s).final.main = s.main ∧
    (Tree.emitDerivative E p f ts s).final.summary = s.summary ∧
    (Tree.emitDerivative E p f ts s).final.gas = s.gas ∧
    ∀ o, o ≠ f → (Tree.emitDerivative E p f ts s).final.handle o = s.handle o :=
  have h := emitDerivative_frame E s p f ts
  ⟨h.1, h.2.1, h.2.2.1, h.2.2.2.2.2⟩

/-- Two blocks emitted for one owner. -/
def derivHistory : Tree :=
  ((Op.emitDerivative (BytesN.fill 32 0) (BytesN.fill 33 4) 1597925400).run zeroEnv
    ((Op.emitDerivative (BytesN.fill 32 0) (BytesN.fill 33 4) 1597925400).run zeroEnv
      (openTree zeroEnv Disk.empty).final).final).final

example : RunWith zeroEnv DerivEmitOnly derivHistory := .call _ _ (.call _ _ .fresh trivial) trivial
example : (derivHistory.handle (BytesN.fill 33 4)).chain.height.val = 2 := by decide +kernel

/-! ## C45 -/

/-- C45. Different owners have different directory names. -/
theorem C45_directories (a b : Address) (h : a ≠ b) : hexEncode a.val ≠ hexEncode b.val :=
  fun e => h (hexEncode_address e)

/-- C45. The name of an owner's directory is the address in lower-case hexadecimal, two digits for every byte: no
separators, no special names, and different also where a file system ignores case. -/
theorem C45_directory_names (a : Bytes) : hexEncode a = a.flatMap (fun b =>
    [b.toNat / 16, b.toNat % 16].map (fun d => ("0123456789abcdef".toList.map (fun c => UInt8.ofNat c.toNat)).getD d 0)) := by
  have hd : ∀ d : Fin 16, hexDigit d.val =
      ("0123456789abcdef".toList.map (fun c => UInt8.ofNat c.toNat)).getD d.val 0 := by decide
  induction a with
  | nil => rfl
  | cons b bs ih =>
    have h1 := hd ⟨b.toNat / 16, by have := b.toNat_lt; omega⟩
    have h2 := hd ⟨b.toNat % 16, by omega⟩
    simp only at h1 h2
    rw [hexEncode, ih, h1, h2]
    rfl

example : (BytesN.fill 33 1 : Address) ≠ BytesN.fill 33 2 := by decide
example : hexEncode [0xAB, 0x07] = [0x61, 0x62, 0x30, 0x37] := by decide

end BCT.Props
