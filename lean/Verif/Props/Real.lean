import Verif.Props.Economy
import Verif.Props.Time
import Verif.Props.Trust
import Verif.Props.Crash
import Verif.Props.Faults
import Verif.Props.Commit
import Verif.Props.Pool
import Verif.Props.ThreadsEmit
import Verif.Props.Anchor
import Verif.Model.Sha256
/-!
# The refuted properties, with the real digest

The refutations elsewhere give a reason that applies to any digest and then a witness with a simple artificial one.
Here the witnesses are repeated with SHA-256 itself, so that none of the refutations rests on a peculiar digest.
-/

namespace BCT.Props
open BCT

/-- FIPS 180-4 test vectors. -/
example : Sha256.digest [] =
    [0xe3, 0xb0, 0xc4, 0x42, 0x98, 0xfc, 0x1c, 0x14, 0x9a, 0xfb, 0xf4, 0xc8, 0x99, 0x6f, 0xb9, 0x24,
     0x27, 0xae, 0x41, 0xe4, 0x64, 0x9b, 0x93, 0x4c, 0xa4, 0x95, 0x99, 0x1b, 0x78, 0x52, 0xb8, 0x55] := by
  decide +kernel
example : Sha256.digest [0x61, 0x62, 0x63] =
    [0xba, 0x78, 0x16, 0xbf, 0x8f, 0x01, 0xcf, 0xea, 0x41, 0x41, 0x40, 0xde, 0x5d, 0xae, 0x22, 0x23,
     0xb0, 0x03, 0x61, 0xa3, 0x96, 0x17, 0x7a, 0x9c, 0xb4, 0x10, 0xff, 0x61, 0xf2, 0x00, 0x15, 0xad] := by
  decide +kernel
example : Sha256.digest "abcdbcdecdefdefgefghfghighijhijkijkljklmklmnlmnomnopnopq".toUTF8.toList =
    [0x24, 0x8d, 0x6a, 0x61, 0xd2, 0x06, 0x38, 0xb8, 0xe5, 0xc0, 0x26, 0x93, 0x0c, 0x3e, 0x60, 0x39,
     0xa3, 0x3c, 0xe4, 0x59, 0x64, 0xff, 0x21, 0x67, 0xf6, 0xec, 0xed, 0xd4, 0x19, 0xdb, 0x06, 0xc1] := by
  decide +kernel

/-- Nonces found by trying a few. -/
def realPow (n : UInt8) : BytesN 32 := BytesN.fill 32 n

theorem real_meets (c : Bool) :
    checkPow (shaEnv c) ((genesis (shaEnv c)).hash (shaEnv c)) BEGINNING_DIFFICULTY [BytesN.fill 32 5] (realPow 6).val = .ok true ∧
    checkPow (shaEnv c) ((genesis (shaEnv c)).hash (shaEnv c)) BEGINNING_DIFFICULTY [BytesN.fill 32 5] (realPow 5).val = .ok true := by
  cases c <;> decide +kernel

/-- The freshly opened node, its only block, and the blocks it will emit. -/
theorem real_fresh (c : Bool) : ∃ (t : Tree) (g : SummarizeBlock), t = (openTree (shaEnv c) Disk.empty).final ∧
    RunWith (shaEnv c) EmitOnly t ∧ t.main.getHeight.val = 1 ∧ t.main.getLastBlock = .ok (some (.summarize g)) ∧
    g.defaultInfo.timestamp = 1597924800 ∧ g.defaultInfo.difficulty = BEGINNING_DIFFICULTY ∧
    Block.summarize g = genesis (shaEnv c) := by
  obtain ⟨t, _, h2, h3, ⟨g, _, h4, h5⟩, _⟩ := C37_fresh_node (shaEnv c)
  refine ⟨t, g, h2.symm, h2 ▸ .fresh, h3, h4, by rw [h5], by rw [h5]; rfl, ?_⟩
  have : t.main.getLastBlock = .ok (some (genesis (shaEnv c))) := by
    rw [← h2, (openTree_fresh (shaEnv c)).2]
    have hb := bootChain_holds (shaEnv c) BEGINNING_DIFFICULTY none
    unfold MainChain.getLastBlock MainChain.getLastRawBlock MainChain.findRawByHeight
    rw [lastIndex (Nat.le_refl 1)]
    simp only [Outcome.ok_bind]
    rw [hb.findRaw]
    exact decode_main (genesis (shaEnv c)) trivial (.inr ⟨_, rfl⟩)
  rw [h4] at this
  cases this
  rfl

/-- It emits blocks: `txs` and `pow` as required, any founder, any time from the genesis timestamp on (and in builds
without overflow checks any time at all). -/
theorem real_emits (c : Bool) (pow : BytesN 32) (founder : Address) (txs : List Hash) (ts : UInt64) (htxs : txs ≠ [])
    (hts : 1597924800 ≤ ts ∨ c = false)
    (hpow : checkPow (shaEnv c) ((genesis (shaEnv c)).hash (shaEnv c)) BEGINNING_DIFFICULTY txs pow.val = .ok true) :
    ∃ b, (Tree.emitMain (shaEnv c) pow founder txs ts (openTree (shaEnv c) Disk.empty).final).out = .ok b ∧
      b.info.timestamp = ts ∧ b.info.founder = founder ∧ b.info.pow = pow ∧
      (Tree.emitMain (shaEnv c) pow founder txs ts (openTree (shaEnv c) Disk.empty).final).final.main.getLastBlock = .ok (some b) := by
  obtain ⟨t, g, h1, h2, h3, h4, h5, h6, h7⟩ := real_fresh c
  rw [← h1]
  have hm : t.main.getHeight.val + 1 < U256.size := by rw [h3]; decide
  obtain ⟨b, k1, k2, _⟩ := ((C40_exact_partial (shaEnv c) t _ pow founder txs ts h2 hm h4
    (hts.imp (fun h => by show g.defaultInfo.timestamp ≤ ts; rw [h5]; exact h) id)).2 (by
      rw [h7, ← checkPow_iff]; exact hpow)).2.2 (by rw [h3]; simp [htxs])
  obtain ⟨_, _, _, _, j1, j2, j3, _⟩ := emitted_info (runWith_run h2) hm k1
  exact ⟨b, k1, j1, j3, j2, k2⟩

/-! ## C30 -/

/-- C30 fails with SHA-256: a fresh node emits a block that its own validation rejects. -/
theorem C30_refuted_sha256 (c : Bool) : ∃ (s : Tree) (prev b : Block), s = (openTree (shaEnv c) Disk.empty).final ∧
    Run (shaEnv c) s ∧ s.main.getLastBlock = .ok (some prev) ∧
    (Tree.emitMain (shaEnv c) (realPow 6) ROOT_PUBLIC_ADDRESS [BytesN.fill 32 5] 1597925400 s).out = .ok b ∧
    b.validate (shaEnv c) (some prev) ≠ .ok true := by
  obtain ⟨t, g, h1, h2, h3, h4, h5, h6, h7⟩ := real_fresh c
  obtain ⟨b, k1, _⟩ := real_emits c (realPow 6) ROOT_PUBLIC_ADDRESS [BytesN.fill 32 5] 1597925400 (by simp)
    (.inl (by decide)) (real_meets c).1
  rw [← h1] at k1
  have hm : t.main.getHeight.val + 1 < U256.size := by rw [h3]; decide
  refine ⟨t, _, b, h1, runWith_run h2, h4, k1, ?_⟩
  intro hv
  obtain ⟨_, root, k2, k3⟩ := C30_validates_iff_partial (shaEnv c) t _ _ _ _ _ b (runWith_run h2) hm h4 k1
  have k4 := k3.mp hv
  have hbr : root = merkleRootT (shaEnv c) [BytesN.fill 32 5] := by
    obtain ⟨bs, hbs⟩ := run_holds (runWith_run h2) hm
    obtain ⟨last, _, _, g3, _, g5, _, _, _, _, _, g11⟩ := emitted_next hbs hm k1
    have he : b.info.height.val % BLOCKS_PER_EPOCH ≠ 0 := by
      rw [g5]
      have : t.main.chain.height.val = 1 := h3
      rw [this]; decide
    obtain ⟨x, rfl, _, hx3, _⟩ := g3.other he
    have e1 : x.transactions = [BytesN.fill 32 5] := g11
    have e2 : x.merkleTreeRoot = root := by
      have : (Outcome.ok x.merkleTreeRoot) = .ok root := k2
      cases this; rfl
    rw [← e2, hx3, e1]
  rw [hbr, ← checkPow_iff] at k4
  rw [show (Block.summarize g).info.difficulty = BEGINNING_DIFFICULTY from h6] at k4
  revert k4
  cases c <;> decide +kernel

/-! ## C40, C85, C87, C96 -/

/-- C40 fails with SHA-256: in builds with overflow checks, valid work with a timestamp before the last block's panics. -/
theorem C40_refuted_sha256 : (Tree.emitMain (shaEnv true) (realPow 6) ROOT_PUBLIC_ADDRESS [BytesN.fill 32 5] 1597924799
    (openTree (shaEnv true) Disk.empty).final).out = .panic .overflow := by
  obtain ⟨t, g, h1, h2, h3, h4, h5, h6, h7⟩ := real_fresh true
  rw [← h1]
  refine C40_refuted.1 (shaEnv true) t _ _ _ _ _ rfl h4 (by show _ < g.defaultInfo.timestamp; rw [h5]; decide) ?_
  rw [h7, ← checkPow_iff]
  exact (real_meets true).1

/-- C96 fails with SHA-256: in builds without overflow checks the second block can be dated 1970. -/
theorem C96_refuted_sha256 : ∃ b, (Tree.emitMain (shaEnv false) (realPow 6) ROOT_PUBLIC_ADDRESS [BytesN.fill 32 5] 0
    (openTree (shaEnv false) Disk.empty).final).out = .ok b ∧ b.info.timestamp = 0 := by
  obtain ⟨b, h1, h2, _⟩ := real_emits false (realPow 6) ROOT_PUBLIC_ADDRESS [BytesN.fill 32 5] 0 (by simp) (.inr rfl)
    (real_meets false).1
  exact ⟨b, h1, h2⟩

/-- C87 fails with SHA-256: one nonce serves every founder. -/
theorem C87_refuted_sha256 (c : Bool) (f : Address) (ts : UInt64) (h : 1597924800 ≤ ts) :
    ∃ b, (Tree.emitMain (shaEnv c) (realPow 6) f [BytesN.fill 32 5] ts (openTree (shaEnv c) Disk.empty).final).out = .ok b ∧
      b.info.founder = f ∧ b.info.timestamp = ts := by
  obtain ⟨b, h1, h2, h3, _⟩ := real_emits c (realPow 6) f [BytesN.fill 32 5] ts (by simp) (.inl h) (real_meets c).1
  exact ⟨b, h1, h3, h2⟩

/-- C85 fails with SHA-256: a block may list one transaction twice, and none of them has been announced. -/
theorem C85_refuted_sha256 (c : Bool) :
    ∃ (pow : BytesN 32) (b : TransactionBlock), (Tree.emitMain (shaEnv c) pow ROOT_PUBLIC_ADDRESS
      [BytesN.fill 32 5, BytesN.fill 32 5] 1597925400 (openTree (shaEnv c) Disk.empty).final).out = .ok (.transaction b) ∧
      ¬ b.transactions.Nodup ∧
      ∀ h ∈ b.transactions, (openTree (shaEnv c) Disk.empty).final.main.transactionExists h = false := by
  obtain ⟨t, g, h1, h2, h3, h4, h5, h6, h7⟩ := real_fresh c
  rw [← h1]
  have hp : checkPow (shaEnv c) ((genesis (shaEnv c)).hash (shaEnv c)) BEGINNING_DIFFICULTY
      [BytesN.fill 32 5, BytesN.fill 32 5] (realPow 3).val = .ok true := by
    cases c <;> decide +kernel
  obtain ⟨b, k1, k2⟩ := C85_refuted.1 (shaEnv c) t _ (realPow 3) ROOT_PUBLIC_ADDRESS [BytesN.fill 32 5, BytesN.fill 32 5]
    1597925400 h2 (by rw [h3]; decide) (by rw [h3]; decide) (by simp) h4
    (by show g.defaultInfo.timestamp ≤ _; rw [h5]; decide) (by rw [h7, ← checkPow_iff]; exact hp)
  refine ⟨_, b, k1, by rw [k2]; decide, fun h _ => ?_⟩
  rw [h1, (openTree_fresh (shaEnv c)).2]
  rfl

/-! ## C28 -/

/-- C28 fails with SHA-256: the block a fresh node emits for `realPow 5` validates, and still does with any height. -/
theorem C28_refuted_sha256 (c : Bool) : ∃ (prev : Block) (b : TransactionBlock), b.validate (shaEnv c) (some prev) = .ok true ∧
    b.defaultInfo.height.val = 77 ∧ prev.info.height.val = 0 := by
  obtain ⟨t, g, h1, h2, h3, h4, h5, h6, h7⟩ := real_fresh c
  obtain ⟨b, k1, _⟩ := real_emits c (realPow 5) ROOT_PUBLIC_ADDRESS [BytesN.fill 32 5] 1597925400 (by simp)
    (.inl (by decide)) (real_meets c).2
  rw [← h1] at k1
  have hm : t.main.getHeight.val + 1 < U256.size := by rw [h3]; decide
  obtain ⟨_, root, k2, k3⟩ := C30_validates_iff_partial (shaEnv c) t _ _ _ _ _ b (runWith_run h2) hm h4 k1
  obtain ⟨bs, hbs⟩ := run_holds (runWith_run h2) hm
  obtain ⟨last, _, _, g3, _, g5, _, _, _, _, _, g11⟩ := emitted_next hbs hm k1
  have he : b.info.height.val % BLOCKS_PER_EPOCH ≠ 0 := by
    rw [g5]
    have : t.main.chain.height.val = 1 := h3
    rw [this]; decide
  obtain ⟨x, rfl, _, hx3, _⟩ := g3.other he
  have e1 : x.transactions = [BytesN.fill 32 5] := g11
  have e2 : x.merkleTreeRoot = root := by
    have : (Outcome.ok x.merkleTreeRoot) = .ok root := k2
    cases this; rfl
  have hv := k3.mpr (by
    rw [← e2, hx3, e1, ← checkPow_iff, show (Block.summarize g).info.difficulty = BEGINNING_DIFFICULTY from h6]
    cases c <;> decide +kernel)
  refine ⟨_, { x with defaultInfo := { x.defaultInfo with height := ⟨77, by decide⟩ } }, hv, rfl, ?_⟩
  rw [h7]; rfl

/-! ## C43 -/

/-- C43 fails with SHA-256. -/
theorem C43_refuted_sha256 (c : Bool) : NoCollision (shaEnv c) ∧
    ∃ x : SummarizeBlock, (openTree (shaEnv c) Disk.empty).final.main.findByHeight U256.zero = .ok (some (.summarize x)) ∧
      (openTree (shaEnv c) Disk.empty).final.summarize (shaEnv c) ≠ .ok x.merkleTreeRoot := by
  have hn : NoCollision (shaEnv c) := by unfold NoCollision; cases c <;> decide +kernel
  obtain ⟨_, x, h1, _⟩ := fresh_roots (shaEnv c)
  exact ⟨hn, x, h1, C43_refuted.1 (shaEnv c) x hn h1⟩

/-! ## C62, C93, C117, C118 -/

theorem real_distinct (c : Bool) : nextBlock.hash (shaEnv c) ≠ nextBlock'.hash (shaEnv c) ∧
    nextBlock.hash (shaEnv c) ≠ (genesis (shaEnv c)).hash (shaEnv c) := by
  cases c <;> decide +kernel

/-- C62 fails with SHA-256: after an unclean stop a hash finds a block with another hash. -/
theorem C62_refuted_sha256 (c : Bool) : ∃ (s : Tree) (h : Hash) (raw : Bytes), Life (shaEnv c) (.idle s) ∧
    s.main.findRawByHash h = .ok (some raw) ∧ (shaEnv c).sha256 raw ≠ h := by
  obtain ⟨s, h1, h2, h3⟩ := C62_refuted.1 (shaEnv c) nextBlock nextBlock' rfl rfl (real_distinct c).1 (real_distinct c).2
  exact ⟨s, _, _, h1, h2, h3⟩

/-- C117 fails with SHA-256: the anchor of a derivative chain changes when the node is closed and opened again. -/
theorem C117_refuted_sha256 (c : Bool) (o : Address) : ∃ (s t : Tree) (g h : Hash), Life (shaEnv c) (.idle s) ∧
    Since (shaEnv c) (.idle s) (.idle t) ∧ anchor s o = some g ∧ anchor t o = some h ∧ h ≠ g := by
  obtain ⟨s, t, h1, h2, h3, h4⟩ := C117_refuted.1 (shaEnv c) nextBlock o rfl trivial
  exact ⟨s, t, _, _, h1, h2, h3, h4, (real_distinct c).2⟩

/-- C118 fails with SHA-256: the first block of a derivative chain points at another block than its anchor. -/
theorem C118_refuted_sha256 (c : Bool) (o : Address) : ∃ (s : Tree) (pow : BytesN 32) (ts : UInt64) (d : DerivativeBlock)
    (g : Hash), Life (shaEnv c) (.idle s) ∧ (Tree.emitDerivative (shaEnv c) pow o ts s).out = .ok (.derivative d) ∧
    d.defaultInfo.height.val = 0 ∧ anchor (Tree.emitDerivative (shaEnv c) pow o ts s).final o = some g ∧
    d.defaultInfo.previousHash ≠ g := by
  obtain ⟨s, d, h1, h2, h3, h4, h5⟩ := C118_refuted.1 (shaEnv c) nextBlock nextBlock' o (realPow 2)
    (exInfo.timestamp + 601) BEGINNING_DIFFICULTY rfl rfl trivial trivial (real_distinct c).1 (real_distinct c).2
    (by cases c <;> decide +kernel) (by cases c <;> decide +kernel)
  exact ⟨s, _, _, d, _, h1, h2, h3, h5, by rw [h4]; exact fun e => (real_distinct c).1 e.symm⟩

/-- C93 fails with SHA-256. -/
theorem C93_refuted_sha256 (c : Bool) : ∃ (s : Tree) (h : Hash) (raw : Bytes), FaultyRun (shaEnv c) s ∧
    s.main.findRawByHash h = .ok (some raw) ∧ (shaEnv c).sha256 raw ≠ h := by
  have hh : (openTree (shaEnv c) Disk.empty).final.main.getHeight = U256.one := by rw [(openTree_fresh (shaEnv c)).2]; rfl
  obtain ⟨t, ht, _, h2⟩ := C93_refuted.1 (shaEnv c) _ nextBlock nextBlock' .refl (by rw [hh]; rfl) (by rw [hh]; rfl)
    (by rw [hh]; decide) (real_distinct c).1
  exact ⟨_, _, _, .call t _ (.cut _ t _ .refl ht), h2, (real_distinct c).1.symm⟩

/-! ## C68 -/

/-- C68 fails with SHA-256. -/
theorem C68_refuted_sha256 (c little : Bool) : ∃ a b : Transaction, HashConsistent (shaEnv c) a ∧ HashConsistent (shaEnv c) b ∧
    a.eqOp b = true ∧ a.cmp little b ≠ .eq := by
  have hc : ∀ (E : Env) (t : Transaction), HashConsistent E { t with hash := E.sha256 t.dump } := fun _ _ => rfl
  obtain ⟨u, hu⟩ : ∃ u : Transaction, u = { exTx with data := some [4] } := ⟨_, rfl⟩
  have hne : (shaEnv c).sha256 exTx.dump ≠ (shaEnv c).sha256 u.dump := by subst hu; cases c <;> decide +kernel
  obtain ⟨h1, h2⟩ := C68_refuted.1 little { exTx with hash := (shaEnv c).sha256 exTx.dump }
    { u with hash := (shaEnv c).sha256 u.dump } (by rw [hu]) hne
  exact ⟨{ exTx with hash := (shaEnv c).sha256 exTx.dump }, { u with hash := (shaEnv c).sha256 u.dump }, hc _ _, hc _ _, h1, h2⟩

/-! ## C82 -/

/-- C82 fails with SHA-256: a deposit of nothing changes the summary. -/
theorem C82_refuted_sha256 (c : Bool) : ∃ (s t : Tree) (f g : Spec.Accounts), Run (shaEnv c) s ∧ Run (shaEnv c) t ∧
    Shows s.summary f ∧ Shows t.summary f ∧ Shows s.gas g ∧ Shows t.gas g ∧ s.summarize (shaEnv c) ≠ t.summarize (shaEnv c) := by
  obtain ⟨s, hs⟩ : ∃ s, s = (openTree (shaEnv c) Disk.empty).final := ⟨_, rfl⟩
  have hr : Run (shaEnv c) s := hs ▸ .fresh
  obtain ⟨t, ht, _, hrt, hsh, hgas, _⟩ := zero_deposit (shaEnv c) s exA hr (by
    rw [hs, (openTree_fresh (shaEnv c)).2]; rfl)
  have hi := run_storeInv hr
  refine ⟨s, t, _, _, hr, hrt, shows_amt hi.summary.1, hsh _ (shows_amt hi.summary.1), shows_amt hi.gas.1,
    by rw [hgas]; exact shows_amt hi.gas.1, ?_⟩
  rw [← ht, hs, (openTree_fresh (shaEnv c)).2]
  cases c <;> decide +kernel

/-! ## C88 -/

/-- C88 fails with SHA-256: one nonce opens two derivative chains. -/
theorem C88_refuted_sha256 (c : Bool) : ∃ (s : Tree) (pow : BytesN 32) (f f' : Address) (b b' : Block), Run (shaEnv c) s ∧
    f ≠ f' ∧ (Tree.emitDerivative (shaEnv c) pow f 1597924800 s).out = .ok b ∧
    (Tree.emitDerivative (shaEnv c) pow f' 1597924800 (Tree.emitDerivative (shaEnv c) pow f 1597924800 s).final).out = .ok b' := by
  obtain ⟨t, g, h1, h2, h3, h4, h5, h6, h7⟩ := real_fresh c
  have h8 : ∀ o, t.derivMem o = none := fun o => by rw [h1, (openTree_fresh (shaEnv c)).2]; rfl
  have ho : ∃ x, (Tree.emitDerivative (shaEnv c) (realPow 0) (BytesN.fill 33 1) 1597924800 t).out = .ok x := by
    have : (match (Tree.emitDerivative (shaEnv c) (realPow 0) (BytesN.fill 33 1) 1597924800 t).out with
      | .ok _ => true | _ => false) = true := by
      rw [h1, (openTree_fresh (shaEnv c)).2]; cases c <;> decide +kernel
    split at this
    · exact ⟨_, by assumption⟩
    · cases this
  obtain ⟨x, hx⟩ := ho
  obtain ⟨y, hy⟩ := C88_refuted.1 (shaEnv c) t _ _ (BytesN.fill 33 2) _ x _ (runWith_run h2) (by decide) h4 (h8 _) (h8 _) hx
  exact ⟨t, _, _, _, x, y, runWith_run h2, by decide, hx, hy⟩

/-! ## C75, C94 -/

/-- A block that makes no demand on the next one. `add_block` accepts it at its height. -/
def easyBlock (k : U256) : Block :=
  .transaction { exTxBlock with defaultInfo := { exInfo with height := k, difficulty := BytesN.fill 32 255, timestamp := 0 } }

/-- Any height can be reached with any digest, through `add_block`. -/
theorem climb (E : Env) (s0 : Tree) (hr : Run E s0) (hh : s0.main.getHeight.val = 1) (n : Nat) (hn : n + 2 < 2 ^ 256) :
    ∃ (s : Tree) (k : U256), Run E s ∧ s.main.getHeight.val = n + 2 ∧ k.val = n + 1 ∧
      s.main.getLastBlock = .ok (some (easyBlock k)) ∧ s.summary = s0.summary ∧ s.gas = s0.gas := by
  have step : ∀ s : Tree, Run E s → s.main.getHeight.val + 1 < 2 ^ 256 →
      ∃ s', Run E s' ∧ s'.main.getHeight.val = s.main.getHeight.val + 1 ∧
        s'.main.getLastBlock = .ok (some (easyBlock s.main.getHeight)) ∧ s'.summary = s.summary ∧ s'.gas = s.gas := by
    intro s hr hm
    obtain ⟨h1, h2⟩ := add_ok E s (easyBlock s.main.getHeight) rfl hm
    refine ⟨_, .call s (.addBlock (easyBlock s.main.getHeight)) hr trivial, ?_,
      (C35_last_is_newest E s _ hr hm h1).2 trivial, ?_, ?_⟩
    · rw [h2]; rfl
    · rw [h2]
    · rw [h2]
  induction n with
  | zero =>
    obtain ⟨s', h1, h2, h3, h4, h5⟩ := step s0 hr (by rw [hh]; omega)
    exact ⟨s', _, h1, by omega, hh, h3, h4, h5⟩
  | succ n ih =>
    obtain ⟨s, k, h1, h2, h3, h4, h5, h6⟩ := ih (by omega)
    obtain ⟨s', g1, g2, g3, g4, g5⟩ := step s h1 (by omega)
    exact ⟨s', _, g1, by omega, by omega, g3, g4.trans h5, g5.trans h6⟩

theorem easy_meets (E : Env) (first : Hash) (txs : List Hash) (pow : Bytes) :
    checkPow E first (BytesN.fill 32 255) txs pow = .ok true := by
  unfold checkPow
  rw [merkleRoot_eq, Outcome.ok_bind]
  have : countLeadingZeros (BytesN.fill 32 255).val = 0 := by decide +kernel
  rw [this]
  rfl

/-- With any digest the end of the epoch can be reached, the ledger being as in `s0`, and its summary block emitted. -/
theorem any_epoch (E : Env) (s0 : Tree) (hr : Run E s0) (hh : s0.main.getHeight.val = 1) (pow : BytesN 32)
    (founder : Address) : ∃ (s : Tree) (b : Block), Run E s ∧ s.main.getHeight.val = 1000000 ∧
      (Tree.emitMain E pow founder [] 600 s).out = .ok b ∧ s.summary = s0.summary ∧ s.gas = s0.gas := by
  obtain ⟨s, k, h1, h2, h3, h4, h5, h6⟩ := climb E s0 hr hh 999998 (by decide)
  have hm : s.main.getHeight.val + 1 < U256.size := by rw [h2]; decide
  obtain ⟨bs, hb⟩ := run_holds h1 hm
  have hk : ∃ height, (easyBlock k).info.height.add U256.one = .ok height ∧ height.val = 1000000 := by
    show ∃ height, k.add U256.one = .ok height ∧ _
    unfold U256.add
    rw [dif_pos (by rw [h3]; decide)]
    exact ⟨_, rfl, by show k.val + 1 = _; omega⟩
  obtain ⟨height, hk1, hk2⟩ := hk
  obtain ⟨fee, hfee, _⟩ := C26_fee (BytesN.fill 32 255)
  have hc := emitChecks_of (E := E) (s := s) (pow := pow) (founder := founder) (txs := []) (ts := 600) h4
    (easy_meets E _ _ _) (recalc_steady E 0 (BytesN.fill 32 255) (by decide)) hfee hk1
  rcases emitMain_cases hb hm pow founder [] 600 with
    ⟨out, _, _, ⟨e, _, _, r', g1, _, g3⟩ | ⟨g, _⟩⟩ | ⟨l, r, b, s', c, tr, _, _, _, _, _, _, g7, _⟩
  · rw [hc] at g1; cases g1
    exact absurd rfl (g3.mp (by rw [hk2]; decide))
  · exact absurd hc (g _)
  · exact ⟨s, b, h1, h2, by rw [g7], h5, h6⟩

/-- C94 fails with any digest: the end of an epoch in which nobody spent anything mints nothing. -/
theorem C94_refuted_any (E : Env) : ∃ (s : Tree) (b : Block) (f f' : Spec.Accounts), Run E s ∧
    s.main.getHeight.val = 1000000 ∧ (Tree.emitMain E (BytesN.fill 32 0) ROOT_PUBLIC_ADDRESS [] 600 s).out = .ok b ∧
    Shows s.summary f ∧ Spec.Total f 50010000000000000000000000 ∧
    Shows (Tree.emitMain E (BytesN.fill 32 0) ROOT_PUBLIC_ADDRESS [] 600 s).final.summary f' ∧
    Spec.Total f' 50010000000000000000000000 := by
  obtain ⟨t, _, h2, h3, _⟩ := C37_fresh_node E
  obtain ⟨s, b, k1, k2, k3, k4, _⟩ := any_epoch E t (h2 ▸ .fresh) h3 (BytesN.fill 32 0) ROOT_PUBLIC_ADDRESS
  have hc : Shows s.summary (onlyRoot 50010000000000000000000000) := by
    rw [k4]
    have hj : RunWith E JustEmit t := h2 ▸ .fresh
    exact justEmit_coins hj (by have : t.main.chain.height.val = 1 := h3; rw [this]; decide)
  have hi' := run_storeInv (.call s (.emitMain (BytesN.fill 32 0) ROOT_PUBLIC_ADDRESS [] 600) k1 trivial)
  have hsh := shows_amt hi'.summary.1
  refine ⟨s, b, _, _, k1, k2, k3, hc, total_onlyRoot _, hsh, ?_⟩
  have := C94_exact_partial E s _ _ _ _ b _ _ _ _ k1 (by rw [k2]; decide) (by rw [k2]) k3 hc (total_onlyRoot _)
    hsh (supply_total hi'.summary.1 hsh)
  have hroot : onlyRoot 50010000000000000000000000 ROOT_PUBLIC_ADDRESS.val = 50010000000000000000000000 := by
    unfold onlyRoot Spec.Accounts.update; rw [if_pos rfl]
  rw [hroot] at this
  have e := supply_total hi'.summary.1 hsh
  rw [show KV.supply _ = 50010000000000000000000000 by omega] at e
  exact e

/-- C75 fails with any digest. -/
theorem C75_refuted_any (E : Env) : ∃ (s : Tree) (b : Block) (log : List (Event (Option Unit) Node))
    (c : Config (Option Unit) Node Unit), Run E s ∧
    Exec ⟨⟨s, false⟩, emitThreads E (BytesN.fill 32 0) ROOT_PUBLIC_ADDRESS [] 600 (fun _ : Unit => .addBlock b)⟩ log c ∧
    c.threads none = .done (.err .chainAddingBlock) ∧ ¬ SameMoney s c.shared.data := by
  obtain ⟨t, _, h2, h3, _⟩ := C37_fresh_node E
  obtain ⟨t', ht'⟩ : ∃ t', t' = ((Op.setAmount ROOT_PUBLIC_ADDRESS.val U256.zero).run E t).final := ⟨_, rfl⟩
  have hr' : Run E t' := ht' ▸ .call t _ (h2 ▸ .fresh) trivial
  have hs : t' = { t with summary := t.summary.insert ROOT_PUBLIC_ADDRESS.val (Ledger.encode U256.zero) } := by
    rw [ht']
    change (Tree.onSummary (Ledger.set _ _) _).final = _
    unfold Tree.onSummary
    rw [Act.zoom_run, Ledger.set_run]
  obtain ⟨s, x, k1, k2, k3, k4, _⟩ := any_epoch E t' hr' (by rw [hs]; exact h3) (BytesN.fill 32 0) ROOT_PUBLIC_ADDRESS
  obtain ⟨log, c, e1, e2, _, e4⟩ := C75_refuted.1 E s _ _ _ x (easyBlock s.main.getHeight) k1 (by rw [k2]; decide)
    (by rw [k2]) k3 rfl
  refine ⟨s, _, log, c, k1, e1, e2, fun h => ?_⟩
  have := (h ROOT_PUBLIC_ADDRESS.val).1
  obtain ⟨a, g1, g2⟩ := e4.2
  unfold Tree.getAmount at g1
  rw [this, k4, hs] at g1
  simp only at g1
  rw [Db.get_insert, if_pos rfl, Ledger.balance_encode] at g1
  cases g1
  cases g2

end BCT.Props
