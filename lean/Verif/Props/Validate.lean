import Verif.Props.Pow
import Verif.Props.Blocks
/-!
# C27 – C29: block validation (block.rs)
-/

namespace BCT.Props
open BCT

/-- The nonce meets the difficulty: the digest of `first`, the Merkle root of `txs` and the nonce needs at
most as many bits as `difficulty`. -/
def MeetsPow (E : Env) (first difficulty : Hash) (txs : List Hash) (pow : Bytes) : Prop :=
  ∃ p kd kr, Spec.IsNextPower txs.length p ∧ Spec.IsBitLength (Spec.value difficulty.val) kd ∧
    Spec.IsBitLength (Spec.value (E.sha256 (first.val ++
      (Spec.perfectRoot (specParent E) specPad p (Spec.padTo specPad (2 ^ p) txs)).val ++ pow)).val) kr ∧
    kr ≤ kd

/-- `root` is the Merkle root of `txs`. -/
def IsMerkleRoot (E : Env) (txs : List Hash) (root : Hash) : Prop :=
  ∃ p, Spec.IsNextPower txs.length p ∧
    root = Spec.perfectRoot (specParent E) specPad p (Spec.padTo specPad (2 ^ p) txs)

theorem checkPow_iff (E : Env) (first difficulty : Hash) (txs : List Hash) (pow : Bytes) :
    checkPow E first difficulty txs pow = .ok true ↔ MeetsPow E first difficulty txs pow := by
  obtain ⟨p, kd, kr, hp, hd, hr, h⟩ := C22_check_pow E first difficulty txs pow
  rw [h]
  constructor
  · intro he
    exact ⟨p, kd, kr, hp, hd, hr, by simpa using he⟩
  · rintro ⟨p', kd', kr', hp', hd', hr', hle⟩
    have := isNextPower_unique hp hp'
    subst this
    have := isBitLength_unique hd hd'
    subst this
    have := isBitLength_unique hr hr'
    subst this
    simpa using hle

theorem merkleRoot_iff (E : Env) (txs : List Hash) (root : Hash) :
    merkleRoot E txs = .ok root ↔ IsMerkleRoot E txs root := by
  obtain ⟨t, p, _, hp, _, h, _⟩ := C17_merkle_root E txs
  rw [h]
  constructor
  · intro he; cases he; exact ⟨p, hp, rfl⟩
  · rintro ⟨p', hp', rfl⟩
    have := isNextPower_unique hp hp'
    subst this
    rfl

/-! ## C27 -/

/-- C27. Validation of a transaction block against a predecessor. -/
theorem C27_txblock_validate (E : Env) (b : TransactionBlock) (prev : Block) :
    b.validate E (some prev) = .ok true ↔
      b.defaultInfo.previousHash = E.sha256 prev.dump ∧
      IsMerkleRoot E b.transactions b.merkleTreeRoot ∧
      recalculateDifficulty E prev.info.timestamp b.defaultInfo.timestamp prev.info.difficulty =
        .ok b.defaultInfo.difficulty ∧
      MeetsPow E b.merkleTreeRoot prev.info.difficulty b.transactions b.defaultInfo.pow.val := by
  rw [← checkPow_iff, ← merkleRoot_iff]
  rw [← show Block.hash E prev = E.sha256 prev.dump from rfl]
  unfold TransactionBlock.validate
  simp only
  by_cases h1 : b.defaultInfo.previousHash = Block.hash E prev
  · rw [if_neg (by simpa using h1), merkleRoot_eq, Outcome.ok_bind]
    by_cases h2 : b.merkleTreeRoot = merkleRootT E b.transactions
    · rw [if_neg (by simpa using h2)]
      cases h3 : recalculateDifficulty E prev.info.timestamp b.defaultInfo.timestamp prev.info.difficulty with
      | ok d =>
        simp only [Outcome.ok_bind]
        by_cases h4 : b.defaultInfo.difficulty = d
        · rw [if_neg (by simpa using h4)]
          simp [h1, h2, h4]
        · rw [if_pos (by simpa using h4)]
          simp only [Outcome.ok.injEq]
          constructor
          · intro h; cases h
          · rintro ⟨_, _, h, _⟩; exact absurd h.symm h4
      | err e => simp
      | panic e => simp
      | ub => simp
    · rw [if_pos (by simpa using h2)]
      simp only [Outcome.ok.injEq]
      constructor
      · intro h; cases h
      · rintro ⟨_, h, _⟩; exact absurd h.symm h2
  · rw [if_pos (by simpa using h1)]
    simp [h1]

/-- C27. Validation of a summarize block against a predecessor: no Merkle clause; its proof of work is
computed with no transactions. -/
theorem C27_sumblock_validate (E : Env) (b : SummarizeBlock) (prev : Block) :
    b.validate E (some prev) = .ok true ↔
      b.defaultInfo.previousHash = E.sha256 prev.dump ∧
      recalculateDifficulty E prev.info.timestamp b.defaultInfo.timestamp prev.info.difficulty =
        .ok b.defaultInfo.difficulty ∧
      MeetsPow E b.merkleTreeRoot prev.info.difficulty [] b.defaultInfo.pow.val := by
  rw [← checkPow_iff]
  rw [← show Block.hash E prev = E.sha256 prev.dump from rfl]
  unfold SummarizeBlock.validate
  simp only
  by_cases h1 : b.defaultInfo.previousHash = Block.hash E prev
  · rw [if_neg (by simpa using h1)]
    cases h3 : recalculateDifficulty E prev.info.timestamp b.defaultInfo.timestamp prev.info.difficulty with
    | ok d =>
      simp only [Outcome.ok_bind]
      by_cases h4 : b.defaultInfo.difficulty = d
      · rw [if_neg (by simpa using h4)]
        simp [h1, h4]
      · rw [if_pos (by simpa using h4)]
        simp only [Outcome.ok.injEq]
        constructor
        · intro h; cases h
        · rintro ⟨_, h, _⟩; exact absurd h.symm h4
    | err e => simp
    | panic e => simp
    | ub => simp
  · rw [if_pos (by simpa using h1)]
    simp [h1]

/-- C27. Without predecessor every block is accepted. -/
theorem C27_no_predecessor (E : Env) (b : Block) : b.validate E none = .ok true := by
  cases b <;> rfl

/-- C27. `verify_block` is the link rule, for all three kinds of blocks: it accepts exactly the hash the block names as
that of its predecessor; a block it rejects is reported invalid, and a valid block is linked. -/
theorem C27_verify_block (E : Env) (b : Block) (h : Hash) (prev : Block) :
    (b.verifyBlock h = true ↔ b.info.previousHash = h) ∧
    (b.verifyBlock (E.sha256 prev.dump) = false → b.validate E (some prev) = .ok false) ∧
    (b.validate E (some prev) = .ok true → b.verifyBlock (E.sha256 prev.dump) = true) := by
  have h1 : ∀ h, b.verifyBlock h = true ↔ b.info.previousHash = h := fun h => by
    unfold Block.verifyBlock; exact decide_eq_true_iff
  have h2 : b.verifyBlock (E.sha256 prev.dump) = false → b.validate E (some prev) = .ok false := by
    intro hf
    have hne : b.info.previousHash ≠ Block.hash E prev := fun e => by
      have := (h1 (E.sha256 prev.dump)).mpr e
      rw [this] at hf; cases hf
    cases b with
    | transaction b =>
      change TransactionBlock.validate E b (some prev) = _
      unfold TransactionBlock.validate
      simp only
      exact if_pos hne
    | derivative b =>
      change DerivativeBlock.validate E b (some prev) = _
      unfold DerivativeBlock.validate
      simp only
      exact if_pos hne
    | summarize b =>
      change SummarizeBlock.validate E b (some prev) = _
      unfold SummarizeBlock.validate
      simp only
      exact if_pos hne
  refine ⟨h1 h, h2, fun hv => ?_⟩
  cases hb : b.verifyBlock (E.sha256 prev.dump) with
  | true => rfl
  | false => rw [h2 hb] at hv; cases hv

/-- A validating block exists: constant digest, block 600 s after its predecessor. -/
def zeroEnv : Env := ⟨fun _ => BytesN.fill 32 0, true⟩

/-- Predecessor of `validBlock`. -/
def validPrev : Block := .transaction exTxBlock

/-- A block that validates against `validPrev` under `zeroEnv`. -/
def validBlock : TransactionBlock :=
  { fee := U256.ofNat 62500, merkleTreeRoot := BytesN.fill 32 0,
    defaultInfo := { exInfo with previousHash := BytesN.fill 32 0, height := U256.ofNat 8,
                                 timestamp := 1700000600 },
    transactions := [BytesN.fill 32 1] }

theorem validBlock_validates : validBlock.validate zeroEnv (some validPrev) = .ok true := by
  unfold TransactionBlock.validate
  have hr : merkleRoot zeroEnv validBlock.transactions = .ok (BytesN.fill 32 0) := by
    rw [merkleRoot_eq]
    have : findClosestPowerOf2 validBlock.transactions.length = 1 := by
      simp [validBlock, findClosestPowerOf2, closestPowerLoop]
    unfold merkleRootT
    rw [this]; rfl
  simp only
  rw [if_neg (by simp [validBlock, Block.hash, zeroEnv]), hr, Outcome.ok_bind]
  rw [if_neg (by simp [validBlock])]
  have hd : recalculateDifficulty zeroEnv validPrev.info.timestamp validBlock.defaultInfo.timestamp
      validPrev.info.difficulty = .ok BEGINNING_DIFFICULTY := by decide +kernel
  rw [hd, Outcome.ok_bind, if_neg (by simp [validBlock, exInfo])]
  unfold checkPow
  rw [hr, Outcome.ok_bind]
  decide +kernel

/-! ## C28 -/

/-- C28 at full strength, for transaction blocks. -/
def C28_full : Prop := ∀ (E : Env) (b : TransactionBlock) (prev : Block),
  b.validate E (some prev) = .ok true →
    b.defaultInfo.height.val = prev.info.height.val + 1 ∧ recalculateFee b.defaultInfo.difficulty = .ok b.fee

/-- C28 is false of the code: a validating block still validates after replacing its height, fee and
founder by anything. -/
theorem C28_refuted :
    (∀ (E : Env) (b : TransactionBlock) (prev : Block) (height fee : U256) (founder : Address),
      TransactionBlock.validate E { b with fee := fee, defaultInfo :=
          { b.defaultInfo with height := height, founder := founder } } (some prev) =
        b.validate E (some prev)) ∧
    (∀ (E : Env) (b : SummarizeBlock) (prev : Block) (height : U256) (founder : Address) (root : Hash),
      b.validate E (some prev) = .ok true → MeetsPow E root prev.info.difficulty [] b.defaultInfo.pow.val →
      SummarizeBlock.validate E { b with merkleTreeRoot := root, defaultInfo :=
          { b.defaultInfo with height := height, founder := founder } } (some prev) = .ok true) ∧
    ¬ C28_full := by
  have key : ∀ (E : Env) (b : TransactionBlock) (prev : Block) (height fee : U256) (founder : Address),
      TransactionBlock.validate E { b with fee := fee, defaultInfo :=
          { b.defaultInfo with height := height, founder := founder } } (some prev) =
        b.validate E (some prev) := fun _ _ _ _ _ _ => rfl
  refine ⟨key, ?_, ?_⟩
  · intro E b prev height founder root hv hp
    rw [C27_sumblock_validate] at hv ⊢
    exact ⟨hv.1, hv.2.1, hp⟩
  · intro h
    have h1 := key zeroEnv validBlock validPrev U256.zero U256.zero ROOT_PUBLIC_ADDRESS
    rw [validBlock_validates] at h1
    have := (h zeroEnv _ _ h1).1
    revert this; decide +kernel

/-- C28, what validation does pin down (missing: height, fee and founder, see `C28_refuted`): two
transaction blocks that validate against the same predecessor and carry the same timestamp have the
same previous hash and the same difficulty, and equal transaction lists give equal Merkle roots. -/
theorem C28_pinned_partial (E : Env) (a b : TransactionBlock) (prev : Block)
    (ha : a.validate E (some prev) = .ok true) (hb : b.validate E (some prev) = .ok true)
    (ht : a.defaultInfo.timestamp = b.defaultInfo.timestamp) :
    a.defaultInfo.previousHash = b.defaultInfo.previousHash ∧
    a.defaultInfo.difficulty = b.defaultInfo.difficulty ∧
    (a.transactions = b.transactions → a.merkleTreeRoot = b.merkleTreeRoot) := by
  rw [C27_txblock_validate] at ha hb
  obtain ⟨a1, a2, a3, _⟩ := ha
  obtain ⟨b1, b2, b3, _⟩ := hb
  refine ⟨a1.trans b1.symm, ?_, ?_⟩
  · rw [ht, b3] at a3; exact (Outcome.ok.inj a3).symm
  · intro he
    rw [← merkleRoot_iff] at a2 b2
    rw [he, b2] at a2; exact (Outcome.ok.inj a2).symm

/-! ## C29 -/

/-- C29 at full strength: some derivative block with a predecessor validates. -/
def C29_full : Prop := ∀ (E : Env) (b : DerivativeBlock) (prev : Block),
  b.defaultInfo.previousHash = E.sha256 prev.dump →
  recalculateDifficulty E prev.info.timestamp b.defaultInfo.timestamp prev.info.difficulty =
    .ok b.defaultInfo.difficulty →
  MeetsPow E b.defaultInfo.previousHash prev.info.difficulty [] b.defaultInfo.pow.val →
  b.validate E (some prev) = .ok true

/-- C29 is false of the code: no derivative block with a predecessor ever validates. -/
theorem C29_never_valid (E : Env) (b : DerivativeBlock) (prev : Block) :
    b.validate E (some prev) ≠ .ok true := by
  unfold DerivativeBlock.validate
  simp only [Block.merkleRoot]
  split
  · simp
  · cases recalculateDifficulty E prev.info.timestamp b.defaultInfo.timestamp prev.info.difficulty with
    | ok d => simp only [Outcome.ok_bind]; split <;> simp
    | err e => simp
    | panic e => simp
    | ub => simp

/-- C29, exact: a block that satisfies the link and difficulty rules makes the node panic; one that
breaks the link rule, or whose difficulty is not the recalculated one, is reported invalid; if the recalculation
panics, so does the call (missing: any block reported valid). -/
theorem C29_validate_partial (E : Env) (b : DerivativeBlock) (prev : Block) :
    (b.defaultInfo.previousHash ≠ E.sha256 prev.dump → b.validate E (some prev) = .ok false) ∧
    (b.defaultInfo.previousHash = E.sha256 prev.dump →
      recalculateDifficulty E prev.info.timestamp b.defaultInfo.timestamp prev.info.difficulty =
        .ok b.defaultInfo.difficulty → b.validate E (some prev) = .panic .unimplemented) ∧
    (b.defaultInfo.previousHash = E.sha256 prev.dump → ∀ d,
      recalculateDifficulty E prev.info.timestamp b.defaultInfo.timestamp prev.info.difficulty = .ok d →
      d ≠ b.defaultInfo.difficulty → b.validate E (some prev) = .ok false) ∧
    (b.defaultInfo.previousHash = E.sha256 prev.dump → ∀ p,
      recalculateDifficulty E prev.info.timestamp b.defaultInfo.timestamp prev.info.difficulty = .panic p →
      b.validate E (some prev) = .panic p) ∧
    b.validate E none = .ok true := by
  rw [← show Block.hash E prev = E.sha256 prev.dump from rfl]
  refine ⟨fun h => ?_, fun h1 h2 => ?_, fun h1 d h2 h3 => ?_, fun h1 p h2 => ?_, rfl⟩
  · unfold DerivativeBlock.validate; simp only; rw [if_pos h]
  · unfold DerivativeBlock.validate
    simp only
    rw [if_neg (by simpa using h1), h2]
    simp [Block.merkleRoot]
  · unfold DerivativeBlock.validate
    simp only
    rw [if_neg (by simpa using h1), h2]
    simp [Ne.symm h3]
  · unfold DerivativeBlock.validate
    simp only
    rw [if_neg (by simpa using h1), h2]
    rfl

/-- A derivative block that satisfies every rule. -/
def exDeriv : DerivativeBlock := ⟨validBlock.defaultInfo⟩

theorem C29_refuted : ¬ C29_full := by
  intro h
  refine C29_never_valid zeroEnv exDeriv validPrev (h _ _ _ (by rfl) (by decide +kernel) ?_)
  rw [← checkPow_iff]
  unfold checkPow
  rw [C17_empty_root]
  rfl

end BCT.Props
