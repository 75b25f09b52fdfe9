import Verif.Lemmas.Blocks
/-!
# C03 (composite objects), C07 – C09, C11, C12: block serialization (block.rs)
-/

namespace BCT.Props
open BCT

/-! ## Concrete objects used as non-trivial instances -/

/-- A header at height 7 with distinguishable fields. -/
def exInfo : BasicInfo :=
  { timestamp := 1700000000, pow := BytesN.fill 32 3, previousHash := BytesN.fill 32 4,
    height := U256.ofNat 7, difficulty := BEGINNING_DIFFICULTY, founder := ROOT_PUBLIC_ADDRESS }

/-- A transaction block with two transactions. -/
def exTxBlock : TransactionBlock :=
  { fee := U256.ofNat 62500, merkleTreeRoot := BytesN.fill 32 9, defaultInfo := exInfo,
    transactions := [BytesN.fill 32 1, BytesN.fill 32 2] }

/-- A transaction block at height 0. -/
def exTxBlock0 : TransactionBlock := { exTxBlock with defaultInfo := { exInfo with height := U256.zero } }

/-- A transaction with a payload. -/
def exTx : Transaction :=
  { sender := ROOT_PUBLIC_ADDRESS, receiver := BytesN.fill 33 2, timestamp := 1700000001,
    signature := BytesN.fill 64 5, amount := U256.ofNat 1000, data := some [1, 2, 3],
    hash := BytesN.fill 32 0 }

/-! ## C03 -/

/-- C03 at full strength: announced sizes are real sizes. -/
def C03_full : Prop :=
  (∀ n : U256, u256Size n = (dumpU256 n []).length) ∧ (∀ i : BasicInfo, i.getDumpSize = (i.dump []).length) ∧
  (∀ b : Block, b.getDumpSize = b.dump.length) ∧ (∀ t : Transaction, t.getDumpSize = t.dump.length)

/-- One if the number is zero: the error `u256_size` makes. -/
def zeroErr (n : U256) : Nat := if n.val = 0 then 1 else 0

/-- C03, exact: the announced size exceeds the real size by one for every zero height, fee or amount
in the object, and is right otherwise. Missing from the full statement: objects with such a zero. -/
theorem C03_dump_sizes_partial :
    (∀ i : BasicInfo, i.getDumpSize = (i.dump []).length + zeroErr i.height) ∧
    (∀ b : TransactionBlock, b.getDumpSize = b.dump.length + zeroErr b.defaultInfo.height + zeroErr b.fee) ∧
    (∀ b : DerivativeBlock, b.getDumpSize = b.dump.length + zeroErr b.defaultInfo.height) ∧
    (∀ b : SummarizeBlock, b.getDumpSize = b.dump.length + zeroErr b.defaultInfo.height) ∧
    (∀ t : Transaction, t.getDumpSize = t.dump.length + zeroErr t.amount) := by
  have hi : ∀ i : BasicInfo, i.getDumpSize = 137 + (encU256 i.height).length + zeroErr i.height := by
    intro i
    unfold BasicInfo.getDumpSize zeroErr
    rw [u256Size_exact]; omega
  refine ⟨?_, ?_, ?_, ?_, ?_⟩
  · intro i; rw [hi, BasicInfo.dump_eq]; simp [i.fixed_length]
  · intro b
    unfold TransactionBlock.getDumpSize
    rw [hi, TransactionBlock.dump_eq, u256Size_exact]
    simp only [List.length_cons, List.length_append, b.defaultInfo.fixed_length,
      b.merkleTreeRoot.property, flat_length, zeroErr]
    omega
  · intro b
    unfold DerivativeBlock.getDumpSize
    rw [hi, DerivativeBlock.dump_eq]
    simp only [List.length_cons, List.length_append, b.defaultInfo.fixed_length]
    omega
  · intro b
    unfold SummarizeBlock.getDumpSize
    rw [hi, SummarizeBlock.dump_eq]
    simp only [List.length_cons, List.length_append, b.defaultInfo.fixed_length,
      b.merkleTreeRoot.property]
    omega
  · intro t
    unfold Transaction.getDumpSize
    rw [Transaction.dump_eq, u256Size_exact]
    simp only [List.length_cons, List.length_append, t.sender.property, t.receiver.property,
      t.signature.property, u64BE_length, zeroErr]
    cases t.data <;> simp <;> omega

/-- C03 is false of the code, for each kind of composite object. -/
theorem C03_refuted :
    (∃ i : BasicInfo, i.getDumpSize ≠ (i.dump []).length) ∧
    (∃ b : Block, b.getDumpSize ≠ b.dump.length) ∧
    (∃ t : Transaction, t.getDumpSize ≠ t.dump.length) ∧ ¬ C03_full := by
  obtain ⟨hI, hT, _, _, hX⟩ := C03_dump_sizes_partial
  have z : zeroErr U256.zero = 1 := rfl
  have h1 : exTxBlock0.defaultInfo.getDumpSize ≠ (exTxBlock0.defaultInfo.dump []).length := by
    rw [hI]; simp [exTxBlock0, z]
  refine ⟨⟨_, h1⟩, ⟨.transaction exTxBlock0, ?_⟩, ⟨{ exTx with amount := U256.zero }, ?_⟩, ?_⟩
  · show exTxBlock0.getDumpSize ≠ exTxBlock0.dump.length
    rw [hT]; simp only [exTxBlock0, z]; omega
  · rw [hX]; simp [z]
  · intro h; exact h1 (h.2.1 _)

example : exTxBlock.getDumpSize = exTxBlock.dump.length := by decide +kernel
example : exTx.getDumpSize = exTx.dump.length := by decide +kernel

/-! ## C07 -/

/-- C07. A dumped block header followed by anything parses to itself. -/
theorem C07_header_roundtrip (i : BasicInfo) (rest : Bytes) :
    BasicInfo.parse (i.dump [] ++ rest) = .ok i := BasicInfo.parse_dump i rest

example : BasicInfo.parse (exInfo.dump [] ++ [1, 2, 3]) = .ok exInfo := by decide +kernel

/-! ## C08 -/

/-- C08 at full strength. -/
def C08_full : Prop := ∀ b : TransactionBlock, TransactionBlock.parse (b.dump.drop 1) = .ok b

/-- C08, exact: a transaction block survives the round trip iff its height is not zero. Missing from
the full statement: height zero, where `parse` skips one byte too many (block.rs:200 uses
`get_dump_size`, which is off by one there). -/
theorem C08_txblock_roundtrip_partial (b : TransactionBlock) :
    TransactionBlock.parse (b.dump.drop 1) = .ok b ↔ b.defaultInfo.height.val ≠ 0 := by
  refine ⟨fun h hz => ?_, TransactionBlock.parse_dump b⟩
  exact TransactionBlock.parse_dump_zero b hz h

/-- C08 is false of the code. -/
theorem C08_refuted : ¬ C08_full := fun h =>
  (C08_txblock_roundtrip_partial exTxBlock0).mp (h exTxBlock0) rfl

example : exTxBlock.defaultInfo.height.val ≠ 0 := by decide +kernel
example : TransactionBlock.parse (exTxBlock.dump.drop 1) = .ok exTxBlock := by decide +kernel

/-! ## C09 -/

/-- C09. Summarize and derivative blocks survive the round trip, at every height. -/
theorem C09_sum_deriv_roundtrip :
    (∀ b : SummarizeBlock, SummarizeBlock.parse (b.dump.drop 1) = .ok b) ∧
    (∀ b : DerivativeBlock, DerivativeBlock.parse (b.dump.drop 1) = .ok b) :=
  ⟨SummarizeBlock.parse_dump, DerivativeBlock.parse_dump⟩

example : SummarizeBlock.parse ((⟨exInfo, BytesN.fill 32 8⟩ : SummarizeBlock).dump.drop 1) =
    .ok ⟨exInfo, BytesN.fill 32 8⟩ := by decide +kernel

/-! ## C11 -/

/-- C11 at full strength. -/
def C11_full : Prop :=
  (∀ b : Block, (∀ d, b ≠ .derivative d) → deserializeMainChainBlock b.dump = .ok b) ∧
  (∀ d : DerivativeBlock, ∃ e, deserializeMainChainBlock d.dump = .err e) ∧
  (∀ t : Transaction, ∃ e, deserializeMainChainBlock t.dump = .err e) ∧
  (∃ e, deserializeMainChainBlock [] = .err e) ∧
  (∀ h rest, h ≠ Headers.transactionBlock.toU8 → h ≠ Headers.summarizeBlock.toU8 →
    ∃ e, deserializeMainChainBlock (h :: rest) = .err e)

/-- C11 without transaction blocks of height zero (missing: exactly those, see `C11_refuted`). -/
theorem C11_main_block_read_back_partial :
    (∀ b : Block, (∀ d, b ≠ .derivative d) →
      (∀ t, b = .transaction t → t.defaultInfo.height.val ≠ 0) →
      deserializeMainChainBlock b.dump = .ok b) ∧
    (∀ d : DerivativeBlock, ∃ e, deserializeMainChainBlock d.dump = .err e) ∧
    (∀ t : Transaction, ∃ e, deserializeMainChainBlock t.dump = .err e) ∧
    (∃ e, deserializeMainChainBlock [] = .err e) ∧
    (∀ h rest, h ≠ Headers.transactionBlock.toU8 → h ≠ Headers.summarizeBlock.toU8 →
      ∃ e, deserializeMainChainBlock (h :: rest) = .err e) := by
  have key : ∀ h rest, h ≠ Headers.transactionBlock.toU8 → h ≠ Headers.summarizeBlock.toU8 →
      ∃ e, deserializeMainChainBlock (h :: rest) = .err e :=
    deserialize_foreign
  refine ⟨?_, ?_, ?_, ⟨_, rfl⟩, key⟩
  · intro b hd hh
    cases b with
    | transaction b => exact deserialize_transaction b (hh b rfl)
    | derivative d => exact absurd rfl (hd d)
    | summarize b => exact deserialize_summarize b
  · intro d; rw [DerivativeBlock.dump_eq]; exact key _ _ (by decide) (by decide)
  · intro t; rw [Transaction.dump_eq]; exact key _ _ (by decide) (by decide)

/-- C11 is false of the code at height zero: no transaction block of height zero is read back. -/
theorem C11_refuted :
    (∀ b : TransactionBlock, b.defaultInfo.height.val = 0 →
      deserializeMainChainBlock b.dump ≠ .ok (.transaction b)) ∧ ¬ C11_full := by
  have h0 : ∀ b : TransactionBlock, b.defaultInfo.height.val = 0 →
      deserializeMainChainBlock b.dump ≠ .ok (.transaction b) := deserialize_transaction_zero
  exact ⟨h0, fun h => h0 exTxBlock0 rfl (h.1 (.transaction exTxBlock0) (by simp))⟩

example : deserializeMainChainBlock exTxBlock.dump = .ok (.transaction exTxBlock) := by decide +kernel

/-! ## C12 -/

/-- C12 at full strength. -/
def C12_full : Prop := ∀ (E : Env) (data : Bytes),
  (BasicInfo.parse data).Safe ∧ (TransactionBlock.parse data).Safe ∧ (SummarizeBlock.parse data).Safe ∧
  (DerivativeBlock.parse data).Safe ∧ (Transaction.parse E data).Safe ∧
  (deserializeMainChainBlock data).Safe

/-- C12 is false of the code, for each parser. -/
theorem C12_refuted (E : Env) :
    ¬ (BasicInfo.parse (List.replicate 120 0)).Safe ∧
    ¬ (TransactionBlock.parse []).Safe ∧
    ¬ (SummarizeBlock.parse (List.replicate 150 0)).Safe ∧
    ¬ (DerivativeBlock.parse (List.replicate 120 0)).Safe ∧
    ¬ (Transaction.parse E (List.replicate 138 0 ++ [1])).Safe ∧
    ¬ (deserializeMainChainBlock [2]).Safe ∧ ¬ C12_full := by
  have hT : ¬ (TransactionBlock.parse []).Safe := by decide +kernel
  refine ⟨by decide +kernel, hT, by decide +kernel, by decide +kernel, ?_, by decide +kernel,
    fun h => hT (h E []).2.1⟩
  rw [Transaction.parse_safe_iff]
  decide +kernel

/-- C12, exact, header and the blocks made of it: safe iff too short to be looked at, or long enough and
with a height that is not cut one byte short. -/
theorem C12_header_safe_partial (data : Bytes) :
    ((BasicInfo.parse data).Safe ↔
      data.length ≤ 105 ∨ (137 ≤ data.length ∧ (loadU256 (data.drop 137)).Safe)) ∧
    ((DerivativeBlock.parse data).Safe ↔
      data.length ≤ 105 ∨ (137 ≤ data.length ∧ (loadU256 (data.drop 137)).Safe)) ∧
    ((SummarizeBlock.parse data).Safe ↔
      data.length ≤ 137 ∨ (169 ≤ data.length ∧ (loadU256 (data.drop 169)).Safe)) :=
  ⟨BasicInfo.parse_safe_iff data, DerivativeBlock.parse_safe_iff data, SummarizeBlock.parse_safe_iff data⟩

/-- C12, exact, transactions. -/
theorem C12_transaction_safe_partial (E : Env) (data : Bytes) :
    (Transaction.parse E data).Safe ↔ data.length < 139 ∨ (loadU256 (data.drop 138)).Safe :=
  Transaction.parse_safe_iff E data

/-- C12, exact, transaction blocks. -/
theorem C12_txblock_safe_partial (data : Bytes) :
    (TransactionBlock.parse data).Safe ↔
      32 ≤ data.length ∧ (BasicInfo.parse (data.drop 32)).Safe ∧
      ∀ i, BasicInfo.parse (data.drop 32) = .ok i →
        32 + i.getDumpSize ≤ data.length ∧ (loadU256 (data.drop (32 + i.getDumpSize))).Safe :=
  TransactionBlock.parse_safe_iff data

/-- C12, exact, stored blocks: safe iff there is nothing to read, or the header is that of another object, or the
block's own parser is safe on the rest. -/
theorem C12_stored_safe_partial (data : Bytes) :
    (deserializeMainChainBlock data).Safe ↔
      (∀ rest, data = Headers.transactionBlock.toU8 :: rest → (TransactionBlock.parse rest).Safe) ∧
      (∀ rest, data = Headers.summarizeBlock.toU8 :: rest → (SummarizeBlock.parse rest).Safe) := by
  cases data with
  | nil => simp [deserializeMainChainBlock]
  | cons h rest =>
    simp only [List.cons.injEq]
    by_cases h2 : h = Headers.transactionBlock.toU8
    · subst h2
      rw [deserialize_tx_cons, Outcome.safe_bind_iff]
      refine ⟨fun hs => ⟨fun r hr => hr.2 ▸ hs.1, fun r hr => absurd hr.1 (by decide)⟩, fun hs =>
        ⟨hs.1 rest ⟨rfl, rfl⟩, fun _ _ => trivial⟩⟩
    · by_cases h4 : h = Headers.summarizeBlock.toU8
      · subst h4
        rw [deserialize_sum_cons, Outcome.safe_bind_iff]
        refine ⟨fun hs => ⟨fun r hr => absurd hr.1 (by decide), fun r hr => hr.2 ▸ hs.1⟩, fun hs =>
          ⟨hs.2 rest ⟨rfl, rfl⟩, fun _ _ => trivial⟩⟩
      · obtain ⟨e, he⟩ := deserialize_foreign h rest h2 h4
        rw [he]
        exact ⟨fun _ => ⟨fun r hr => absurd hr.1 h2, fun r hr => absurd hr.1 h4⟩, fun _ => trivial⟩

example : (BasicInfo.parse (exInfo.dump [])).Safe := by decide +kernel
example : 137 ≤ (exInfo.dump []).length ∧ (loadU256 ((exInfo.dump []).drop 137)).Safe := by decide +kernel

end BCT.Props
