import Verif.Props.Wire
import Verif.Lemmas.NodeBook
/-!
# C142: the getters of a block and its bytes
-/

namespace BCT.Props
open BCT

/-- What the getters of each kind of block say, against the parts of its dump that the kinds do not share: the first byte,
the root, the fee and the list of transactions. -/
def SaysKind (b : Block) (header : UInt8) (root fee listing : Bytes) : Prop :=
  (header = 2 ∧ b.type = .transactionBlock ∧ (∃ r, b.merkleRoot = .ok r ∧ root = r.val) ∧
    fee = Spec.amountBytes b.fee.val ∧ ∃ l, b.transactions = some l ∧ listing = (l.map (·.val)).flatten) ∨
  (header = 3 ∧ b.type = .derivativeBlock ∧ b.merkleRoot = .panic .unimplemented ∧ root = [] ∧
    b.fee.val = 0 ∧ fee = [] ∧ b.transactions = none ∧ listing = []) ∨
  (header = 4 ∧ b.type = .summarizeBlock ∧ (∃ r, b.merkleRoot = .ok r ∧ root = r.val) ∧
    b.fee.val = 0 ∧ fee = [] ∧ b.transactions = none ∧ listing = [])

/-- C142. The dump of a block is the byte of its kind, its root, the eight bytes of its timestamp, the previous hash, the
nonce, the difficulty, the founder, the height, the fee and the transactions, each as the getters say. The first byte
is read back as the kind the getter names. A derivative block has no root; its getter panics. -/
theorem C142_getters (b : Block) : ∃ (header : UInt8) (root ts fee listing : Bytes),
    b.dump = header :: (root ++ (ts ++ (b.info.previousHash.val ++ (b.info.pow.val ++ (b.info.difficulty.val ++
      (b.founder.val ++ (Spec.amountBytes b.info.height.val ++ (fee ++ listing)))))))) ∧
    ts.length = 8 ∧ Spec.value ts = b.info.timestamp.toNat ∧ SaysKind b header root fee listing ∧
    Headers.fromU8 header = .ok b.type ∧ ∀ prev : Hash, b.verifyBlock prev = true ↔ b.info.previousHash = prev := by
  have hts := fun t => (timestamp_iff t (u64BE t)).mpr rfl
  cases b with
  | transaction b =>
    refine ⟨2, b.merkleTreeRoot.val, u64BE b.defaultInfo.timestamp, Spec.amountBytes b.fee.val, _, ?_, (hts _).1, (hts _).2,
      .inl ⟨rfl, rfl, ⟨_, rfl, rfl⟩, rfl, _, rfl, rfl⟩, rfl, fun prev => by simp [Block.verifyBlock]⟩
    show b.dump = _
    rw [TransactionBlock.dump_eq, ← amountBytes_eq, ← amountBytes_eq, BasicInfo.fixed]
    simp only [List.append_assoc]
    rfl
  | derivative b =>
    refine ⟨3, [], u64BE b.defaultInfo.timestamp, [], [], ?_, (hts _).1, (hts _).2,
      .inr (.inl ⟨rfl, rfl, rfl, rfl, rfl, rfl, rfl, rfl⟩), rfl, fun prev => by simp [Block.verifyBlock]⟩
    show b.dump = _
    rw [DerivativeBlock.dump_eq, ← amountBytes_eq, BasicInfo.fixed]
    simp only [List.append_assoc, List.append_nil, List.nil_append]
    rfl
  | summarize b =>
    refine ⟨4, b.merkleTreeRoot.val, u64BE b.defaultInfo.timestamp, [], [], ?_, (hts _).1, (hts _).2,
      .inr (.inr ⟨rfl, rfl, ⟨_, rfl, rfl⟩, rfl, rfl, rfl, rfl⟩), rfl, fun prev => by simp [Block.verifyBlock]⟩
    show b.dump = _
    rw [SummarizeBlock.dump_eq, ← amountBytes_eq, BasicInfo.fixed]
    simp only [List.append_assoc, List.append_nil]
    rfl

/-- A case: the header of a block with two transactions and a fee of 62500. -/
example : let b := Block.transaction ⟨U256.ofNat 62500, BytesN.fill 32 7, exInfo, [BytesN.fill 32 1, BytesN.fill 32 2]⟩
    b.dump.head? = some 2 ∧ b.fee.val = 62500 ∧ (b.transactions.getD []).length = 2 := by
  decide +kernel

end BCT.Props
