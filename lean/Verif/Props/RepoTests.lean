import Verif.Model.System
import Verif.Model.Sha256
/-!
# The repository's own tests, run on the model

Every assertion of the test suite that the model covers, evaluated with the real digest. These are tests of the model,
not proofs of anything; they show that the model computes what the authors of the code observed.

Left out: `sign_verify_transaction` (random keys; its general form is C14), `merkle_tree_test` and `hash_transaction`
(they print and assert nothing). `tests/tools_test.rs` calls `check_pow` with three arguments and does not compile
against `src/tools.rs`; its data is used below for the part the old and the new function share.
-/

namespace BCT.RepoTests
open BCT

def E : Env := shaEnv true

/-! ## src/tools.rs -/

/-- tools.rs:260-280 `dump_load_u256`. -/
example : (loadU256 (dumpU256 ⟨10000000000000000000001000000001, by decide⟩ [])) =
    .ok (⟨10000000000000000000001000000001, by decide⟩, 13) := by decide +kernel

def ff (first : List UInt8) (n : Nat) (h : (first ++ List.replicate n 0xFF).length = 32) : Hash :=
  ⟨first ++ List.replicate n 0xFF, h⟩

/-- tools.rs:283-351 `recalculate_difficulty_test`. -/
example : recalculateDifficulty E 10 20 (ff [0x7F] 31 rfl) = .ok (ff [0x3F] 31 rfl) := by decide +kernel
example : recalculateDifficulty E 10 20 (ff [0x00] 31 rfl) = .ok (ff [0x00, 0x7F] 30 rfl) := by decide +kernel
example : recalculateDifficulty E 10 700 (ff [0x7F] 31 rfl) = .ok (ff [0x7F] 31 rfl) := by decide +kernel
example : recalculateDifficulty E 10 700 (ff [0x00] 31 rfl) = .ok (ff [0x01] 31 rfl) := by decide +kernel
example : recalculateDifficulty E 10 700 (ff [0x01] 31 rfl) = .ok (ff [0x03] 31 rfl) := by decide +kernel

/-! ## tests/tools_test.rs -/

def powHash : Bytes :=
  [0x98, 0x2D, 0x9E, 0x3E, 0xB9, 0x96, 0xF5, 0x59, 0xE6, 0x33, 0xF4, 0xD1, 0x94, 0xDE, 0xF3,
   0x76, 0x1D, 0x90, 0x9F, 0x5A, 0x3B, 0x64, 0x7D, 0x1A, 0x85, 0x1F, 0xEA, 0xD6, 0x7C, 0x32,
   0xC9, 0xD1]

/-- `check_pow_test`: too few leading zeros, and enough. -/
example : ¬ countLeadingZeros (ff [0x0F] 31 rfl).val ≤ countLeadingZeros (E.sha256 (powHash ++
    [0x0, 0x7A, 0x9, 0xDE, 0x81, 0x32, 0x58, 0x4F, 0x6D, 0xE8])).val := by decide +kernel
example : countLeadingZeros (ff [0x0F] 31 rfl).val ≤ countLeadingZeros (E.sha256 (powHash ++
    [0x3A, 0x91, 0x24, 0x45, 0xC9, 0x65, 0x60, 0xD5, 0x1E, 0x69])).val := by decide +kernel

/-! ## tests/block_test.rs -/

def basicData : BasicInfo :=
  { timestamp := 160000, pow := BytesN.fill 32 0, previousHash := BytesN.fill 32 5,
    height := ⟨6378216378216387213672813821736, by decide⟩, difficulty := BytesN.fill 32 101,
    founder := BytesN.fill 33 6 }

/-- `dump_parse_basic_info`. -/
example : BasicInfo.parse (basicData.dump []) = .ok basicData := by decide +kernel

def block : TransactionBlock :=
  { fee := ⟨9089878746387246532, by decide⟩, defaultInfo := basicData, merkleTreeRoot := BytesN.fill 32 5,
    transactions := [BytesN.fill 32 1, BytesN.fill 32 2, BytesN.fill 32 3] }

/-- `dump_parse_block`. -/
example : TransactionBlock.parse (block.dump.drop 1) = .ok block := by decide +kernel

/-- `dump_parse_summarize_block`. -/
example : SummarizeBlock.parse (SummarizeBlock.dump ⟨basicData, BytesN.fill 32 5⟩ |>.drop 1) =
    .ok ⟨basicData, BytesN.fill 32 5⟩ := by decide +kernel

def prevBlock : TransactionBlock :=
  { block with defaultInfo := { basicData with height := U256.one } }

/-- `validate_block_test`. -/
example : TransactionBlock.validate E { block with defaultInfo :=
    { basicData with height := ⟨2, by decide⟩, previousHash := prevBlock.hash E } } (some (.transaction prevBlock)) =
    .ok false := by decide +kernel

def derivData : BasicInfo := { basicData with previousHash := BytesN.fill 32 0, height := ⟨2, by decide⟩ }

/-- `dump_parse_derivative_block`. -/
example : DerivativeBlock.parse (DerivativeBlock.dump ⟨derivData⟩ |>.drop 1) = .ok ⟨derivData⟩ := by decide +kernel

/-- `validate_derivative_block`. -/
example : DerivativeBlock.validate E ⟨derivData⟩ (some (.derivative ⟨derivData⟩)) = .ok false := by decide +kernel

/-! ## tests/transaction_test.rs -/

def transaction : Transaction :=
  .newSigned E (BytesN.fill 33 0) (BytesN.fill 33 20) 100 ⟨3627836287, by decide⟩ none (BytesN.fill 64 33)

/-- `dump_parse_transaction`. -/
example : Transaction.parse E (transaction.dump.drop 1) = .ok transaction := by decide +kernel

/-! ## tests/blockchaintree_test.rs -/

def n10 : U256 := ⟨10000000000, by decide⟩
def n100 : U256 := ⟨100, by decide⟩
def addressA : Address := BytesN.fill 33 0
def addressB : Address := BytesN.fill 33 1
def funded : Tree := (Op.run E (.addAmount addressA.val n10) (openTree E Disk.empty).final).final
def sent : Tree := (Op.run E (.sendAmount addressA.val addressB.val n100) funded).final

/-- `test_amounts`. -/
example : funded.getAmount addressA = .ok n10 := by decide +kernel
example : (Op.run E (.sendAmount addressA.val addressB.val n100) funded).out = .ok () ∧
    sent.getAmount addressA = .ok ⟨10000000000 - 100, by decide⟩ ∧ sent.getAmount addressB = .ok n100 := by decide +kernel

/-! ## tests/chain_test.rs -/

def reopened : Tree := (openTree E (Op.run E .mainFlush (openTree E Disk.empty).final).final.close).final

def mainBlock : TransactionBlock :=
  { fee := U256.one, defaultInfo := { basicData with previousHash := BytesN.fill 32 0, height := reopened.main.getHeight },
    merkleTreeRoot := BytesN.fill 32 0, transactions := [BytesN.fill 32 0, BytesN.fill 32 1] }

/-- `init_flush_get_block_by_height_chain_test`. -/
example : (Op.run E (.addBlock (.transaction mainBlock)) reopened).out = .ok () ∧
    (Op.run E (.addBlock (.transaction mainBlock)) reopened).final.main.getHeight = ⟨2, by decide⟩ ∧
    (Op.run E (.addBlock (.transaction mainBlock)) reopened).final.main.findByHeight U256.one =
      .ok (some (.transaction mainBlock)) := by decide +kernel

def transaction2 : Transaction :=
  .newSigned E (BytesN.fill 33 20) (BytesN.fill 33 20) 100 ⟨3627836287, by decide⟩ (some [228, 123]) (BytesN.fill 64 33)

/-- `init_get_transaction_chain_test`. -/
example : (Op.run E (.addTransactions [transaction2]) (openTree E Disk.empty).final).out = .ok () ∧
    (Op.run E (.addTransactions [transaction2]) (openTree E Disk.empty).final).final.main.getTransaction E
      (E.sha256 transaction2.dump) = .ok (some transaction2) := by decide +kernel

def derivGenesis : Hash :=
  ⟨[57, 26, 43, 126, 188, 137, 234, 205, 234, 97, 128, 221, 242, 186, 198, 206, 3, 25, 250,
    35, 169, 60, 208, 8, 94, 13, 60, 218, 72, 73, 207, 80], rfl⟩

def derivBlock : DerivativeBlock := ⟨{ derivData with height := U256.zero }⟩

/-- `init_flush_get_block_by_height_deriv_chain_test`. -/
example : (do
    let c ← DerivativeChain.new derivGenesis (Db.open' KV.empty) (Db.open' KV.empty) none
    let f := (DerivativeChain.flush c).final
    let c ← DerivativeChain.new derivGenesis (Db.open' f.chain.blocks.cur) (Db.open' f.chain.heightReference.cur)
      f.chain.config
    ((DerivativeChain.addBlock E derivBlock c).final).findByHeight U256.zero) = .ok (some derivBlock) := by
  decide +kernel

end BCT.RepoTests
