import Verif.Model.U256
/-!
# static_values.rs
-/

namespace BCT

/-- static_values.rs:25-28 `BEGINNING_DIFFICULTY`: `0x7F` followed by 31 bytes `0xFF`. -/
def BEGINNING_DIFFICULTY : Hash := ⟨0x7F :: List.replicate 31 0xFF, by simp⟩

/-- static_values.rs:30-33 `MAX_DIFFICULTY` (not used by the code). -/
def MAX_DIFFICULTY : Hash := ⟨List.replicate 31 0x00 ++ [128], by simp⟩

/-- static_values.rs:36-39 `ROOT_PUBLIC_ADDRESS`. -/
def ROOT_PUBLIC_ADDRESS : Address :=
  ⟨[3, 27, 132, 197, 86, 123, 18, 100, 64, 153, 93, 62, 213, 170, 186, 5, 101, 215, 30, 24, 52, 96,
    72, 25, 255, 156, 23, 245, 233, 213, 221, 7, 143], by decide⟩

/-- static_values.rs:41 `INCEPTION_TIMESTAMP`. -/
def INCEPTION_TIMESTAMP : UInt64 := 1597924800

/-- static_values.rs:43 `BLOCKS_PER_EPOCH`. -/
def BLOCKS_PER_EPOCH : Nat := 1000000

/-- static_values.rs:45 `TIME_PER_BLOCK`. -/
def TIME_PER_BLOCK : UInt64 := 600

/-- static_values.rs:48 `COIN_FRACTIONS`. -/
def COIN_FRACTIONS : U256 := ⟨1000000000000000000, by decide⟩
/-- static_values.rs:49 `INITIAL_FEE`. -/
def INITIAL_FEE : U256 := ⟨25000000000000000, by decide⟩
/-- static_values.rs:50 `FEE_STEP`. -/
def FEE_STEP : U256 := ⟨62500, by decide⟩
/-- static_values.rs:51 `MAIN_CHAIN_PAYMENT = INITIAL_FEE`. -/
def MAIN_CHAIN_PAYMENT : U256 := INITIAL_FEE
/-- static_values.rs:52 `COINS_PER_CYCLE = MAIN_CHAIN_PAYMENT * 2000 * BLOCKS_PER_EPOCH + COIN_FRACTIONS * 10000`. -/
def COINS_PER_CYCLE : U256 :=
  ⟨INITIAL_FEE.val * 2000 * BLOCKS_PER_EPOCH + COIN_FRACTIONS.val * 10000, by decide⟩
/-- static_values.rs:53 `BYTE_GAS_PRICE`. -/
def BYTE_GAS_PRICE : U256 := ⟨625000000000, by decide⟩

end BCT
