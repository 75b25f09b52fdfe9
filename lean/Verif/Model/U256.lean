import Verif.Model.Base
/-!
# `primitive_types::U256`

The crate stores four little-endian `u64` limbs. The model is the number itself, below `2^256`.
`+`, `-`, `*` and their assigning forms panic on overflow in every build profile
(`panic_on_overflow!` of the `uint` crate).
-/

namespace BCT

/-- `2^256`. -/
def U256.size : Nat := 2 ^ 256

/-- `primitive_types::U256`. -/
structure U256 where
  val : Nat
  lt : val < U256.size

namespace U256

@[ext] theorem ext {a b : U256} (h : a.val = b.val) : a = b := by
  cases a; cases b; cases h; rfl

instance : DecidableEq U256 := fun a b =>
  if h : a.val = b.val then isTrue (ext h) else isFalse (fun e => h (e ▸ rfl))

/-- `U256::from(n)` for literals and machine integers; the model only uses it below the bound. -/
def ofNat (n : Nat) : U256 := ⟨n % size, Nat.mod_lt _ (by decide)⟩

/-- `U256::zero()`. -/
def zero : U256 := ⟨0, by decide⟩
/-- `U256::one()`. -/
def one : U256 := ⟨1, by decide⟩

/-- `a + b`, `a += b`: panics on overflow. -/
def add (a b : U256) : Outcome U256 :=
  if h : a.val + b.val < size then .ok ⟨a.val + b.val, h⟩ else .panic .overflow

/-- `a - b`, `a -= b`: panics on underflow. -/
def sub (a b : U256) : Outcome U256 :=
  if b.val ≤ a.val then .ok ⟨a.val - b.val, Nat.lt_of_le_of_lt (Nat.sub_le _ _) a.lt⟩
  else .panic .overflow

/-- `a * n` for an integer `n`: panics on overflow. -/
def mulNat (a : U256) (n : Nat) : Outcome U256 :=
  if h : a.val * n < size then .ok ⟨a.val * n, h⟩ else .panic .overflow

/-- `U256::bits()`: the bit length. -/
def bits (a : U256) : Nat := if a.val = 0 then 0 else a.val.log2 + 1

end U256

/-- The `k` low-order bytes of `n`, most significant first (`u64::to_be_bytes` for `k = 8`,
`U256::to_big_endian` for `k = 32`). -/
def beBytes : Nat → Nat → Bytes
  | 0, _ => []
  | k + 1, n => UInt8.ofNat (n / 256 ^ k) :: beBytes k n

@[simp] theorem beBytes_length (k n : Nat) : (beBytes k n).length = k := by
  induction k with
  | zero => rfl
  | succ k ih => simp [beBytes, ih]

/-- The value of a byte string read as a big-endian number. -/
def beNat (b : Bytes) : Nat := b.foldl (fun acc x => acc * 256 + x.toNat) 0

theorem foldl_be_lt (b : Bytes) (acc : Nat) :
    b.foldl (fun acc x => acc * 256 + x.toNat) acc < (acc + 1) * 256 ^ b.length := by
  induction b generalizing acc with
  | nil => simp
  | cons x xs ih =>
    have h := ih (acc * 256 + x.toNat)
    have hx : x.toNat < 256 := x.toNat_lt
    have : (acc * 256 + x.toNat + 1) * 256 ^ xs.length ≤ (acc + 1) * 256 ^ (xs.length + 1) := by
      rw [Nat.pow_succ, Nat.mul_comm (256 ^ xs.length) 256, ← Nat.mul_assoc]
      exact Nat.mul_le_mul_right _ (by omega)
    simp only [List.foldl_cons, List.length_cons]
    omega

theorem beNat_lt (b : Bytes) : beNat b < 256 ^ b.length := by
  have := foldl_be_lt b 0
  simpa [beNat] using this

theorem beNat_lt_size (b : Bytes) (h : b.length ≤ 32) : beNat b < U256.size := by
  have h1 := beNat_lt b
  have h2 : 256 ^ b.length ≤ 256 ^ 32 := Nat.pow_le_pow_right (by decide) h
  have h3 : (256 : Nat) ^ 32 = U256.size := by decide
  omega

namespace U256

/-- `U256::to_big_endian`. -/
def toBE (a : U256) : BytesN 32 := ⟨beBytes 32 a.val, beBytes_length _ _⟩

/-- `U256::from_big_endian`: asserts that the slice has at most 32 bytes. -/
def fromBE (b : Bytes) : Outcome U256 :=
  if h : b.length ≤ 32 then .ok ⟨beNat b, beNat_lt_size b h⟩ else .panic .assertion

/-- `number.0`: the four little-endian 64-bit limbs. -/
def limbs (a : U256) : List Nat :=
  [a.val % 2 ^ 64, a.val / 2 ^ 64 % 2 ^ 64, a.val / 2 ^ 128 % 2 ^ 64, a.val / 2 ^ 192 % 2 ^ 64]

end U256

end BCT
