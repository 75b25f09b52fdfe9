import Verif.Model.Static
/-!
# tools.rs — integer codecs, leading zeros, difficulty and fee

`check_pow` needs the Merkle tree and lives in `Verif.Model.Merkle`; `copy_dir_all` and the zstd
helpers live in `Verif.Model.Files`.
-/

namespace BCT

/-- Loop state of `dump_u256`: the buffer, `found_non_null` and `counter`.
Simplification: `counter` is a `Nat`; in Rust a `u8`, which never exceeds 32 here. -/
structure DumpState where
  buffer : Bytes
  found : Bool
  counter : Nat

/-- tools.rs:41-50, body of the inner loop of `dump_u256`. -/
def dumpStep (s : DumpState) (byte : UInt8) : DumpState :=
  if s.found then
    { s with buffer := s.buffer ++ [byte], counter := s.counter + 1 }
  else if byte ≠ 0 then
    { buffer := s.buffer ++ [byte], counter := s.counter + 1, found := true }
  else s

/-- tools.rs:32-56 `dump_u256`: appends to `buffer`. Always `Ok` in Rust, hence total here. -/
def dumpU256 (number : U256) (buffer : Bytes) : Bytes :=
  let ind := buffer.length                                    -- :33-34 push(0); ind = len - 1
  let s0 : DumpState := ⟨buffer ++ [0], false, 0⟩
  let s := number.limbs.reverse.foldl                          -- :39 number.0.iter().rev()
    (fun s num => (beBytes 8 num).foldl dumpStep s) s0         -- :40-41 num.to_be().to_ne_bytes()
  s.buffer.set ind (UInt8.ofNat s.counter)                     -- :53

/-- tools.rs:58-79 `load_u256`. Returns the number and the number of payload bytes. -/
def loadU256 (data : Bytes) : Outcome (U256 × Nat) := do
  let b0 ← idx data 0                                          -- :59 data[0]
  let amountOfBytes := b0.toNat
  if amountOfBytes > 32 then .err .biguintDump                 -- :61-63
  else if data.length < amountOfBytes then .err .biguintLoad   -- :65-73
  else do
    let s ← slice data 1 (1 + amountOfBytes)                   -- :76
    let v ← U256.fromBE s
    pure (v, amountOfBytes)

/-- tools.rs:81-92 `u256_size`. -/
def u256Size (number : U256) : Nat :=
  let bitsSize := number.bits
  if bitsSize = 0 then 2
  else
    let amountByteSize := bitsSize / 8
    let amountByteSize := if number.bits % 8 ≠ 0 then amountByteSize + 1 else amountByteSize
    amountByteSize + 1

/-- `BigUint::to_bytes_le` for non-zero numbers: base-256 digits, least significant first. -/
def leDigits (n : Nat) : Bytes :=
  if h : n = 0 then [] else UInt8.ofNat n :: leDigits (n / 256)
  termination_by n
  decreasing_by omega

/-- `BigUint::to_bytes_le`: zero is the single byte 0 (num-bigint). `BigUint` is `Nat`. -/
def biguintToBytesLE (n : Nat) : Bytes := if n = 0 then [0] else leDigits n

/-- tools.rs:94-109 `dump_biguint`. -/
def dumpBiguint (number : Nat) (buffer : Bytes) : Outcome Bytes :=
  let numberBytes := biguintToBytesLE number
  let amountOfBunches := numberBytes.length
  if amountOfBunches > 255 then .err .biguintDump
  else .ok (buffer ++ [UInt8.ofNat amountOfBunches] ++ numberBytes.reverse)

/-- tools.rs:111-127 `load_biguint`. Returns the number and the total number of bytes read. -/
def loadBiguint (data : Bytes) : Outcome (Nat × Nat) := do
  let b0 ← idx data 0
  let amountOfBytes := b0.toNat
  if data.length < amountOfBytes then .err .biguintLoad
  else do
    let s ← slice data 1 (1 + amountOfBytes)
    pure (beNat s, amountOfBytes + 1)

/-- `BigUint::bits()`. -/
def natBits (n : Nat) : Nat := if n = 0 then 0 else n.log2 + 1

/-- tools.rs:129-140 `bigint_size`. -/
def bigintSize (number : Nat) : Nat :=
  let bitsSize := natBits number
  if bitsSize = 0 then 2
  else
    let amountByteSize := bitsSize / 8
    let amountByteSize := if natBits number % 8 ≠ 0 then amountByteSize + 1 else amountByteSize
    amountByteSize + 1

/-- `u8::leading_zeros`. -/
def u8LeadingZeros (b : UInt8) : Nat := if b = 0 then 8 else 7 - b.toNat.log2

/-- tools.rs:187-198 `count_leading_zeros`; the `for`/`break` loop as recursion.
Simplification: the `u32` counter is a `Nat` (all callers pass 32 bytes). -/
def countLeadingZeros : Bytes → Nat
  | [] => 0
  | byte :: rest =>
    let leadingZeros := u8LeadingZeros byte
    if leadingZeros < 8 then leadingZeros           -- :193 break
    else leadingZeros + countLeadingZeros rest

/-- tools.rs:220-226: index of the first non-zero byte, 0 if there is none. -/
def firstNonZero (d : Bytes) : Nat := (d.findIdx? (· ≠ 0)).getD 0

/-- `a - b` on `u64`: panics with overflow checks, wraps without (tools.rs:227). -/
def u64Sub (E : Env) (a b : UInt64) : Outcome UInt64 :=
  if E.overflowChecks ∧ a < b then .panic .overflow else .ok (a - b)

/-- `*prev_difficulty.get_unchecked_mut(i) = f(*…)`: out of bounds is undefined behaviour. -/
def modifyUnchecked {n : Nat} (d : BytesN n) (i : Nat) (f : UInt8 → UInt8) : Outcome (BytesN n) :=
  if i < n then .ok ⟨d.val.modify i f, by simpa using d.property⟩ else .ub

/-- tools.rs:219-245 `recalculate_difficulty`; the in-place update becomes the returned value.
`*val <<= 1; *val += 1` cannot overflow (the shift leaves an even byte). -/
def recalculateDifficulty (E : Env) (prevTimestamp timestamp : UInt64) (prevDifficulty : Hash) :
    Outcome Hash := do
  let nonZeroIndex := firstNonZero prevDifficulty.val
  let delta ← u64Sub E timestamp prevTimestamp                                       -- :227
  if delta < TIME_PER_BLOCK then
    modifyUnchecked prevDifficulty nonZeroIndex (fun v => v >>> 1)                   -- :228-231
  else if delta > TIME_PER_BLOCK then
    let val := prevDifficulty.val.getD nonZeroIndex 0                                -- :233 index < 32 always
    if nonZeroIndex = 0 ∧ val = 0x7f then .ok prevDifficulty                         -- :234-236
    else if val = 0xFF then
      if nonZeroIndex = 0 then                                                       -- :238 usize 0 - 1
        if E.overflowChecks then .panic .overflow else .ub
      else modifyUnchecked prevDifficulty (nonZeroIndex - 1) (fun v => (v <<< 1) + 1)
    else modifyUnchecked prevDifficulty nonZeroIndex (fun v => (v <<< 1) + 1)        -- :240-241
  else .ok prevDifficulty                                                            -- :243

/-- tools.rs:247-251 `recalculate_fee`. -/
def recalculateFee (currentDifficulty : Hash) : Outcome U256 :=
  FEE_STEP.mulNat (countLeadingZeros currentDifficulty.val)

end BCT
