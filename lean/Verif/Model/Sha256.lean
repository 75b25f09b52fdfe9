import Verif.Model.U256
/-!
# SHA-256

FIPS 180-4, written out on natural numbers so that the kernel can evaluate it. The other files treat the digest as an
arbitrary function (`Env.sha256`); this one is an instance of it, used to show that witnesses exist for the real
function (`sha2::Sha256`, tools.rs:10-12) and to run the repository's own test data.
-/

namespace BCT.Sha256

/-- FIPS 180-4 §4.2.2. -/
def K : List Nat :=
  [0x428a2f98, 0x71374491, 0xb5c0fbcf, 0xe9b5dba5, 0x3956c25b, 0x59f111f1, 0x923f82a4, 0xab1c5ed5,
   0xd807aa98, 0x12835b01, 0x243185be, 0x550c7dc3, 0x72be5d74, 0x80deb1fe, 0x9bdc06a7, 0xc19bf174,
   0xe49b69c1, 0xefbe4786, 0x0fc19dc6, 0x240ca1cc, 0x2de92c6f, 0x4a7484aa, 0x5cb0a9dc, 0x76f988da,
   0x983e5152, 0xa831c66d, 0xb00327c8, 0xbf597fc7, 0xc6e00bf3, 0xd5a79147, 0x06ca6351, 0x14292967,
   0x27b70a85, 0x2e1b2138, 0x4d2c6dfc, 0x53380d13, 0x650a7354, 0x766a0abb, 0x81c2c92e, 0x92722c85,
   0xa2bfe8a1, 0xa81a664b, 0xc24b8b70, 0xc76c51a3, 0xd192e819, 0xd6990624, 0xf40e3585, 0x106aa070,
   0x19a4c116, 0x1e376c08, 0x2748774c, 0x34b0bcb5, 0x391c0cb3, 0x4ed8aa4a, 0x5b9cca4f, 0x682e6ff3,
   0x748f82ee, 0x78a5636f, 0x84c87814, 0x8cc70208, 0x90befffa, 0xa4506ceb, 0xbef9a3f7, 0xc67178f2]

/-- FIPS 180-4 §5.3.3. -/
def initial : List Nat :=
  [0x6a09e667, 0xbb67ae85, 0x3c6ef372, 0xa54ff53a, 0x510e527f, 0x9b05688c, 0x1f83d9ab, 0x5be0cd19]

def M : Nat := 4294967296

/-- `ROTR^n`, FIPS 180-4 §3.2. -/
def rotr (n x : Nat) : Nat := (x >>> n) ||| ((x <<< (32 - n)) % M)

def smallSigma0 (x : Nat) : Nat := rotr 7 x ^^^ rotr 18 x ^^^ (x >>> 3)
def smallSigma1 (x : Nat) : Nat := rotr 17 x ^^^ rotr 19 x ^^^ (x >>> 10)
def bigSigma0 (x : Nat) : Nat := rotr 2 x ^^^ rotr 13 x ^^^ rotr 22 x
def bigSigma1 (x : Nat) : Nat := rotr 6 x ^^^ rotr 11 x ^^^ rotr 25 x
def ch (x y z : Nat) : Nat := (x &&& y) ^^^ ((M - 1 - x) &&& z)
def maj (x y z : Nat) : Nat := (x &&& y) ^^^ (x &&& z) ^^^ (y &&& z)

/-- One round, §6.2.2 step 3; the message schedule is kept as its next sixteen words (step 1). -/
def round : List Nat → List Nat → Nat → List Nat × List Nat
  | [a, b, c, d, e, f, g, h], [w0, w1, w2, w3, w4, w5, w6, w7, w8, w9, w10, w11, w12, w13, w14, w15], k =>
    let t1 := h + bigSigma1 e + ch e f g + k + w0
    let t2 := bigSigma0 a + maj a b c
    ([(t1 + t2) % M, a, b, c, (d + t1) % M, e, f, g],
     [w1, w2, w3, w4, w5, w6, w7, w8, w9, w10, w11, w12, w13, w14, w15,
      (smallSigma1 w14 + w9 + smallSigma0 w1 + w0) % M])
  | s, w, _ => (s, w)

def rounds : List Nat → List Nat → List Nat → List Nat
  | [], s, _ => s
  | k :: ks, s, w => rounds ks (round s w k).1 (round s w k).2

/-- One block of sixteen words. -/
def compress (h w : List Nat) : List Nat := List.zipWith (fun x y => (x + y) % M) h (rounds K h w)

/-- Big-endian words. -/
def words : List Nat → List Nat
  | a :: b :: c :: d :: l => (((a * 256 + b) * 256 + c) * 256 + d) :: words l
  | _ => []

/-- The whole blocks, in order; `n` is an upper bound for their number. -/
def blocks : Nat → List Nat → List Nat → List Nat
  | 0, h, _ => h
  | n + 1, h, w => if w.isEmpty then h else blocks n (compress h (w.take 16)) (w.drop 16)

/-- §5.1.1. -/
def pad (b : List Nat) : List Nat :=
  b ++ 0x80 :: (List.replicate ((119 - b.length % 64) % 64) 0 ++ (beBytes 8 (8 * b.length)).map (·.toNat))

def digest (b : Bytes) : Bytes :=
  let w := words (pad (b.map (·.toNat)))
  (blocks w.length initial w).flatMap (beBytes 4)

theorem round_length (s w : List Nat) (k : Nat) : (round s w k).1.length = s.length := by
  unfold round; split <;> rfl

theorem rounds_length (ks s w : List Nat) : (rounds ks s w).length = s.length := by
  induction ks generalizing s w with
  | nil => rfl
  | cons k ks ih => rw [rounds, ih, round_length]

theorem compress_length (h w : List Nat) : (compress h w).length = h.length := by
  simp [compress, rounds_length]

theorem blocks_length (n : Nat) (h w : List Nat) : (blocks n h w).length = h.length := by
  induction n generalizing h w with
  | zero => rfl
  | succ n ih => rw [blocks]; split <;> simp [ih, compress_length]

theorem digest_length (b : Bytes) : (digest b).length = 32 := by
  have h : ∀ l : List Nat, (l.flatMap (beBytes 4)).length = 4 * l.length := by
    intro l
    induction l with
    | nil => rfl
    | cons x l ih => simp [ih]; omega
  unfold digest
  rw [h, blocks_length]
  rfl

end BCT.Sha256

namespace BCT

/-- The environment with the real digest. -/
def shaEnv (overflowChecks : Bool) : Env := ⟨fun b => ⟨Sha256.digest b, Sha256.digest_length b⟩, overflowChecks⟩

end BCT
