import Verif.Model.Transaction
/-!
# secp256k1

The crate `secp256k1` (transaction.rs:10-12, :123-133, :233-253) is a binding of libsecp256k1, which is not part of the
repository. This is what it computes, after SEC 1 and SEC 2 (the curve, ECDSA, compressed public keys, compact
signatures), with the two peculiarities of the library: signatures it makes have `s` in the lower half of the scalars, and
it accepts no others. How the library computes it (coordinates, endomorphism, constant time) is not modelled.
-/

namespace BCT
namespace Secp

/-- SEC 2, 2.4.1: the field is that of the integers modulo `p`. -/
def p : Nat := 0xFFFFFFFFFFFFFFFFFFFFFFFFFFFFFFFFFFFFFFFFFFFFFFFFFFFFFFFEFFFFFC2F
/-- SEC 2, 2.4.1: the order of the base point. -/
def n : Nat := 0xFFFFFFFFFFFFFFFFFFFFFFFFFFFFFFFEBAAEDCE6AF48A03BBFD25E8CD0364141
/-- SEC 2, 2.4.1: the base point. -/
def gx : Nat := 0x79BE667EF9DCBBAC55A06295CE870B07029BFCDB2DCE28D959F2815B16F81798
/-- SEC 2, 2.4.1: the base point. -/
def gy : Nat := 0x483ADA7726A3C4655DA4FBFC0E1108A8FD17B448A68554199C47D08FFB10D4B8

/-- `k x`; the numeral is computed first. -/
def force {α : Type} (x : Nat) (k : Nat → α) : α :=
  match x with
  | 0 => k 0
  | x + 1 => k (x + 1)

/-- `a ^ e` modulo `m`, for exponents below `2 ^ fuel`. -/
def powMod (m : Nat) : Nat → Nat → Nat → Nat
  | 0, _, _ => 1 % m
  | fuel + 1, a, e =>
    if e = 0 then 1 % m
    else
      force (a * a % m) fun b =>
      force (powMod m fuel b (e / 2)) fun h =>
      if e % 2 = 1 then a * h % m else h

/-- The inverse modulo the prime `m`. -/
def inv (m a : Nat) : Nat := powMod m 256 a (m - 2)

/-- Subtraction in the field. -/
def sub (a b : Nat) : Nat := (a + p - b) % p

/-- A point of the curve: coordinates below `p`, or the point at infinity. -/
abbrev Point := Option (Nat × Nat)

/-- The base point. -/
def G : Point := some (gx, gy)

/-- The third point of a line of slope `l`, mirrored. -/
def third (x1 y1 x2 l : Nat) : Point :=
  force (sub (sub (l * l % p) x1) x2) fun x3 =>
  force (sub (l * sub x1 x3 % p) y1) fun y3 =>
  some (x3, y3)

/-- SEC 1, 2.2.1: addition of points. -/
def add : Point → Point → Point
  | none, Q => Q
  | P, none => P
  | some (x1, y1), some (x2, y2) =>
    if x1 = x2 then
      if (y1 + y2) % p = 0 then none
      else force (3 * (x1 * x1) % p * inv p (2 * y1 % p) % p) (third x1 y1 x2)
    else force (sub y1 y2 * inv p (sub x1 x2) % p) (third x1 y1 x2)

/-- The `k`-fold of a point, for `k` below `2 ^ fuel`. -/
def mulFuel : Nat → Nat → Point → Point
  | 0, _, _ => none
  | fuel + 1, k, P =>
    if k = 0 then none
    else
      let h := mulFuel fuel (k / 2) (add P P)
      if k % 2 = 1 then add P h else h

/-- The `k`-fold of a point. -/
def mul (k : Nat) (P : Point) : Point := mulFuel 256 k P

/-- SEC 1, 2.3.4: the point with this `x` whose `y` is odd or even, if there is one. -/
def lift (x : Nat) (odd : Bool) : Point :=
  if p ≤ x then none
  else
    let w := (x * x * x + 7) % p
    force (powMod p 256 w ((p + 1) / 4)) fun y =>
    if y * y % p = w then some (x, if (y % 2 = 1) = odd then y else (p - y) % p) else none

/-- `PublicKey::from_slice` on 33 bytes: compressed points only. -/
def parsePub (pk : Address) : Point :=
  match pk.val with
  | 2 :: x => lift (beNat x) false
  | 3 :: x => lift (beNat x) true
  | _ => none

/-- `PublicKey::serialize` of a point that is not at infinity. -/
def serialize (x y : Nat) : Address := ⟨(if y % 2 = 1 then 3 else 2) :: beBytes 32 x, by simp⟩

/-- `SecretKey::from_slice` on 32 bytes: not zero, below `n`. -/
def parseSec (sk : BytesN 32) : Option Nat :=
  let d := beNat sk.val
  if 0 < d ∧ d < n then some d else none

/-- `PublicKey::from_secret_key(..).serialize()`. -/
def publicKey (sk : BytesN 32) : Option Address := do
  let d ← parseSec sk
  let (x, y) ← mul d G
  some (serialize x y)

/-- `Signature::from_compact`: both scalars below `n`; whether they are zero is seen when verifying. -/
def parseSig (sig : Signature) : Option (Nat × Nat) :=
  let r := beNat (sig.val.take 32)
  let s := beNat (sig.val.drop 32)
  if r < n ∧ s < n then some (r, s) else none

/-- `Signature::serialize_compact`. -/
def serializeSig (r s : Nat) : Signature := ⟨beBytes 32 r ++ beBytes 32 s, by simp⟩

/-- The scalar of a message. -/
def scalar (m : Hash) : Nat := beNat m.val % n

/-- SEC 1, 4.1.3, with nonce `k`, and `s` brought to the lower half. Fails if `k` is not a scalar, or `r` or `s` is zero;
the library then goes on to another nonce. -/
def signWith (d z k : Nat) : Option (Nat × Nat) :=
  if k = 0 ∨ n ≤ k then none
  else do
    let (x, _) ← mul k G
    let r := x % n
    let s := inv n k * (z + r * d) % n
    if r = 0 ∨ s = 0 then none else some (r, if n / 2 < s then n - s else s)

/-- SEC 1, 4.1.4, and `s` has to be in the lower half. -/
def verify (Q : Nat × Nat) (z r s : Nat) : Bool :=
  if r = 0 ∨ s = 0 ∨ n / 2 < s then false
  else
    let w := inv n s
    match add (mul (z * w % n) G) (mul (r * w % n) (some Q)) with
    | none => false
    | some (x, _) => x % n = r

/-- The nonce `sign_ecdsa` uses for a key and a message (libsecp256k1: RFC 6979, the first that can be used). Which it is
does not matter here. -/
structure Nonces where
  nonce : BytesN 32 → Hash → Nat
  usable : ∀ sk d m, parseSec sk = some d → (signWith d (scalar m) (nonce sk m)).isSome

/-- The crate's functions as the code uses them. -/
def scheme (N : Nonces) : SigScheme where
  parsePub pk := (parsePub pk).isSome
  parseSig sig := (parseSig sig).isSome
  parseSec sk := (parseSec sk).isSome
  sign sk m :=
    match parseSec sk with
    | none => BytesN.fill 64 0
    | some d => match signWith d (scalar m) (N.nonce sk m) with
      | none => BytesN.fill 64 0
      | some (r, s) => serializeSig r s
  verify pk m sig :=
    match parsePub pk, parseSig sig with
    | some Q, some (r, s) => verify Q (scalar m) r s
    | _, _ => false

end Secp

/-- static_values.rs:35 `ROOT_PRIVATE_ADDRESS`. -/
def ROOT_PRIVATE_ADDRESS : BytesN 32 := BytesN.fill 32 1

end BCT
