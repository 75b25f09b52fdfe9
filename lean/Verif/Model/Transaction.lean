import Verif.Model.Tools
import Verif.Model.Headers
/-!
# transaction.rs
-/

namespace BCT

/-- transaction.rs:76-86 `Transaction`. -/
structure Transaction where
  sender : Address
  receiver : Address
  timestamp : UInt64
  signature : Signature
  amount : U256
  data : Option Bytes
  hash : Hash
  deriving DecidableEq

/-- `u64::to_be_bytes`. -/
def u64BE (x : UInt64) : Bytes := beBytes 8 x.toNat

/-- `u64::from_be_bytes` / `read_u64::<BigEndian>` on 8 bytes. -/
def u64FromBE (b : BytesN 8) : UInt64 := UInt64.ofNat (beNat b.val)

namespace Transaction

/-- transaction.rs:103-119: the buffer `generate_signature` hashes and signs. -/
def signingBytes (sender receiver : Address) (timestamp : UInt64) (amount : U256)
    (data : Option Bytes) : Bytes :=
  let b : Bytes := [Headers.transaction.toU8]
  let b := b ++ sender.val
  let b := b ++ receiver.val
  let b := b ++ u64BE timestamp
  let b := dumpU256 amount b
  match data with
  | some d => b ++ d
  | none => b

/-- transaction.rs:205-223: the buffer `hash_without_signature` hashes. -/
def unsignedBytes (t : Transaction) : Bytes :=
  let b : Bytes := [Headers.transaction.toU8]
  let b := b ++ t.sender.val
  let b := b ++ t.receiver.val
  let b := b ++ u64BE t.timestamp
  let b := dumpU256 t.amount b
  match t.data with
  | some d => b ++ d
  | none => b

/-- transaction.rs:195-227 `hash_without_signature`. -/
def hashWithoutSignature (E : Env) (t : Transaction) : Hash := E.sha256 t.unsignedBytes

/-- transaction.rs:256-292 `dump`. Always `Ok`, hence total here. -/
def dump (t : Transaction) : Bytes :=
  let b : Bytes := [Headers.transaction.toU8]
  let b := b ++ t.sender.val
  let b := b ++ t.receiver.val
  let b := b ++ u64BE t.timestamp
  let b := b ++ t.signature.val
  let b := dumpU256 t.amount b
  match t.data with
  | some d => b ++ d
  | none => b

/-- transaction.rs:294-301 `get_dump_size`. -/
def getDumpSize (t : Transaction) : Nat :=
  1 + 33 + 33 + 8 + 64 + u256Size t.amount + (match t.data with | some d => d.length | none => 0)

/-- transaction.rs:166-187 `new_signed`. -/
def newSigned (E : Env) (sender receiver : Address) (timestamp : UInt64) (amount : U256)
    (data : Option Bytes) (signature : Signature) : Transaction :=
  let tr : Transaction :=
    { sender, receiver, timestamp, signature, amount, data, hash := BytesN.fill 32 0 }
  { tr with hash := E.sha256 tr.dump }

/-- transaction.rs:303-351 `parse`. -/
def parse (E : Env) (data : Bytes) : Outcome Transaction := do
  if data.length < 139 then .err .txParse                                            -- :306-309
  else do
    let index := 0
    let sender ← sliceN data index 33
    let index := index + 33
    let receiver ← sliceN data index 33
    let index := index + 33
    let ts ← sliceN data index 8
    let timestamp := u64FromBE ts
    let index := index + 8
    let signature ← sliceN data index 64
    let index := index + 64
    let rest ← sliceFrom data index
    let (amount, idx) ← (loadU256 rest).mapErr .txParse                              -- :328-330
    let index := index + (idx + 1)
    if index = data.length then                                                      -- :334-335
      .ok (newSigned E sender receiver timestamp amount none signature)
    else do
      let newData ← sliceFrom data index                                             -- :338
      let index := index + newData.length
      if index ≠ data.length then .err .txParse                                      -- :343-346
      else .ok (newSigned E sender receiver timestamp amount (some newData) signature)

end Transaction

/-- secp256k1 as used by transaction.rs:123-133 and :233-253. `parsePub`, `parseSig` and `parseSec` say
whether `PublicKey::from_slice`, `Signature::from_compact` and `SecretKey::from_slice` accept the
bytes; `sign` and `verify` take the 32-byte digest. -/
structure SigScheme where
  parsePub : Address → Bool
  parseSig : Signature → Bool
  parseSec : BytesN 32 → Bool
  sign : BytesN 32 → Hash → Signature
  verify : Address → Hash → Signature → Bool

namespace Transaction

/-- transaction.rs:89-134 `generate_signature`. `Message::from_digest_slice` cannot fail on 32 bytes. -/
def generateSignature (E : Env) (S : SigScheme) (sender receiver : Address) (timestamp : UInt64)
    (amount : U256) (data : Option Bytes) (privateKey : BytesN 32) : Outcome Signature :=
  let result := E.sha256 (signingBytes sender receiver timestamp amount data)
  if S.parseSec privateKey then .ok (S.sign privateKey result) else .err .txParse

/-- transaction.rs:136-164 `Transaction::new`. -/
def new (E : Env) (S : SigScheme) (sender receiver : Address) (timestamp : UInt64) (amount : U256)
    (privateKey : BytesN 32) (data : Option Bytes) : Outcome Transaction := do
  let signature ← generateSignature E S sender receiver timestamp amount data privateKey
  let tr : Transaction :=
    { sender, receiver, timestamp, signature, amount, data, hash := BytesN.fill 32 0 }
  .ok { tr with hash := E.sha256 tr.dump }

/-- transaction.rs:229-254 `verify`. -/
def verify (E : Env) (S : SigScheme) (t : Transaction) : Outcome Bool :=
  let signedDataHash := t.hashWithoutSignature E
  if !S.parsePub t.sender then .err .txVerify
  else if !S.parseSig t.signature then .err .txVerify
  else .ok (S.verify t.sender signedDataHash t.signature)

end Transaction

end BCT
