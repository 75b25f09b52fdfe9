import Verif.Lemmas.Inject
import Verif.Props.Blocks
/-!
# C10, C13 – C16: transactions, injectivity, signatures (transaction.rs, block.rs)
-/

namespace BCT.Props
open BCT

/-! ## C10 -/

/-- A transaction as every constructor of the crate builds it: its hash is the digest of its dump. -/
def HashConsistent (E : Env) (t : Transaction) : Prop := t.hash = E.sha256 t.dump

/-- C10 at full strength. -/
def C10_full : Prop := ∀ (E : Env) (t : Transaction), HashConsistent E t →
  Transaction.parse E (t.dump.drop 1) = .ok t

/-- C10, exact: parsing a dump returns the transaction with its hash, except that an empty payload
comes back as a missing one. -/
theorem C10_transaction_roundtrip_exact (E : Env) (t : Transaction) (h : HashConsistent E t) :
    Transaction.parse E (t.dump.drop 1) =
      .ok { t with data := if t.data = some [] then none else t.data } := by
  rw [Transaction.parse_dump]
  have hn : (if t.data = some [] then none else t.data) = normData t.data := by
    cases hd : t.data with
    | none => rfl
    | some d => cases d <;> simp [normData]
  rw [hn]
  have hg : (normData t.data).getD [] = t.data.getD [] := by
    cases hd : t.data with
    | none => rfl
    | some d => cases d <;> rfl
  unfold Transaction.newSigned
  simp only [Outcome.ok.injEq]
  have : t.hash = E.sha256 t.dump := h
  rw [this]
  congr 2
  rw [Transaction.dump_eq, Transaction.dump_eq]
  simp only [hg]

/-- C10 for every payload except the empty one (missing: `data = Some(vec![])`). -/
theorem C10_transaction_roundtrip_partial (E : Env) (t : Transaction) (h : HashConsistent E t)
    (hd : t.data ≠ some []) : Transaction.parse E (t.dump.drop 1) = .ok t := by
  rw [C10_transaction_roundtrip_exact E t h, if_neg hd]

/-- C10 is false of the code: an empty payload is lost. -/
theorem C10_refuted : ¬ C10_full := by
  intro h
  let E : Env := ⟨fun _ => BytesN.fill 32 0, true⟩
  let t : Transaction := { exTx with data := some [] }
  have h1 : Transaction.parse E (t.dump.drop 1) = .ok t := h E t rfl
  rw [C10_transaction_roundtrip_exact E t rfl] at h1
  simp [t] at h1

example (E : Env) : HashConsistent E { exTx with hash := E.sha256 exTx.dump } ∧ exTx.data ≠ some [] :=
  ⟨rfl, by decide⟩

/-! ## C13 -/

/-- Everything the crate serializes with a header byte. -/
inductive Obj where
  | block (b : Block)
  | tx (t : Transaction)

/-- The bytes of an object. -/
def Obj.dump : Obj → Bytes
  | block b => b.dump
  | tx t => t.dump

/-- Same kind and same fields; a missing and an empty payload are identified, and the cached hash of a
transaction (not part of its dump) is ignored. -/
def Obj.Same : Obj → Obj → Prop
  | .block a, .block b => a = b
  | .tx a, .tx b => a.sender = b.sender ∧ a.receiver = b.receiver ∧ a.timestamp = b.timestamp ∧
      a.signature = b.signature ∧ a.amount = b.amount ∧ a.data.getD [] = b.data.getD []
  | _, _ => False

/-- C13. Equal dumps come from the same object. -/
theorem C13_dump_injective (a b : Obj) : a.dump = b.dump ↔ a.Same b := by
  constructor
  · intro h
    cases a <;> cases b
    · exact Block.dump_inj h
    · exact absurd h (Block.dump_ne_tx _ _)
    · exact absurd h.symm (Block.dump_ne_tx _ _)
    · exact Transaction.dump_inj h
  · intro h
    cases a <;> cases b
    · exact congrArg Block.dump h
    · exact h.elim
    · exact h.elim
    · obtain ⟨h1, h2, h3, h4, h5, h6⟩ := h
      simp only [Obj.dump]
      rw [Transaction.dump_eq, Transaction.dump_eq, h1, h2, h3, h4, h5, h6]

/-- C13. Two objects sharing a digest are the same, or their dumps are a collision. -/
theorem C13_hash_collision (E : Env) (a b : Obj) (h : E.sha256 a.dump = E.sha256 b.dump) :
    a.Same b ∨ (a.dump ≠ b.dump ∧ E.sha256 a.dump = E.sha256 b.dump) := by
  by_cases hd : a.dump = b.dump
  · exact .inl ((C13_dump_injective a b).mp hd)
  · exact .inr ⟨hd, h⟩

example : ¬ (Obj.block (.transaction exTxBlock)).Same (.block (.transaction exTxBlock0)) := by
  show ¬ (Block.transaction exTxBlock = Block.transaction exTxBlock0)
  decide +kernel

/-! ## C14 -/

/-- C14. The bytes presented to the signer determine every field. -/
theorem C14_signature_covers_fields (a b : Transaction) (h : a.unsignedBytes = b.unsignedBytes) :
    a.sender = b.sender ∧ a.receiver = b.receiver ∧ a.timestamp = b.timestamp ∧ a.amount = b.amount ∧
      a.data.getD [] = b.data.getD [] := by
  rw [Transaction.unsignedBytes_eq, Transaction.unsignedBytes_eq] at h
  exact Transaction.signingBytes_inj h

/-- C14. Signing and verification hash the same bytes. -/
theorem C14_sign_verify_same_bytes (t : Transaction) :
    t.unsignedBytes = Transaction.signingBytes t.sender t.receiver t.timestamp t.amount t.data :=
  t.unsignedBytes_eq

/-- C14. No block dump is ever presented to the signer. -/
theorem C14_no_block_signed (b : Block) (t : Transaction) : b.dump ≠ t.unsignedBytes := by
  intro h
  have := b.dump_head
  rw [h, t.unsignedBytes_eq, Transaction.signingBytes_eq] at this
  cases b <;> exact absurd (Option.some.inj this) (by simp only [Block.type]; decide)

example : exTx.unsignedBytes ≠ ({ exTx with amount := U256.ofNat 1001 } : Transaction).unsignedBytes := by
  decide +kernel

/-! ## C15 -/

/-- What is assumed of the signature scheme for one key pair: the keys are well formed, signatures
made with the private key are well formed and verify under the public key. -/
structure KeyPair (S : SigScheme) (sk : BytesN 32) (pk : Address) : Prop where
  sec : S.parseSec sk = true
  pub : S.parsePub pk = true
  sig : ∀ m, S.parseSig (S.sign sk m) = true
  correct : ∀ m, S.verify pk m (S.sign sk m) = true

/-- C15. A transaction signed with the sender's key verifies, and its construction succeeds with the
fields asked for. -/
theorem C15_signed_verifies (E : Env) (S : SigScheme) (sender receiver : Address) (ts : UInt64)
    (amount : U256) (sk : BytesN 32) (data : Option Bytes) (hk : KeyPair S sk sender) :
    ∃ t, Transaction.new E S sender receiver ts amount sk data = .ok t ∧ t.verify E S = .ok true ∧
      t.sender = sender ∧ t.receiver = receiver ∧ t.timestamp = ts ∧ t.amount = amount ∧ t.data = data := by
  unfold Transaction.new Transaction.generateSignature
  simp only [hk.sec, if_true, Outcome.ok_bind]
  refine ⟨_, rfl, ?_, rfl, rfl, rfl, rfl, rfl⟩
  unfold Transaction.verify Transaction.hashWithoutSignature
  rw [Transaction.unsignedBytes_eq]
  simp [hk.pub, hk.sig, hk.correct]

/-- C15. A malformed private key is an error, never a transaction. -/
theorem C15_bad_key (E : Env) (S : SigScheme) (sender receiver : Address) (ts : UInt64)
    (amount : U256) (sk : BytesN 32) (data : Option Bytes) (hk : S.parseSec sk = false) :
    Transaction.new E S sender receiver ts amount sk data = .err .txParse := by
  unfold Transaction.new Transaction.generateSignature
  simp [hk]

/-- C15. The verdict depends only on sender, signature and signed bytes; in particular a verified
transaction stays verified only if no signed byte changes (up to the scheme accepting two digests). -/
theorem C15_verdict_depends (E : Env) (S : SigScheme) (a b : Transaction) (h1 : a.sender = b.sender)
    (h2 : a.signature = b.signature) (h3 : a.unsignedBytes = b.unsignedBytes) :
    a.verify E S = b.verify E S := by
  unfold Transaction.verify Transaction.hashWithoutSignature
  rw [h1, h2, h3]

/-- `verify` says true exactly when the scheme accepts the digest of the signed bytes for the sender. -/
theorem C15_verify_iff (E : Env) (S : SigScheme) (t : Transaction) :
    t.verify E S = .ok true ↔ S.parsePub t.sender = true ∧ S.parseSig t.signature = true ∧
      S.verify t.sender
        (E.sha256 (Transaction.signingBytes t.sender t.receiver t.timestamp t.amount t.data))
        t.signature = true := by
  unfold Transaction.verify Transaction.hashWithoutSignature
  rw [Transaction.unsignedBytes_eq]
  cases S.parsePub t.sender <;> cases S.parseSig t.signature <;> simp

/-- A toy scheme with a key pair: the hypotheses of `C15_signed_verifies` can be met, by a scheme that
rejects every wrong digest. -/
def toyScheme : SigScheme where
  parsePub _ := true
  parseSig _ := true
  parseSec sk := decide (sk ≠ BytesN.fill 32 0)
  sign sk m := ⟨sk.val ++ m.val, by simp [sk.property, m.property]⟩
  verify pk m s := decide (s.val = pk.val.drop 1 ++ m.val)

example : KeyPair toyScheme (BytesN.fill 32 2) (BytesN.fill 33 2) :=
  ⟨by decide +kernel, rfl, fun _ => rfl, fun m => decide_eq_true rfl⟩
example (E : Env) : exTx.verify E toyScheme = .ok false := by
  have : decide (exTx.signature.val = exTx.sender.val.drop 1 ++ (exTx.hashWithoutSignature E).val) = false := by
    apply decide_eq_false
    intro h
    have := congrArg (fun l => l.take 1) h
    revert this
    simp [exTx, BytesN.fill, ROOT_PUBLIC_ADDRESS]
  simp only [Transaction.verify, toyScheme, this]; rfl

/-! ## C16 -/

/-- C16. Every way of obtaining a transaction gives it the digest of its dump as hash. -/
theorem C16_hash_of_dump (E : Env) (S : SigScheme) :
    (∀ s r ts a sk d t, Transaction.new E S s r ts a sk d = .ok t → t.hash = E.sha256 t.dump) ∧
    (∀ s r ts a d g, (Transaction.newSigned E s r ts a d g).hash =
      E.sha256 (Transaction.newSigned E s r ts a d g).dump) ∧
    (∀ data t, Transaction.parse E data = .ok t → t.hash = E.sha256 t.dump) := by
  have hs : ∀ s r ts a d g, (Transaction.newSigned E s r ts a d g).hash =
      E.sha256 (Transaction.newSigned E s r ts a d g).dump := by
    intro s r ts a d g; rfl
  refine ⟨?_, hs, ?_⟩
  · intro s r ts a sk d t h
    unfold Transaction.new Transaction.generateSignature at h
    cases hk : S.parseSec sk
    · simp [hk] at h
    · simp only [hk, if_true, Outcome.ok_bind, Outcome.ok.injEq] at h
      subst h; rfl
  · intro data t h
    exact Transaction.parse_hash E data t h

/-- C16. A transaction with a consistent hash, dumped and parsed, reports the same hash and the same
dump, whatever its payload. -/
theorem C16_hash_survives_wire (E : Env) (t : Transaction) (h : HashConsistent E t) :
    ∃ t', Transaction.parse E (t.dump.drop 1) = .ok t' ∧ t'.hash = t.hash ∧ t'.dump = t.dump := by
  refine ⟨_, C10_transaction_roundtrip_exact E t h, rfl, ?_⟩
  rw [Transaction.dump_eq, Transaction.dump_eq]
  split
  · rename_i hd; simp [hd]
  · rfl

end BCT.Props
