/-!
# Base vocabulary of the model

Rust values, results, panics and undefined behaviour.
-/

namespace BCT

/-- Byte strings (`Vec<u8>`, `&[u8]`). -/
abbrev Bytes := List UInt8

/-- `[u8; n]`: byte strings of length exactly `n`. -/
abbrev BytesN (n : Nat) : Type := { l : Bytes // l.length = n }

instance (n : Nat) : DecidableEq (BytesN n) :=
  inferInstanceAs (DecidableEq { l : Bytes // l.length = n })

/-- `[b; n]` of Rust: the array with `n` copies of `b`. -/
def BytesN.fill (n : Nat) (b : UInt8) : BytesN n := ⟨List.replicate n b, by simp⟩

/-- types.rs:3 `pub type Hash = [u8; 32]`. -/
abbrev Hash := BytesN 32
/-- types.rs:2 `pub type Address = [u8; 33]`. -/
abbrev Address := BytesN 33
/-- types.rs:4 `pub type Signature = [u8; 64]`. -/
abbrev Signature := BytesN 64

/-- The ways a Rust call can panic in this crate. -/
inductive Panic where
  /-- slice or index out of bounds -/
  | index
  /-- arithmetic overflow (always checked for `U256`; profile dependent for machine integers) -/
  | overflow
  /-- `unwrap` on `None`/`Err` -/
  | unwrap
  /-- `unimplemented!()` -/
  | unimplemented
  /-- failed `assert!` -/
  | assertion
  deriving DecidableEq, Repr

/-- errors.rs:57-180. The error kinds used by the modelled functions, flattened: the constructor names
the root error and the kind. Only the outermost context of an `error_stack::Report` is kept
(simplification: attached messages and inner contexts are dropped). -/
inductive Err where
  | biguintDump | biguintLoad
  | zstdCompress | zstdDecompress
  | txVerify | txDump | txParse
  | basicInfoParse
  | txBlockDump | txBlockParse
  | derivBlockParse
  | sumBlockDump | sumBlockParse | sumBlockHash
  | headerUnknown | headerWrong
  | chainInit | chainAddingBlock | chainAddingTransaction | chainFindByHeight | chainFindByHashE
  | chainDumpConfig
  | treeInit | treeDumpDb | treeAddFunds | treeDecreaseFunds | treeGetFunds | treeGetDerivChain
  | treeMoveSummaryDB
  | treeNewTransaction | treeCreateMainChainBlock | treeWrongPow
  | treeSummarizeBlockWrongTransactionsAmount
  /-- `sled::transaction::ConflictableTransactionError::Abort` -/
  | txnAbort
  /-- `std::io::Error` -/
  | io
  deriving DecidableEq, Repr

/-- Result of running a Rust function: `Ok`, `Err`, a panic, or undefined behaviour
(an out-of-bounds `get_unchecked`). -/
inductive Outcome (α : Type) where
  | ok (a : α)
  | err (e : Err)
  | panic (p : Panic)
  | ub
  deriving DecidableEq, Repr

namespace Outcome

/-- Sequencing; `?` on `Err`, propagation of panics and UB. -/
def bind {α β : Type} (x : Outcome α) (f : α → Outcome β) : Outcome β :=
  match x with
  | ok a => f a
  | err e => err e
  | panic p => panic p
  | ub => ub

instance : Monad Outcome where
  pure := ok
  bind := bind

@[simp] theorem ok_bind {α β : Type} (a : α) (f : α → Outcome β) : (ok a >>= f) = f a := rfl
@[simp] theorem err_bind {α β : Type} (e : Err) (f : α → Outcome β) : ((err e : Outcome α) >>= f) = err e := rfl
@[simp] theorem panic_bind {α β : Type} (p : Panic) (f : α → Outcome β) :
    ((panic p : Outcome α) >>= f) = panic p := rfl
@[simp] theorem ub_bind {α β : Type} (f : α → Outcome β) : ((ub : Outcome α) >>= f) = ub := rfl
@[simp] theorem pure_eq {α : Type} (a : α) : (pure a : Outcome α) = ok a := rfl

instance : LawfulMonad Outcome := LawfulMonad.mk'
  (id_map := by intro α x; cases x <;> rfl)
  (pure_bind := by intros; rfl)
  (bind_assoc := by intro α β γ x f g; cases x <;> rfl)

/-- `change_context`: replaces the error context. -/
def mapErr {α : Type} (e : Err) : Outcome α → Outcome α
  | err _ => err e
  | x => x

@[simp] theorem mapErr_ok {α : Type} (e : Err) (a : α) : mapErr e (ok a) = ok a := rfl
@[simp] theorem mapErr_err {α : Type} (e e' : Err) : mapErr e (err e' : Outcome α) = err e := rfl
@[simp] theorem mapErr_panic {α : Type} (e : Err) (p : Panic) : mapErr e (panic p : Outcome α) = panic p := rfl
@[simp] theorem mapErr_ub {α : Type} (e : Err) : mapErr e (ub : Outcome α) = ub := rfl

/-- `.unwrap()` on a `Result`: errors become panics. -/
def unwrap {α : Type} : Outcome α → Outcome α
  | err _ => panic .unwrap
  | x => x

@[simp] theorem unwrap_ok {α : Type} (a : α) : unwrap (ok a) = ok a := rfl
@[simp] theorem unwrap_err {α : Type} (e : Err) : unwrap (err e : Outcome α) = panic .unwrap := rfl

/-- `.unwrap()` on an `Option`. -/
def ofOption {α : Type} : Option α → Outcome α
  | some a => ok a
  | none => panic .unwrap

@[simp] theorem ofOption_some {α : Type} (a : α) : ofOption (some a) = ok a := rfl
@[simp] theorem ofOption_none {α : Type} : ofOption (none : Option α) = panic .unwrap := rfl

/-- The call neither panicked nor hit undefined behaviour. -/
def Safe {α : Type} : Outcome α → Prop
  | ok _ => True
  | err _ => True
  | panic _ => False
  | ub => False

instance {α : Type} (x : Outcome α) : Decidable x.Safe := by
  cases x <;> unfold Safe <;> infer_instance

@[simp] theorem safe_ok {α : Type} (a : α) : (ok a).Safe := trivial
@[simp] theorem safe_err {α : Type} (e : Err) : (err e : Outcome α).Safe := trivial
@[simp] theorem not_safe_panic {α : Type} (p : Panic) : ¬ (panic p : Outcome α).Safe := id
@[simp] theorem not_safe_ub {α : Type} : ¬ (ub : Outcome α).Safe := id

end Outcome

/-- Rust `data[i]`. -/
def idx (data : Bytes) (i : Nat) : Outcome UInt8 :=
  match data[i]? with
  | some b => .ok b
  | none => .panic .index

/-- Rust `&data[i..j]` for `i ≤ j`: panics when `j` is past the end. -/
def slice (data : Bytes) (i j : Nat) : Outcome Bytes :=
  if j ≤ data.length then .ok ((data.drop i).take (j - i)) else .panic .index

/-- Rust `&data[i..]`: panics when `i` is past the end. -/
def sliceFrom (data : Bytes) (i : Nat) : Outcome Bytes :=
  if i ≤ data.length then .ok (data.drop i) else .panic .index

/-- Rust `data[i..i + n].try_into()` into `[u8; n]`. -/
def sliceN (data : Bytes) (i n : Nat) : Outcome (BytesN n) :=
  if h : i + n ≤ data.length then
    .ok ⟨(data.drop i).take n, by simp; omega⟩
  else .panic .index

/-- Parameters of the whole model: the external hash function and the build profile.
* `sha256` stands for `sha2::Sha256` (tools.rs:142-146, merkletree.rs:60, transaction.rs:121).
* `overflowChecks` is `true` in dev/test builds and `false` in release builds (Cargo.toml has no
  override): it decides what machine-integer overflow does. -/
structure Env where
  sha256 : Bytes → Hash
  overflowChecks : Bool

end BCT
