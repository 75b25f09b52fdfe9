import Verif.Model.Static
/-!
# Effects and the embedded database

* `Act σ α`: an effectful call on a shared state. A run records the outcome, the state left behind
  (also after an error or a panic) and every state passed through after an atomic effect. The recorded
  states are the points at which a crash may strike.
* `KV`: the contents of a sled tree, a finite map ordered by key.
* `Db`: an open sled database: its contents and the contents it may have after a crash.
-/

namespace BCT

/-- One run of an effectful call. -/
structure Res (σ α : Type) where
  /-- result of the call -/
  out : Outcome α
  /-- state when the call has ended -/
  final : σ
  /-- states after each atomic effect, oldest first -/
  trace : List σ

/-- Effectful calls. -/
def Act (σ α : Type) := σ → Res σ α

namespace Act
variable {σ τ α β : Type}

/-- No effect. -/
def pure (a : α) : Act σ α := fun s => ⟨.ok a, s, []⟩

/-- Sequencing: `?` on errors, propagation of panics; effects already made stay. -/
def bind (x : Act σ α) (f : α → Act σ β) : Act σ β := fun s =>
  match (x s).out with
  | .ok a => ⟨(f a (x s).final).out, (f a (x s).final).final, (x s).trace ++ (f a (x s).final).trace⟩
  | .err e => ⟨.err e, (x s).final, (x s).trace⟩
  | .panic p => ⟨.panic p, (x s).final, (x s).trace⟩
  | .ub => ⟨.ub, (x s).final, (x s).trace⟩

instance : Monad (Act σ) where
  pure := pure
  bind := bind

/-- Reading the state. -/
def get : Act σ σ := fun s => ⟨.ok s, s, []⟩

/-- A computation without effect that may fail. -/
def lift (o : Outcome α) : Act σ α := fun s => ⟨o, s, []⟩

/-- One atomic effect. -/
def step (f : σ → σ) : Act σ Unit := fun s => ⟨.ok (), f s, [f s]⟩

/-- `change_context`. -/
def mapErr (e : Err) (x : Act σ α) : Act σ α := fun s => ⟨(x s).out.mapErr e, (x s).final, (x s).trace⟩

/-- A call on a part of the state. -/
def zoom (part : τ → σ) (put : σ → τ → τ) (x : Act σ α) : Act τ α := fun t =>
  ⟨(x (part t)).out, put (x (part t)).final t, (x (part t)).trace.map (fun s => put s t)⟩

/-- A `for` loop. -/
def forEach (l : List β) (f : β → Act σ Unit) : Act σ Unit :=
  match l with
  | [] => pure ()
  | b :: l => bind (f b) (fun _ => forEach l f)

end Act

/-! ## sled -/

/-- Byte-wise lexicographic order, the order of sled keys. -/
def bytesLt : Bytes → Bytes → Bool
  | [], [] => false
  | [], _ :: _ => true
  | _ :: _, [] => false
  | a :: as, b :: bs => if a.toNat < b.toNat then true else if b.toNat < a.toNat then false else bytesLt as bs

/-- First value stored under the key. -/
def lookup (k : Bytes) : List (Bytes × Bytes) → Option Bytes
  | [] => none
  | e :: l => if e.1 = k then some e.2 else lookup k l

/-- Insertion keeping the order; replaces the value of a present key. -/
def insertSorted (k v : Bytes) : List (Bytes × Bytes) → List (Bytes × Bytes)
  | [] => [(k, v)]
  | e :: l =>
    if k = e.1 then (k, v) :: l
    else if bytesLt k e.1 then (k, v) :: e :: l
    else e :: insertSorted k v l

theorem bytesLt_trans : ∀ {a b c : Bytes}, bytesLt a b = true → bytesLt b c = true → bytesLt a c = true
  | [], [], _, h, _ => by simp [bytesLt] at h
  | [], _ :: _, [], _, h => by simp [bytesLt] at h
  | [], _ :: _, _ :: _, _, _ => rfl
  | _ :: _, [], _, h, _ => by simp [bytesLt] at h
  | _ :: _, _ :: _, [], _, h => by simp [bytesLt] at h
  | a :: as, b :: bs, c :: cs, h1, h2 => by
    simp only [bytesLt] at *
    split at h1
    · split at h2
      · rw [if_pos (by omega)]
      · split at h2
        · simp at h2
        · rw [if_pos (by omega)]
    · split at h1
      · simp at h1
      · split at h2
        · rw [if_pos (by omega)]
        · split at h2
          · simp at h2
          · rw [if_neg (by omega), if_neg (by omega)]
            exact bytesLt_trans h1 h2

theorem bytesLt_irrefl : ∀ a : Bytes, bytesLt a a = false
  | [] => rfl
  | a :: as => by simp [bytesLt, bytesLt_irrefl as]

theorem bytesLt_total : ∀ {a b : Bytes}, a ≠ b → bytesLt a b = false → bytesLt b a = true
  | [], [], h, _ => absurd rfl h
  | [], _ :: _, _, h => by simp [bytesLt] at h
  | _ :: _, [], _, _ => rfl
  | a :: as, b :: bs, hne, h => by
    simp only [bytesLt] at *
    split at h
    · simp at h
    · split at h
      · rw [if_pos (by omega)]
      · rw [if_neg (by omega), if_neg (by omega)]
        have : a = b := UInt8.toNat_inj.mp (by omega)
        subst this
        exact bytesLt_total (fun e => hne (by rw [e])) h

theorem mem_insertSorted {k v : Bytes} {l : List (Bytes × Bytes)} {e : Bytes × Bytes}
    (h : e ∈ insertSorted k v l) : e = (k, v) ∨ e ∈ l := by
  induction l with
  | nil => simp [insertSorted] at h; exact .inl h
  | cons a l ih =>
    simp only [insertSorted] at h
    split at h
    · rcases List.mem_cons.mp h with h | h
      · exact .inl h
      · exact .inr (List.mem_cons_of_mem _ h)
    · split at h
      · rcases List.mem_cons.mp h with h | h
        · exact .inl h
        · exact .inr h
      · rcases List.mem_cons.mp h with h | h
        · exact .inr (h ▸ List.mem_cons_self)
        · rcases ih h with h | h
          · exact .inl h
          · exact .inr (List.mem_cons_of_mem _ h)

/-- Keys strictly increasing. -/
def Sorted (l : List (Bytes × Bytes)) : Prop := l.Pairwise (fun a b => bytesLt a.1 b.1 = true)

instance (l : List (Bytes × Bytes)) : Decidable (Sorted l) := by unfold Sorted; infer_instance

theorem sorted_insertSorted {k v : Bytes} {l : List (Bytes × Bytes)} (h : Sorted l) :
    Sorted (insertSorted k v l) := by
  unfold Sorted at *
  induction l with
  | nil => simp [insertSorted]
  | cons a l ih =>
    rw [List.pairwise_cons] at h
    simp only [insertSorted]
    split
    · rename_i hk
      rw [List.pairwise_cons]
      exact ⟨fun b hb => hk ▸ h.1 b hb, h.2⟩
    · rename_i hk
      split
      · rename_i hlt
        rw [List.pairwise_cons, List.pairwise_cons]
        refine ⟨fun b hb => ?_, h⟩
        rcases List.mem_cons.mp hb with rfl | hb
        · exact hlt
        · exact bytesLt_trans hlt (h.1 b hb)
      · rename_i hlt
        rw [List.pairwise_cons]
        refine ⟨fun b hb => ?_, ih h.2⟩
        rcases mem_insertSorted hb with rfl | hb
        · exact bytesLt_total hk (by simpa using hlt)
        · exact h.1 b hb

/-- Contents of a sled tree: entries in key order (the order of `Db::iter`). -/
structure KV where
  entries : List (Bytes × Bytes)
  sorted : Sorted entries

namespace KV

@[ext] theorem ext {a b : KV} (h : a.entries = b.entries) : a = b := by
  cases a; cases b; cases h; rfl

instance : DecidableEq KV := fun a b =>
  if h : a.entries = b.entries then isTrue (ext h) else isFalse (fun e => h (e ▸ rfl))

/-- A new tree. -/
def empty : KV := ⟨[], List.Pairwise.nil⟩

/-- `Db::get`. -/
def get (m : KV) (k : Bytes) : Option Bytes := lookup k m.entries

/-- `Db::insert`. -/
def insert (m : KV) (k v : Bytes) : KV := ⟨insertSorted k v m.entries, sorted_insertSorted m.sorted⟩

end KV

/-- An open sled database. `cur` is what reads see. `recov` lists the states the files may hold: every
state committed since the last completed flush (sled logs writes in order and recovers a prefix of
them; a transaction is logged as one atomic batch). -/
structure Db where
  cur : KV
  recov : List KV

namespace Db

/-- `sled::open` on files holding `m`. -/
def open' (m : KV) : Db := ⟨m, [m]⟩

/-- A committed write: `insert`, or a transaction that made all of `f` at once. -/
def commit (d : Db) (f : KV → KV) : Db := ⟨f d.cur, f d.cur :: d.recov⟩

/-- `Db::insert`. -/
def insert (d : Db) (k v : Bytes) : Db := d.commit (·.insert k v)

/-- `Db::get`. -/
def get (d : Db) (k : Bytes) : Option Bytes := d.cur.get k

/-- `Db::flush_async().await`. -/
def flush (d : Db) : Db := ⟨d.cur, [d.cur]⟩

end Db

end BCT
