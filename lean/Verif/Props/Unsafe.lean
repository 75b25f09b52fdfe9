import Verif.Model.Unsafe
import Verif.Props.Proofs
import Verif.Props.Gas
import Verif.Props.Foreign
import Verif.Props.Time
/-!
# C163: undefined behaviour
-/

namespace BCT.Props
open BCT

/-! ## The functions with every `unsafe` site spelled out agree with the functions of the model -/

theorem take_eq (data : Bytes) (i n : Nat) : Unsafe.takeUnchecked data i n = sliceN data i n := by
  unfold Unsafe.takeUnchecked slice sliceN Unsafe.intoUnchecked
  by_cases h : i + n ≤ data.length
  · rw [if_pos h, dif_pos h]
    show (if h : ((data.drop i).take (i + n - i)).length = n then _ else _) = _
    rw [dif_pos (by simp; omega)]
    congr 2
    rw [Nat.add_sub_cancel_left]
  · rw [if_neg h, dif_neg h]; rfl

theorem into_val {n : Nat} (b : BytesN n) : Unsafe.intoUnchecked n b.val = .ok b := by
  unfold Unsafe.intoUnchecked; rw [dif_pos b.property]

theorem digest_eq (E : Env) (x : Bytes) : Unsafe.digest E x = .ok (E.sha256 x) := into_val _

theorem unsafe_dumpU256 (n : U256) (b : Bytes) : Unsafe.dumpU256 n b = .ok (BCT.dumpU256 n b) := by
  have grow : ∀ (l : Bytes) (s : DumpState), s.buffer.length ≤ (l.foldl dumpStep s).buffer.length := by
    intro l
    induction l with
    | nil => intro s; exact Nat.le_refl _
    | cons x l ih =>
      intro s
      refine Nat.le_trans ?_ (ih (dumpStep s x))
      unfold dumpStep
      split
      · simp
      · split <;> simp
  have grow2 : ∀ (l : List Nat) (s : DumpState),
      s.buffer.length ≤ (l.foldl (fun s num => (beBytes 8 num).foldl dumpStep s) s).buffer.length := by
    intro l
    induction l with
    | nil => intro s; exact Nat.le_refl _
    | cons x l ih => intro s; exact Nat.le_trans (grow _ s) (ih _)
  unfold Unsafe.dumpU256 BCT.dumpU256 setUnchecked
  simp only
  rw [if_pos]
  have := grow2 n.limbs.reverse ⟨b ++ [0], false, 0⟩
  simp only [List.length_append, List.length_singleton] at this
  omega

theorem unsafe_basicInfo (data : Bytes) : Unsafe.basicInfo data = BasicInfo.parse data := by
  unfold Unsafe.basicInfo BasicInfo.parse
  simp only [take_eq]

theorem unsafe_readHashes (data : Bytes) (n : Nat) : ∀ (index : Nat) (acc : List Hash), data.length - index ≤ n →
    Unsafe.readHashes data index acc = TransactionBlock.readHashes data index acc := by
  induction n with
  | zero =>
    intro index acc h
    rw [Unsafe.readHashes, TransactionBlock.readHashes, if_neg (by omega), if_neg (by omega)]
  | succ n ih =>
    intro index acc h
    rw [Unsafe.readHashes, TransactionBlock.readHashes]
    by_cases hi : index < data.length
    · rw [if_pos hi, if_pos hi]
      simp only [take_eq]
      congr 1
      funext h'
      exact ih _ _ (by omega)
    · rw [if_neg hi, if_neg hi]

theorem unsafe_transactionBlock (data : Bytes) : Unsafe.transactionBlock data = TransactionBlock.parse data := by
  unfold Unsafe.transactionBlock TransactionBlock.parse
  simp only [take_eq, unsafe_basicInfo, fun i a => unsafe_readHashes data _ i a (Nat.le_refl _)]

theorem unsafe_derivativeBlock (data : Bytes) : Unsafe.derivativeBlock data = DerivativeBlock.parse data := by
  unfold Unsafe.derivativeBlock DerivativeBlock.parse
  simp only [unsafe_basicInfo]

theorem unsafe_summarizeBlock (data : Bytes) : Unsafe.summarizeBlock data = SummarizeBlock.parse data := by
  unfold Unsafe.summarizeBlock SummarizeBlock.parse
  simp only [take_eq, unsafe_basicInfo]

theorem unsafe_mainChainBlock (data : Bytes) : Unsafe.mainChainBlock data = deserializeMainChainBlock data := by
  unfold Unsafe.mainChainBlock deserializeMainChainBlock
  cases data with
  | nil => rfl
  | cons h rest =>
    have e1 : getUnchecked (h :: rest) 0 = .ok h := rfl
    have e2 : sliceFrom (h :: rest) 1 = .ok rest := by unfold sliceFrom; rw [if_pos (by simp)]; rfl
    simp only [List.isEmpty_cons, e1, e2, Outcome.ok_bind, unsafe_transactionBlock, unsafe_summarizeBlock]
    rfl

theorem unsafe_transaction (E : Env) (data : Bytes) : Unsafe.transaction E data = Transaction.parse E data := by
  unfold Unsafe.transaction Transaction.parse
  simp only [take_eq]

theorem unsafe_signingBytes (s r : Address) (ts : UInt64) (a : U256) (d : Option Bytes) :
    Unsafe.signingBytes s r ts a d = .ok (Transaction.signingBytes s r ts a d) := by
  unfold Unsafe.signingBytes Transaction.signingBytes
  simp only [unsafe_dumpU256, Outcome.ok_bind]
  cases d <;> rfl

theorem unsafe_generateSignature (E : Env) (S : SigScheme) (s r : Address) (ts : UInt64) (a : U256) (d : Option Bytes)
    (k : BytesN 32) : Unsafe.generateSignature E S s r ts a d k = Transaction.generateSignature E S s r ts a d k := by
  unfold Unsafe.generateSignature Transaction.generateSignature
  have e : ∀ h : Hash, Unsafe.unwrapUnchecked (Unsafe.messageFromDigest h.val) = .ok h := by
    intro h; unfold Unsafe.messageFromDigest; rw [dif_pos h.property]; rfl
  simp only [unsafe_signingBytes, Outcome.ok_bind, e]

theorem unsafe_hashWithoutSignature (E : Env) (t : Transaction) :
    Unsafe.hashWithoutSignature E t = .ok (t.hashWithoutSignature E) := by
  unfold Unsafe.hashWithoutSignature Transaction.hashWithoutSignature
  simp only [unsafe_signingBytes, Outcome.ok_bind, digest_eq]
  rfl

theorem fill_loop {α : Type} (f : α → UInt8) : ∀ (l : List α) (n : Nat) (a : Bytes), n + l.length ≤ a.length →
    (l.zipIdx n).foldlM (fun a (p : α × Nat) => setUnchecked a p.2 (f p.1)) a =
      Outcome.ok (a.take n ++ l.map f ++ a.drop (n + l.length)) := by
  intro l
  induction l with
  | nil => intro n a h; simp
  | cons x l ih =>
    intro n a h
    simp only [List.length_cons] at h
    rw [List.zipIdx_cons, List.foldlM_cons]
    simp only [setUnchecked, if_pos (show n < a.length by omega), Outcome.ok_bind]
    have := ih (n + 1) (a.set n (f x)) (by simp; omega)
    simp only [setUnchecked] at this
    rw [this]
    congr 1
    rw [List.drop_set_of_lt (by omega), List.length_cons, show n + 1 + l.length = n + (l.length + 1) by omega]
    rw [List.take_succ_eq_append_getElem (by simp; omega), List.take_set_of_le (Nat.le_refl _)]
    simp

theorem andBytes_eq (l r : Hash) : Unsafe.andBytes l r = .ok (andHash l r).val := by
  unfold Unsafe.andBytes
  have := fill_loop (fun p : UInt8 × UInt8 => p.1 &&& p.2) (l.val.zip r.val) 0 (List.replicate 32 0)
    (by simp [l.property, r.property])
  rw [this]
  congr 1
  simp only [List.take_zero, List.nil_append, andHash, List.length_zip, l.property, r.property]
  rw [List.drop_eq_nil_of_le (by simp), List.append_nil, List.zip, List.map_zipWith]

theorem unsafe_hashStep (E : Env) (a : List Hash) (i : Nat) : Unsafe.hashStep E a i = BCT.hashStep E a i := by
  unfold Unsafe.hashStep BCT.hashStep
  simp only [andBytes_eq, digest_eq, Outcome.ok_bind]

theorem unsafe_buildTree (E : Env) (items : List Hash) : Unsafe.buildTree E items = BCT.buildTree E items := by
  unfold Unsafe.buildTree BCT.buildTree
  have : Unsafe.hashStep E = BCT.hashStep E := by funext a i; exact unsafe_hashStep E a i
  simp only [this]

theorem mapM_ok {α β : Type} (f : α → Outcome β) (g : α → β) : ∀ l : List α, (∀ x ∈ l, f x = .ok (g x)) →
    l.mapM f = .ok (l.map g)
  | [], _ => rfl
  | x :: l, h => by
    rw [List.mapM_cons, h x (by simp), Outcome.ok_bind, mapM_ok f g l (fun y hy => h y (by simp [hy]))]
    rfl

theorem getD_map {l r : Hash} : (List.range 32).map (fun n => l.val.getD n 0 &&& r.val.getD n 0) = (andHash l r).val := by
  apply List.ext_getElem
  · simp [andHash, l.property, r.property]
  · intro i h1 h2
    simp only [List.length_map, List.length_range] at h1
    have hl : i < l.val.length := by rw [l.property]; exact h1
    have hr : i < r.val.length := by rw [r.property]; exact h1
    simp [andHash, List.getD_eq_getElem?_getD, List.getElem?_eq_getElem hl, List.getElem?_eq_getElem hr]

theorem andChecked_eq (l r : Hash) : Unsafe.andChecked l r = .ok (andHash l r).val := by
  unfold Unsafe.andChecked
  rw [mapM_ok _ (fun n => l.val.getD n 0 &&& r.val.getD n 0), getD_map]
  intro n hn
  have hn := List.mem_range.mp hn
  have hl : n < l.val.length := by rw [l.property]; exact hn
  have hr : n < r.val.length := by rw [r.property]; exact hn
  simp [idx, List.getD_eq_getElem?_getD, List.getElem?_eq_getElem hl, List.getElem?_eq_getElem hr]

theorem andProof_eq (l r : Hash) : Unsafe.andProof l r = .ok (andHash l r).val := by
  unfold Unsafe.andProof
  rw [mapM_ok _ (fun p => p.1 &&& r.val.getD p.2 0)]
  · congr 1
    apply List.ext_getElem
    · simp [andHash, l.property, r.property]
    · intro i h1 h2
      simp only [List.length_map, List.length_zipIdx, l.property] at h1
      have hr : i < r.val.length := by rw [r.property]; exact h1
      simp [andHash, List.getD_eq_getElem?_getD, List.getElem?_eq_getElem hr]
  · rintro ⟨x, n⟩ hn
    have := List.mem_zipIdx hn
    rw [l.property] at this
    have hr : n < r.val.length := by rw [r.property]; omega
    simp [getUnchecked, List.getD_eq_getElem?_getD, List.getElem?_eq_getElem hr]

theorem sameFrom_eq (a b : Hash) : ∀ l : List Nat, (∀ i ∈ l, i < 32) →
    Unsafe.sameFrom a.val b.val l = .ok (decide (∀ i ∈ l, a.val[i]? = b.val[i]?))
  | [], _ => by simp [Unsafe.sameFrom]
  | i :: l, h => by
    have hi : i < 32 := h i (by simp)
    have ha : i < a.val.length := by rw [a.property]; exact hi
    have hb : i < b.val.length := by rw [b.property]; exact hi
    unfold Unsafe.sameFrom getUnchecked
    simp only [List.getElem?_eq_getElem ha, List.getElem?_eq_getElem hb, Outcome.ok_bind]
    by_cases e : a.val[i] = b.val[i]
    · rw [if_neg (by simpa using e), sameFrom_eq a b l (fun j hj => h j (by simp [hj]))]
      simp [List.getElem?_eq_getElem ha, List.getElem?_eq_getElem hb, e]
    · rw [if_pos e]
      simp [List.getElem?_eq_getElem ha, List.getElem?_eq_getElem hb, e]

theorem unsafe_verifyProof (E : Env) (h root : Hash) (proof : List Hash) :
    Unsafe.verifyProof E h root proof = BCT.verifyProof E h root proof := by
  cases proof with
  | nil => rfl
  | cons p ps =>
    unfold Unsafe.verifyProof BCT.verifyProof
    simp only [andChecked_eq, andProof_eq, digest_eq, Outcome.ok_bind]
    have fold : ∀ (l : List Hash) (c : Hash),
        l.foldlM (fun c p => (Outcome.ok (E.sha256 (andHash c p).val) : Outcome Hash)) c =
          .ok (l.foldl (fun c p => E.sha256 (andHash c p).val) c) := by
      intro l
      induction l with
      | nil => intro c; rfl
      | cons x l ih => intro c; rw [List.foldlM_cons, Outcome.ok_bind, ih]; rfl
    rw [fold, Outcome.ok_bind, sameFrom_eq _ _ _ (fun i hi => List.mem_range.mp hi)]
    congr 1
    apply decide_eq_decide.mpr
    generalize hc : ps.foldl (fun c p => E.sha256 (andHash c p).val) (E.sha256 (andHash h p).val) = c
    constructor
    · intro hall
      apply List.ext_getElem?
      intro i
      by_cases hi : i < 32
      · exact hall i (List.mem_range.mpr hi)
      · rw [List.getElem?_eq_none (by rw [root.property]; omega), List.getElem?_eq_none (by rw [c.property]; omega)]
    · intro e i _; rw [e]

theorem unsafe_validate (E : Env) (b : Block) (prev : Option Block) : Unsafe.validate E b prev = b.validate E prev := by
  cases b <;> cases prev <;>
    simp [Unsafe.validate, Unsafe.validateTransaction, Unsafe.validateDerivative, Unsafe.validateSummarize, Block.validate,
      TransactionBlock.validate, DerivativeBlock.validate, SummarizeBlock.validate, Unsafe.unwrapUnchecked,
      unsafe_buildTree, BCT.merkleRoot]

/-! ## Results that are not undefined behaviour -/

theorem ne_ub_bind {α β : Type} {x : Outcome α} {f : α → Outcome β} (hx : x ≠ .ub) (hf : ∀ a, x = .ok a → f a ≠ .ub) :
    (x >>= f) ≠ .ub := by
  cases x with
  | ok a => exact hf a rfl
  | err e => simp
  | panic e => simp
  | ub => exact absurd rfl hx

theorem ne_ub_mapErr {α : Type} {x : Outcome α} (e : Err) (hx : x ≠ .ub) : x.mapErr e ≠ .ub := by
  cases x <;> simp_all

theorem ne_ub_ite {α : Type} {c : Prop} [Decidable c] {x y : Outcome α} (hx : x ≠ .ub) (hy : y ≠ .ub) :
    (if c then x else y) ≠ .ub := by split <;> assumption

theorem ne_ub_unwrap {α : Type} {x : Outcome α} (hx : x ≠ .ub) : x.unwrap ≠ .ub := by
  cases x with
  | ub => exact absurd rfl hx
  | ok a => simp
  | err e => simp
  | panic e => exact fun h => by cases h

theorem ne_ub_ofOption {α : Type} (x : Option α) : Outcome.ofOption x ≠ .ub := by cases x <;> simp

theorem ne_ub_idx (d : Bytes) (i : Nat) : idx d i ≠ .ub := by unfold idx; split <;> simp
theorem ne_ub_slice (d : Bytes) (i j : Nat) : slice d i j ≠ .ub := by unfold slice; split <;> simp
theorem ne_ub_sliceFrom (d : Bytes) (i : Nat) : sliceFrom d i ≠ .ub := by unfold sliceFrom; split <;> simp
theorem ne_ub_sliceN (d : Bytes) (i n : Nat) : sliceN d i n ≠ .ub := by unfold sliceN; split <;> simp
theorem ne_ub_fromBE (b : Bytes) : U256.fromBE b ≠ .ub := by unfold U256.fromBE; split <;> simp
theorem ne_ub_add (a b : U256) : a.add b ≠ .ub := by unfold U256.add; split <;> simp
theorem ne_ub_sub (a b : U256) : a.sub b ≠ .ub := by unfold U256.sub; split <;> simp
theorem ne_ub_mulNat (a : U256) (n : Nat) : a.mulNat n ≠ .ub := by unfold U256.mulNat; split <;> simp
theorem ne_ub_header (h : UInt8) : Headers.fromU8 h ≠ .ub := by
  unfold Headers.fromU8; repeat' split
  all_goals simp

/-- Walks through a chain of steps none of which has undefined behaviour. -/
macro "no_ub" : tactic => `(tactic| repeat' (first
  | exact ne_ub_idx _ _ | exact ne_ub_slice _ _ _ | exact ne_ub_sliceFrom _ _ | exact ne_ub_sliceN _ _ _
  | exact ne_ub_fromBE _ | exact ne_ub_add _ _ | exact ne_ub_sub _ _ | exact ne_ub_mulNat _ _ | exact ne_ub_header _
  | exact ne_ub_ofOption _ | assumption | exact (fun h => by cases h)
  | refine ne_ub_mapErr _ ?_ | refine ne_ub_unwrap ?_ | refine ne_ub_bind ?_ (fun _ _ => ?_) | split))

theorem ne_ub_loadU256 (d : Bytes) : loadU256 d ≠ .ub := by unfold loadU256; simp only; no_ub

theorem ne_ub_loadBiguint (d : Bytes) : loadBiguint d ≠ .ub := by
  unfold loadBiguint; simp only; no_ub

theorem ne_ub_dumpBiguint (n : Nat) (b : Bytes) : dumpBiguint n b ≠ .ub := by
  unfold dumpBiguint; simp only; no_ub

theorem ne_ub_basicInfo (d : Bytes) : BasicInfo.parse d ≠ .ub := by
  have := ne_ub_loadU256
  unfold BasicInfo.parse
  simp only
  split
  · simp
  · refine ne_ub_bind (ne_ub_sliceN _ _ _) fun _ _ => ne_ub_bind (ne_ub_sliceN _ _ _) fun _ _ =>
      ne_ub_bind (ne_ub_sliceN _ _ _) fun _ _ => ne_ub_bind (ne_ub_sliceN _ _ _) fun _ _ =>
      ne_ub_bind (ne_ub_sliceN _ _ _) fun _ _ => ne_ub_bind (ne_ub_sliceFrom _ _) fun _ _ =>
      ne_ub_bind (ne_ub_mapErr _ (this _)) fun _ _ => by simp

theorem ne_ub_readHashes (data : Bytes) (n : Nat) : ∀ (index : Nat) (acc : List Hash), data.length - index ≤ n →
    TransactionBlock.readHashes data index acc ≠ .ub := by
  induction n with
  | zero => intro index acc h; rw [TransactionBlock.readHashes, if_neg (by omega)]; simp
  | succ n ih =>
    intro index acc h
    rw [TransactionBlock.readHashes]
    split
    · exact ne_ub_bind (ne_ub_sliceN _ _ _) fun _ _ => ih _ _ (by omega)
    · simp

theorem ne_ub_transactionBlock (d : Bytes) : TransactionBlock.parse d ≠ .ub := by
  unfold TransactionBlock.parse
  refine ne_ub_bind (ne_ub_sliceN _ _ _) fun _ _ => ne_ub_bind (ne_ub_sliceFrom _ _) fun _ _ =>
    ne_ub_bind (ne_ub_mapErr _ (ne_ub_basicInfo _)) fun _ _ => ne_ub_bind (ne_ub_sliceFrom _ _) fun _ _ =>
    ne_ub_bind (ne_ub_mapErr _ (ne_ub_loadU256 _)) fun r _ => ?_
  obtain ⟨fee, feeSize⟩ := r
  simp only
  split
  · simp
  · exact ne_ub_bind (ne_ub_readHashes _ _ _ _ (Nat.le_refl _)) fun _ _ => by simp

theorem ne_ub_derivativeBlock (d : Bytes) : DerivativeBlock.parse d ≠ .ub := by
  unfold DerivativeBlock.parse
  split
  · simp
  · exact ne_ub_bind (ne_ub_basicInfo _) fun _ _ => by simp

theorem ne_ub_summarizeBlock (d : Bytes) : SummarizeBlock.parse d ≠ .ub := by
  unfold SummarizeBlock.parse
  split
  · simp
  · exact ne_ub_bind (ne_ub_sliceN _ _ _) fun _ _ => ne_ub_bind (ne_ub_sliceFrom _ _) fun _ _ =>
      ne_ub_bind (ne_ub_mapErr _ (ne_ub_basicInfo _)) fun _ _ => by simp

theorem ne_ub_mainChainBlock (d : Bytes) : deserializeMainChainBlock d ≠ .ub := by
  unfold deserializeMainChainBlock
  split
  · simp
  · refine ne_ub_bind (ne_ub_mapErr _ (ne_ub_header _)) fun h _ => ?_
    split
    · exact ne_ub_bind (ne_ub_transactionBlock _) fun _ _ => by simp
    · exact ne_ub_bind (ne_ub_summarizeBlock _) fun _ _ => by simp
    · simp

theorem ne_ub_transaction (E : Env) (d : Bytes) : Transaction.parse E d ≠ .ub := by
  unfold Transaction.parse
  simp only
  split
  · simp
  · refine ne_ub_bind (ne_ub_sliceN _ _ _) fun _ _ => ne_ub_bind (ne_ub_sliceN _ _ _) fun _ _ =>
      ne_ub_bind (ne_ub_sliceN _ _ _) fun _ _ => ne_ub_bind (ne_ub_sliceN _ _ _) fun _ _ =>
      ne_ub_bind (ne_ub_sliceFrom _ _) fun _ _ => ne_ub_bind (ne_ub_mapErr _ (ne_ub_loadU256 _)) fun r _ => ?_
    split
    · simp
    · refine ne_ub_bind (ne_ub_sliceFrom _ _) fun _ _ => ?_
      split <;> simp

theorem ne_ub_merkleRoot (E : Env) (l : List Hash) : BCT.merkleRoot E l ≠ .ub := by rw [merkleRoot_eq]; simp

theorem checkPow_ok (E : Env) (h d : Hash) (l : List Hash) (p : Bytes) : ∃ b, checkPow E h d l p = .ok b := by
  unfold checkPow
  rw [merkleRoot_eq]
  exact ⟨_, rfl⟩

theorem ne_ub_checkPow (E : Env) (h d : Hash) (l : List Hash) (p : Bytes) : checkPow E h d l p ≠ .ub := by
  obtain ⟨b, e⟩ := checkPow_ok E h d l p
  rw [e]; simp

theorem ne_ub_fee (d : Hash) : recalculateFee d ≠ .ub := ne_ub_mulNat _ _

theorem ne_ub_verifyProof (E : Env) (h r : Hash) (l : List Hash) : verifyProof E h r l ≠ .ub := by
  cases l <;> simp [verifyProof]

/-- A tree built from any hashes answers both questions. -/
theorem tree_answers (E : Env) (items : List Hash) : ∃ t root, buildTree E items = .ok t ∧ t.getRoot = .ok root ∧
    ∀ h, ∃ proof, t.getProof h = .ok proof := by
  obtain ⟨t, p, h1, -, h2, -⟩ := C17_merkle_root E items
  refine ⟨t, _, h1, h2, fun h => ?_⟩
  by_cases hh : h ∈ items
  · obtain ⟨t', root, proof, g1, g2, g3, -⟩ := C18_proof_complete E items h hh
    rw [h1] at g1; cases g1; exact ⟨proof, g3⟩
  · obtain ⟨t', root, proof, g1, g2, g3, -⟩ := C83_last_leaf_partial E items h hh
    rw [h1] at g1; cases g1; exact ⟨proof, g3⟩

/-! ## The one site whose precondition can be violated -/

theorem easier_ub (E : Env) (d : Hash) : easier E d = .ub ↔ E.overflowChecks = false ∧ d.val.head? = some 0xFF := by
  obtain ⟨x, xs, hd⟩ : ∃ x xs, d.val = x :: xs := by
    cases h : d.val with
    | nil => have := d.property; rw [h] at this; cases this
    | cons x xs => exact ⟨x, xs, rfl⟩
  have hlt := firstNonZero_lt d
  have hm : ∀ i f, i < 32 → modifyUnchecked d i f ≠ .ub := fun i f h => by
    unfold modifyUnchecked; rw [if_pos h]; simp
  by_cases hx : x = 0xFF
  · subst hx
    have h0 : firstNonZero d.val = 0 := by rw [hd]; exact firstNonZero_cons_ne _ _ (by decide)
    unfold easier
    simp only [h0]
    simp only [hd, List.getD_cons_zero, List.head?_cons, and_true]
    rw [if_neg (by decide), if_pos trivial, if_pos trivial]
    cases E.overflowChecks <;> simp
  · have : ¬ (d.val.head? = some 0xFF) := by rw [hd]; simpa using hx
    simp only [this, and_false, iff_false]
    unfold easier
    simp only
    split
    · simp
    · split
      · rename_i hv
        split
        · rename_i h0
          rw [h0, hd] at hv
          exact absurd hv hx
        · exact hm _ _ (by omega)
      · exact hm _ _ hlt

theorem harder_ne_ub (d : Hash) : harder d ≠ .ub := by
  unfold harder modifyUnchecked
  rw [if_pos (firstNonZero_lt d)]
  simp

/-- `ts - prev` as the release build computes it. -/
def since64 (ts prev : UInt64) : Nat := (ts.toNat + (2 ^ 64 - prev.toNat)) % 2 ^ 64

theorem recalculate_ub (E : Env) (prev ts : UInt64) (d : Hash) : recalculateDifficulty E prev ts d = .ub ↔
    E.overflowChecks = false ∧ d.val.head? = some 0xFF ∧ 600 < since64 ts prev := by
  have hs : since64 ts prev = (ts - prev).toNat := by
    rw [UInt64.toNat_sub, since64, Nat.add_comm]
  rw [recalculate_eq, hs]
  unfold u64Sub
  split
  · rename_i h
    simp [h.1]
  · rw [Outcome.ok_bind]
    unfold stepBy
    have e : ((600 : UInt64) < ts - prev) ↔ 600 < (ts - prev).toNat := by rw [UInt64.lt_iff_toNat_lt]; rfl
    split
    · rename_i h
      have : ¬ 600 < (ts - prev).toNat := by
        have := UInt64.lt_iff_toNat_lt.mp h
        have h6 : (600 : UInt64).toNat = 600 := rfl
        omega
      simp [this, harder_ne_ub]
    · split
      · rename_i _ h
        rw [easier_ub]
        simp [e.mp h]
      · rename_i _ h
        have : ¬ 600 < (ts - prev).toNat := fun h' => h (e.mpr h')
        simp [this]

/-! ## Calls -/

/-- In no state does the call end in undefined behaviour. -/
def Sane {σ α : Type} (x : Act σ α) : Prop := ∀ s, (x s).out ≠ .ub

section
variable {σ τ α β : Type}

theorem ub_bind_at {x : Act σ α} {f : α → Act σ β} {s : σ} (hx : (x s).out ≠ .ub)
    (hf : ∀ a, (x s).out = .ok a → (f a (x s).final).out ≠ .ub) : ((x >>= f) s).out ≠ .ub := by
  rw [Act.bind_def]
  unfold Act.bind
  cases h : (x s).out with
  | ok a => exact hf a h
  | err e => simp
  | panic e => simp
  | ub => exact absurd h hx

theorem sane_pure (a : α) : Sane (Pure.pure a : Act σ α) := fun s => by simp
theorem sane_get : Sane (Act.get : Act σ σ) := fun s => by simp
theorem sane_lift {o : Outcome α} (h : o ≠ .ub) : Sane (Act.lift o : Act σ α) := fun _ => h
theorem sane_step (f : σ → σ) : Sane (Act.step f) := fun s => by simp
theorem sane_bind {x : Act σ α} {f : α → Act σ β} (hx : Sane x) (hf : ∀ a, Sane (f a)) : Sane (x >>= f) :=
  fun s => ub_bind_at (hx s) fun a _ => hf a _
theorem sane_mapErr {x : Act σ α} (e : Err) (hx : Sane x) : Sane (x.mapErr e) := fun s => ne_ub_mapErr e (hx s)
theorem sane_void {x : Act σ α} (hx : Sane x) : Sane x.void := fun s => ne_ub_bind (hx s) fun _ _ => by simp
theorem sane_zoom {part : τ → σ} {put : σ → τ → τ} {x : Act σ α} (hx : Sane x) : Sane (x.zoom part put) :=
  fun t => hx (part t)
theorem sane_forEach {l : List β} {f : β → Act σ Unit} (h : ∀ b, Sane (f b)) : Sane (Act.forEach l f) := by
  induction l with
  | nil => exact sane_pure ()
  | cons b l ih => exact sane_bind (h b) (fun _ => ih)
theorem sane_ite {c : Prop} [Decidable c] {x y : Act σ α} (hx : c → Sane x) (hy : ¬ c → Sane y) :
    Sane (if c then x else y) := by
  split
  · exact hx ‹_›
  · exact hy ‹_›

end

theorem sane_chainAdd (E : Env) (h : U256) (d : Bytes) : Sane (Chain.addBlock E h d) := by
  unfold Chain.addBlock
  exact sane_bind sane_get fun s => sane_ite (fun _ => sane_lift (by simp)) fun _ =>
    sane_bind (sane_step _) fun _ => sane_bind (sane_step _) fun _ => sane_bind (sane_lift (ne_ub_add _ _)) fun _ =>
      sane_step _

theorem sane_mainAdd (E : Env) (b : Block) : Sane (MainChain.addBlock E b) := sane_zoom (sane_chainAdd _ _ _)

theorem sane_mainFlush : Sane MainChain.flush :=
  sane_bind (sane_bind (sane_step _) fun _ => sane_bind (sane_step _) fun _ => sane_step _) fun _ =>
    sane_bind (sane_step _) fun _ => sane_bind (sane_step _) fun _ => sane_step _

theorem sane_derivFlush : Sane DerivativeChain.flush :=
  sane_bind (sane_bind (sane_step _) fun _ => sane_bind (sane_step _) fun _ => sane_bind (sane_step _) fun _ => sane_step _)
    fun _ => sane_bind (sane_step _) fun _ => sane_step _

theorem sane_addTransaction (E : Env) (t : Transaction) : Sane (MainChain.addTransaction E t) := sane_step _

theorem ne_ub_balance (v : Option Bytes) : Ledger.balance v ≠ .ub := by
  cases v with
  | none => simp [Ledger.balance]
  | some v => exact ne_ub_bind (ne_ub_unwrap (ne_ub_loadU256 v)) fun _ _ => by simp

theorem sane_transact {c : KV → Outcome KV} (h : ∀ m, c m ≠ .ub) : Sane (Ledger.transact c) :=
  sane_bind sane_get fun _ => sane_bind (sane_lift (ne_ub_unwrap (h _))) fun _ => sane_step _

theorem sane_add (o : Bytes) (a : U256) : Sane (Ledger.add o a) := sane_transact fun m => by
  unfold Ledger.addClosure
  exact ne_ub_bind (ne_ub_balance _) fun _ _ => ne_ub_bind (ne_ub_add _ _) fun _ _ => by simp

theorem sane_set (o : Bytes) (a : U256) : Sane (Ledger.set o a) := sane_transact fun m => by simp [Ledger.setClosure]

theorem sane_sub (o : Bytes) (a : U256) : Sane (Ledger.sub o a) := sane_transact fun m => by
  unfold Ledger.subClosure
  refine ne_ub_bind (ne_ub_balance _) fun _ _ => ?_
  split
  · simp
  · exact ne_ub_bind (ne_ub_sub _ _) fun _ _ => by simp

theorem sane_transfer (s t : Bytes) (a : U256) : Sane (Ledger.transfer s t a) := sane_transact fun m => by
  unfold Ledger.transferClosure
  refine ne_ub_bind (ne_ub_balance _) fun _ _ => ne_ub_bind (ne_ub_balance _) fun _ _ => ?_
  split
  · simp
  · exact ne_ub_bind (ne_ub_sub _ _) fun _ _ => ne_ub_bind (ne_ub_add _ _) fun _ _ => by simp

theorem sane_sendAmount (s t : Bytes) (a : U256) : Sane (Tree.sendAmount s t a) :=
  sane_ite (fun _ => sane_pure _) fun _ => sane_zoom (sane_transfer _ _ _)

theorem sane_flush : Sane Tree.flush :=
  sane_bind (sane_zoom sane_mainFlush) fun _ => sane_bind (sane_step _) fun _ => sane_bind (sane_step _) fun _ =>
    sane_bind (sane_step _) fun _ => sane_step _

theorem sane_rotate : Sane Tree.rotateDbs :=
  sane_bind sane_flush fun _ => sane_bind (sane_step _) fun _ => sane_bind (sane_step _) fun _ =>
    sane_bind (sane_step _) fun _ => sane_step _

theorem ne_ub_decode (v : Option Bytes) : MainChain.decode v ≠ .ub := by
  cases v with
  | none => simp [MainChain.decode]
  | some v => exact ne_ub_bind (ne_ub_mapErr _ (ne_ub_mainChainBlock v)) fun _ _ => by simp

theorem ne_ub_derivDecode (v : Option Bytes) : DerivativeChain.decode v ≠ .ub := by
  cases v with
  | none => simp [DerivativeChain.decode]
  | some v => exact ne_ub_bind (ne_ub_sliceFrom _ _) fun _ _ =>
      ne_ub_bind (ne_ub_mapErr _ (ne_ub_derivativeBlock _)) fun _ _ => by simp

theorem ne_ub_findRawByHash (c : Chain) (h : Hash) : c.findRawByHash h ≠ .ub := by
  unfold Chain.findRawByHash
  split
  · simp
  · exact ne_ub_bind (ne_ub_fromBE _) fun _ _ => by simp

theorem ne_ub_lastRaw (m : MainChain) : m.getLastRawBlock ≠ .ub := ne_ub_bind (ne_ub_sub _ _) fun _ _ => by simp

theorem ne_ub_last (m : MainChain) : m.getLastBlock ≠ .ub := ne_ub_bind (ne_ub_lastRaw m) fun _ _ => ne_ub_decode _

theorem ne_ub_findByHash (m : MainChain) (h : Hash) : m.findByHash h ≠ .ub :=
  ne_ub_bind (ne_ub_findRawByHash _ _) fun _ _ => ne_ub_decode _

theorem ne_ub_derivLastRaw (m : DerivativeChain) : m.getLastRawBlock ≠ .ub := by
  unfold DerivativeChain.getLastRawBlock
  split
  · simp
  · exact ne_ub_bind (ne_ub_sub _ _) fun _ _ => by simp

theorem ne_ub_derivLast (m : DerivativeChain) : m.getLastBlock ≠ .ub :=
  ne_ub_bind (ne_ub_derivLastRaw m) fun _ _ => ne_ub_derivDecode _

theorem ne_ub_getTransaction (E : Env) (m : MainChain) (h : Hash) : m.getTransaction E h ≠ .ub := by
  unfold MainChain.getTransaction
  split
  · simp
  · split
    · simp
    · exact ne_ub_bind (ne_ub_sliceFrom _ _) fun _ _ => ne_ub_bind (ne_ub_mapErr _ (ne_ub_transaction E _)) fun _ _ => by simp

theorem ne_ub_derivNew (h : Hash) (a b : Db) (c : Option Bytes) : DerivativeChain.new h a b c ≠ .ub := by
  unfold DerivativeChain.new
  refine ne_ub_bind ?_ fun _ _ => by simp
  unfold DerivativeChain.readConfig
  split
  · simp
  · split
    · split
      · split
        · exact ne_ub_bind (ne_ub_fromBE _) fun _ _ => by simp
        · simp
      · simp
    · simp

theorem sane_getDeriv (E : Env) (o : Address) : Sane (Tree.getDerivativeChain E o) :=
  sane_bind sane_get fun _ => sane_ite (fun _ => sane_pure _) fun _ => sane_bind (sane_lift (ne_ub_last _)) fun _ =>
    sane_bind (sane_lift (ne_ub_ofOption _)) fun _ => sane_bind (sane_lift (ne_ub_derivNew _ _ _ _)) fun _ => sane_step _

theorem sane_derivAdd (E : Env) (o : Address) (b : DerivativeBlock) :
    Sane (Tree.onDeriv o (DerivativeChain.addBlock E b)) := sane_zoom (sane_zoom (sane_chainAdd _ _ _))

theorem sane_mainNew (E : Env) : Sane (MainChain.new E) := by
  unfold MainChain.new
  refine sane_bind sane_get fun s => sane_bind (sane_lift ?_) fun hd => sane_bind (sane_step _) fun _ =>
    sane_ite (fun _ => sane_bind (sane_lift (ne_ub_merkleRoot _ _)) fun _ => sane_mapErr _ (sane_mainAdd _ _))
      fun _ => sane_pure _
  unfold MainChain.readConfig
  split
  · simp
  · split
    · split
      · exact ne_ub_bind (ne_ub_fromBE _) fun _ _ => by simp
      · simp
    · simp

theorem sane_new (E : Env) : Sane (Tree.new E) :=
  sane_bind (sane_step _) fun _ => sane_bind (sane_zoom (sane_mainNew E)) fun _ => sane_bind sane_get fun _ =>
    sane_ite (fun _ => sane_zoom (sane_set _ _)) fun _ => sane_pure _

theorem sane_addTransactions (E : Env) (ts : List Transaction) : Sane (MainChain.addTransactions E ts) :=
  sane_forEach fun t => sane_addTransaction E t

theorem sane_sendTransaction (E : Env) (tx : Transaction) : Sane (Tree.sendTransaction E tx) :=
  sane_bind sane_get fun t => sane_bind (sane_lift (ne_ub_balance _)) fun _ => sane_bind (sane_lift (ne_ub_balance _)) fun _ =>
    sane_bind (sane_lift (ne_ub_mulNat _ _)) fun _ => sane_ite (fun _ => sane_lift (by simp)) fun _ =>
    sane_bind (sane_lift (ne_ub_last _)) fun _ => sane_bind (sane_lift (ne_ub_ofOption _)) fun _ =>
    sane_bind (sane_lift (ne_ub_fee _)) fun _ => sane_bind (sane_lift (ne_ub_add _ _)) fun _ =>
    sane_ite (fun _ => sane_lift (by simp)) fun _ => sane_bind (sane_zoom (sane_addTransaction _ _)) fun _ =>
    sane_bind (sane_sendAmount _ _ _) fun _ => sane_zoom (sane_sub _ _)

/-- The part of `emmit_new_main_block` after the difficulty has been recalculated. -/
theorem emitMain_sane (E : Env) (p : BytesN 32) (f : Address) (txs : List Hash) (ts : UInt64) (s : Tree)
    (h : ∀ b, s.main.getLastBlock = .ok (some b) →
      recalculateDifficulty E b.info.timestamp ts b.info.difficulty ≠ .ub) :
    (Tree.emitMain E p f txs ts s).out ≠ .ub := by
  unfold Tree.emitMain
  rw [Act.get_bind]
  refine ub_bind_at (ne_ub_last _) fun last hl => ub_bind_at (ne_ub_ofOption _) fun b hb =>
    ub_bind_at (ne_ub_checkPow _ _ _ _ _) fun good _ => ?_
  cases last with
  | none => simp at hb
  | some b' =>
    have hb : b' = b := by simpa using hb
    subst hb
    split
    · simp
    · refine ub_bind_at (h b' hl) fun d _ => ub_bind_at (ne_ub_fee _) fun fee _ =>
        ub_bind_at (ne_ub_add _ _) fun height _ => ?_
      refine sane_bind ?_ (fun _ => sane_bind (sane_zoom (sane_mainAdd _ _)) fun _ => sane_pure _) _
      exact sane_ite (fun _ => sane_ite (fun _ => sane_lift (by simp)) fun _ =>
          sane_bind (sane_lift (ne_ub_merkleRoot _ _)) fun _ => sane_bind sane_rotate fun _ =>
          sane_bind (sane_zoom (sane_set _ _)) fun _ => sane_pure _)
        fun _ => sane_ite (fun _ => sane_lift (by simp)) fun _ => sane_bind (sane_lift (ne_ub_merkleRoot _ _)) fun _ => sane_pure _

theorem emitDerivative_sane (E : Env) (p : BytesN 32) (f : Address) (ts : UInt64) (s : Tree)
    (h : (Tree.getDerivativeChain E f s).out = .ok () → ∀ b,
      ((Tree.getDerivativeChain E f s).final.handle f).getLastBlock = .ok (some b) →
      recalculateDifficulty E b.defaultInfo.timestamp ts b.defaultInfo.difficulty ≠ .ub) :
    (Tree.emitDerivative E p f ts s).out ≠ .ub := by
  have hbegin : BEGINNING_DIFFICULTY.val.head? ≠ some 0xFF := by decide
  unfold Tree.emitDerivative
  refine ub_bind_at (sane_getDeriv E f s) fun _ hok => ?_
  rw [Act.get_bind]
  generalize (Tree.getDerivativeChain E f s).final = t at h
  refine ub_bind_at (ne_ub_derivLast _) fun last hl => ?_
  cases last with
  | some b =>
    refine ub_bind_at (ne_ub_bind (ne_ub_add _ _) fun _ _ => by simp) fun r hr => ?_
    have hr : (b.defaultInfo.height.add U256.one >>= fun h =>
      Outcome.ok (b.hash E, b.defaultInfo.difficulty, b.defaultInfo.timestamp, h)) = Outcome.ok r := hr
    have hr2 : r.2.1 = b.defaultInfo.difficulty ∧ r.2.2.1 = b.defaultInfo.timestamp := by
      cases e : b.defaultInfo.height.add U256.one with
      | ok v => rw [e] at hr; cases hr; exact ⟨rfl, rfl⟩
      | err v => rw [e] at hr; cases hr
      | panic v => rw [e] at hr; cases hr
      | ub => rw [e] at hr; cases hr
    refine ub_bind_at (ne_ub_checkPow _ _ _ _ _) fun good _ => ?_
    split
    · simp
    · refine ub_bind_at ?_ fun _ _ => sane_bind (sane_derivAdd _ _ _) (fun _ => sane_pure _) _
      show recalculateDifficulty E r.2.2.1 ts r.2.1 ≠ .ub
      rw [hr2.1, hr2.2]
      exact h hok b hl
  | none =>
    refine ub_bind_at (ne_ub_bind (ne_ub_findByHash _ _) fun o _ => by split <;> simp) fun r hr => ?_
    have hr : (t.main.findByHash (t.handle f).genesisHash >>= fun found => match found with
      | none => Outcome.err .chainFindByHashE
      | some block => Outcome.ok (block.hash E, BEGINNING_DIFFICULTY, block.info.timestamp, U256.zero)) = Outcome.ok r := hr
    have hr2 : r.2.1 = BEGINNING_DIFFICULTY := by
      cases e : t.main.findByHash (t.handle f).genesisHash with
      | ok v => cases v with
        | none => rw [e] at hr; cases hr
        | some v => rw [e] at hr; cases hr; rfl
      | err v => rw [e] at hr; cases hr
      | panic v => rw [e] at hr; cases hr
      | ub => rw [e] at hr; cases hr
    refine ub_bind_at (ne_ub_checkPow _ _ _ _ _) fun good _ => ?_
    split
    · simp
    · refine ub_bind_at ?_ fun _ _ => sane_bind (sane_derivAdd _ _ _) (fun _ => sane_pure _) _
      show recalculateDifficulty E r.2.2.1 ts r.2.1 ≠ .ub
      rw [hr2]
      exact fun e => hbegin ((recalculate_ub E _ _ _).mp e).2.1

theorem checkPow_full (E : Env) (h d : Hash) (l : List Hash) (p : Bytes) (hd : d.val.head? = some 0xFF) :
    checkPow E h d l p = .ok true := by
  have hz : countLeadingZeros d.val = 0 := by
    cases hv : d.val with
    | nil => rw [hv] at hd; cases hd
    | cons x xs =>
      rw [hv] at hd
      cases hd
      rfl
  unfold checkPow
  rw [merkleRoot_eq, Outcome.ok_bind, hz]
  simp

/-! ## C163: which calls, and when -/

/-- A block with this header is last on a chain of a release build: its difficulty begins with the byte `0xFF`, and the
new block is dated more than `TIME_PER_BLOCK` after it (in wrapping arithmetic). -/
def AtRisk (E : Env) (last : BasicInfo) (ts : UInt64) : Prop :=
  E.overflowChecks = false ∧ last.difficulty.val.head? = some 0xFF ∧ 600 < since64 ts last.timestamp

/-- The calls that have undefined behaviour on a node: the two emissions, on a block at risk. -/
def Op.Hits (E : Env) (s : Tree) : Op → Prop
  | .emitMain _ _ _ ts => ∃ b, s.main.getLastBlock = .ok (some b) ∧ AtRisk E b.info ts
  | .emitDerivative _ f ts => (Tree.getDerivativeChain E f s).out = .ok () ∧
      ∃ b, ((Tree.getDerivativeChain E f s).final.handle f).getLastBlock = .ok (some b) ∧
        b.defaultInfo.height.val + 1 < U256.size ∧ AtRisk E b.defaultInfo ts
  | _ => False

theorem emitMain_hits (E : Env) (p : BytesN 32) (f : Address) (txs : List Hash) (ts : UInt64) (s : Tree) (b : Block)
    (hb : s.main.getLastBlock = .ok (some b)) (h : AtRisk E b.info ts) : (Tree.emitMain E p f txs ts s).out = .ub := by
  unfold Tree.emitMain
  rw [Act.get_bind, hb]
  simp only [Act.lift_ok_bind, Outcome.ofOption_some]
  rw [checkPow_full E _ _ _ _ h.2.1, (recalculate_ub E _ _ _).mpr h]
  simp

theorem emitDerivative_hits (E : Env) (p : BytesN 32) (f : Address) (ts : UInt64) (s : Tree) (b : DerivativeBlock)
    (hok : (Tree.getDerivativeChain E f s).out = .ok ())
    (hb : ((Tree.getDerivativeChain E f s).final.handle f).getLastBlock = .ok (some b))
    (hh : b.defaultInfo.height.val + 1 < U256.size)
    (h : AtRisk E b.defaultInfo ts) : (Tree.emitDerivative E p f ts s).out = .ub := by
  unfold Tree.emitDerivative
  rw [Act.bind_ok (a := ()) (s' := (Tree.getDerivativeChain E f s).final) (t := (Tree.getDerivativeChain E f s).trace)
    (by rw [← hok]), Act.get_bind, hb]
  have e : b.defaultInfo.height.add U256.one = .ok ⟨b.defaultInfo.height.val + 1, hh⟩ := by
    unfold U256.add; rw [dif_pos (by exact hh)]; rfl
  simp only [Act.lift_ok_bind, e, Outcome.ok_bind]
  rw [checkPow_full E _ _ _ _ h.2.1, (recalculate_ub E _ _ _).mpr h]
  simp

/-- On a chain that is full the call panics. -/
theorem emitDerivative_full (E : Env) (p : BytesN 32) (f : Address) (ts : UInt64) (s : Tree) (b : DerivativeBlock)
    (hok : (Tree.getDerivativeChain E f s).out = .ok ())
    (hb : ((Tree.getDerivativeChain E f s).final.handle f).getLastBlock = .ok (some b))
    (hh : ¬ b.defaultInfo.height.val + 1 < U256.size) : (Tree.emitDerivative E p f ts s).out ≠ .ub := by
  unfold Tree.emitDerivative
  rw [Act.bind_ok (a := ()) (s' := (Tree.getDerivativeChain E f s).final) (t := (Tree.getDerivativeChain E f s).trace)
    (by rw [← hok]), Act.get_bind, hb]
  have e : b.defaultInfo.height.add U256.one = .panic .overflow := by
    unfold U256.add; rw [dif_neg (by exact hh)]
  simp only [Act.lift_ok_bind, e, Outcome.panic_bind]
  simp

/-- Where the calls of the crate can have undefined behaviour. -/
theorem op_ub (E : Env) (s : Tree) (op : Op) (h : (op.run E s).out = .ub) : Op.Hits E s op := by
  have no : Sane (op.run E) → Op.Hits E s op := fun hx => absurd h (hx s)
  cases op with
  | addBlock b => exact no (sane_zoom (sane_mainAdd E b))
  | addNewBlock b txs =>
    exact no (sane_bind (sane_zoom (sane_mainAdd E b)) fun _ => sane_zoom (sane_addTransactions E txs))
  | addTransaction t => exact no (sane_zoom (sane_addTransaction E t))
  | addTransactions ts => exact no (sane_zoom (sane_addTransactions E ts))
  | addAmount o a => exact no (sane_zoom (sane_add o a))
  | setAmount o a => exact no (sane_zoom (sane_set o a))
  | subAmount o a => exact no (sane_zoom (sane_sub o a))
  | sendAmount a b c => exact no (sane_sendAmount a b c)
  | addGas o a => exact no (sane_zoom (sane_add o a))
  | subGas o a => exact no (sane_zoom (sane_sub o a))
  | sendGas a b c => exact no (sane_zoom (sane_transfer a b c))
  | sendTransaction t => exact no (sane_sendTransaction E t)
  | emitMain p f txs ts =>
    exact Classical.byContradiction fun hn => ne_ub_bind (emitMain_sane E p f txs ts s fun b hb hu =>
      hn ⟨b, hb, (recalculate_ub E _ _ _).mp hu⟩) (fun _ _ => by simp) h
  | emitDerivative p f ts =>
    refine Classical.byContradiction fun hn => ?_
    by_cases hb : ∃ b, (Tree.getDerivativeChain E f s).out = .ok () ∧
        ((Tree.getDerivativeChain E f s).final.handle f).getLastBlock = .ok (some b) ∧ ¬ b.defaultInfo.height.val + 1 < U256.size
    · obtain ⟨b, hok, hb, hh⟩ := hb
      exact ne_ub_bind (emitDerivative_full E p f ts s b hok hb hh) (fun _ _ => by simp) h
    · refine ne_ub_bind (emitDerivative_sane E p f ts s fun hok b hl hu => hn ⟨hok, b, hl, ?_, ?_⟩) (fun _ _ => by simp) h
      · exact Classical.byContradiction fun hh => hb ⟨b, hok, hl, hh⟩
      · exact (recalculate_ub E _ _ _).mp hu
  | getDerivativeChain o => exact no (sane_getDeriv E o)
  | derivAddBlock o b => exact no (sane_bind (sane_getDeriv E o) fun _ => sane_derivAdd E o b)
  | derivFlush o => exact no (sane_bind (sane_getDeriv E o) fun _ => sane_zoom sane_derivFlush)
  | mainFlush => exact no (sane_zoom sane_mainFlush)
  | flush => exact no sane_flush

/-! ### Objects from outside the crate -/

/-- The methods of the object do not have undefined behaviour themselves. -/
structure TxAnswers.Defined (a : TxAnswers) : Prop where
  gasSender : a.gasSender ≠ .ub
  coinSender : a.coinSender ≠ .ub
  size : a.size ≠ .ub
  amountAsked : a.amountAsked ≠ .ub
  dump : a.dump ≠ .ub
  amountMoved : a.amountMoved ≠ .ub
  payer : a.payer ≠ .ub
  receiver : a.receiver ≠ .ub
  gasPayer : a.gasPayer ≠ .ub

/-- The same for all calls. -/
def WideOp.Defined : WideOp → Prop
  | .own _ => True
  | .addBlock a => a.dump ≠ .ub ∧ a.height ≠ .ub
  | .addNewBlock a _ => a.dump ≠ .ub ∧ a.height ≠ .ub
  | .addTransaction d => d ≠ .ub
  | .addTransactions ds => ∀ d ∈ ds, d ≠ .ub
  | .sendTransaction a => TxAnswers.Defined a

theorem sane_foreignBlock (E : Env) (a : BlockAnswers) (h1 : a.dump ≠ .ub) (h2 : a.height ≠ .ub) :
    Sane (MainChain.addForeignBlock E a) :=
  sane_bind (sane_lift (ne_ub_mapErr _ h1)) fun _ => sane_bind (sane_lift h2) fun _ => sane_zoom (sane_chainAdd _ _ _)

theorem sane_foreignTx (E : Env) {d : Outcome Bytes} (h : d ≠ .ub) : Sane (MainChain.addForeignTransaction E d) :=
  sane_bind (sane_lift (ne_ub_mapErr _ h)) fun _ => sane_step _

theorem sane_foreignTxs (E : Env) : ∀ (ds : List (Outcome Bytes)), (∀ d ∈ ds, d ≠ .ub) →
    Sane (MainChain.addForeignTransactions E ds)
  | [], _ => sane_pure ()
  | d :: ds, h => sane_bind (sane_foreignTx E (h d (by simp))) fun _ =>
      sane_foreignTxs E ds fun x hx => h x (by simp [hx])

theorem sane_sendForeign (E : Env) {a : TxAnswers} (h : TxAnswers.Defined a) : Sane (Tree.sendForeign E a) := by
  refine sane_bind sane_get fun t => sane_bind (sane_lift h.gasSender) fun _ => sane_bind (sane_lift (ne_ub_balance _)) fun _ =>
    sane_bind (sane_lift h.coinSender) fun _ => sane_bind (sane_lift (ne_ub_balance _)) fun _ =>
    sane_bind (sane_lift h.size) fun _ => sane_bind (sane_lift (ne_ub_mulNat _ _)) fun _ =>
    sane_ite (fun _ => sane_lift (by simp)) fun _ =>
    sane_bind (sane_lift (ne_ub_last _)) fun _ => sane_bind (sane_lift (ne_ub_ofOption _)) fun _ =>
    sane_bind (sane_lift (ne_ub_fee _)) fun _ => sane_bind (sane_lift h.amountAsked) fun _ =>
    sane_bind (sane_lift (ne_ub_add _ _)) fun _ =>
    sane_ite (fun _ => sane_lift (by simp)) fun _ => sane_bind (sane_zoom (sane_foreignTx E h.dump)) fun _ =>
    sane_bind (sane_lift h.amountMoved) fun m => ?_
  cases m with
  | none => exact sane_pure _
  | some _ =>
    exact sane_bind (sane_lift h.payer) fun _ => sane_bind (sane_lift h.receiver) fun _ =>
      sane_bind (sane_sendAmount _ _ _) fun _ => sane_bind (sane_lift h.gasPayer) fun _ => sane_zoom (sane_sub _ _)

/-! ### The difficulties on a node -/

theorem head_modify {l l' : Bytes} {i : Nat} {f : UInt8 → UInt8} (h : l' = l.modify i f) :
    l'.head? = if i = 0 then l.head?.map f else l.head? := by
  subst h
  cases l with
  | nil => cases i <;> simp
  | cons x xs => cases i <;> simp

/-- A difficulty that does not begin with `0xFF` does not turn into one that does. -/
theorem recalculate_head {E : Env} {a b : UInt64} {d d' : Hash} (h : recalculateDifficulty E a b d = .ok d')
    (hd : d.val.head? ≠ some 0xFF) : d'.val.head? ≠ some 0xFF := by
  have hmod : ∀ {i : Nat} {f : UInt8 → UInt8}, modifyUnchecked d i f = .ok d' → d'.val = d.val.modify i f := by
    intro i f h
    unfold modifyUnchecked at h
    split at h
    · cases h; rfl
    · cases h
  have hshr : ∀ x : UInt8, x >>> 1 ≠ 0xFF := fun x => by
    have : ∀ n : Fin 256, UInt8.ofNat n.val >>> 1 ≠ 0xFF := by decide +kernel
    have h := this ⟨x.toNat, x.toNat_lt⟩
    simpa using h
  have hshl : ∀ x : UInt8, x ≠ 0xFF → x ≠ 0x7f → (x <<< 1) + 1 ≠ 0xFF := fun x => by
    have : ∀ n : Fin 256, UInt8.ofNat n.val ≠ 0xFF → UInt8.ofNat n.val ≠ 0x7f → (UInt8.ofNat n.val <<< 1) + 1 ≠ 0xFF := by
      decide +kernel
    have h := this ⟨x.toNat, x.toNat_lt⟩
    simpa using h
  obtain ⟨x, xs, hx⟩ : ∃ x xs, d.val = x :: xs := by
    cases h : d.val with
    | nil => have := d.property; rw [h] at this; cases this
    | cons x xs => exact ⟨x, xs, rfl⟩
  have hx' : x ≠ 0xFF := by rw [hx] at hd; simpa using hd
  rw [recalculate_eq] at h
  unfold u64Sub at h
  split at h
  · cases h
  · rw [Outcome.ok_bind] at h
    unfold stepBy at h
    split at h
    · rw [head_modify (hmod h), hx]
      split
      · simpa using hshr x
      · simpa using hx'
    · split at h
      · unfold easier at h
        simp only at h
        split at h
        · cases h; exact hd
        · rename_i h7
          split at h
          · split at h
            · split at h <;> cases h
            · rename_i hi
              by_cases h1 : firstNonZero d.val - 1 = 0
              · have hz : x = 0 := by
                  refine Classical.byContradiction fun hz => hi ?_
                  rw [hx, firstNonZero_cons_ne x xs hz]
                rw [head_modify (hmod h), if_pos h1, hx, hz, List.head?_cons]
                decide
              · rw [head_modify (hmod h), if_neg h1, hx]
                simpa using hx'
          · by_cases h1 : firstNonZero d.val = 0
            · rw [head_modify (hmod h), hx, if_pos (by rw [← hx]; exact h1)]
              have : x ≠ 0x7f := by
                rintro rfl
                exact h7 ⟨h1, by rw [h1, hx]; rfl⟩
              simpa using hshl x hx' this
            · rw [head_modify (hmod h), if_neg h1]
              exact hd
      · cases h; exact hd

theorem transactionBlock_info {d : Bytes} {b : TransactionBlock} (h : TransactionBlock.parse d = .ok b) :
    BasicInfo.parse (d.drop 32) = .ok b.defaultInfo := by
  unfold TransactionBlock.parse at h
  cases h1 : sliceN d 0 32 with
  | ok r =>
    rw [h1, Outcome.ok_bind] at h
    cases h2 : sliceFrom d (0 + 32) with
    | ok rest =>
      have hrest : rest = d.drop 32 := by
        unfold sliceFrom at h2; split at h2
        · cases h2; rfl
        · cases h2
      simp only [h2, Outcome.ok_bind] at h
      rw [hrest] at h
      cases h3 : BasicInfo.parse (d.drop 32) with
      | ok i =>
        rw [h3, Outcome.mapErr_ok, Outcome.ok_bind] at h
        cases h4 : sliceFrom d (0 + 32 + i.getDumpSize) with
        | ok fd =>
          rw [h4, Outcome.ok_bind] at h
          cases h5 : loadU256 fd with
          | ok r5 =>
            rw [h5, Outcome.mapErr_ok, Outcome.ok_bind] at h
            obtain ⟨fee, n⟩ := r5
            simp only at h
            split at h
            · cases h
            · cases h6 : TransactionBlock.readHashes d (0 + 32 + i.getDumpSize + (n + 1)) [] with
              | ok l => rw [h6, Outcome.ok_bind] at h; cases h; rfl
              | err e => rw [h6] at h; cases h
              | panic e => rw [h6] at h; cases h
              | ub => rw [h6] at h; cases h
          | err e => rw [h5] at h; cases h
          | panic e => rw [h5] at h; cases h
          | ub => rw [h5] at h; cases h
        | err e => rw [h4] at h; cases h
        | panic e => rw [h4] at h; cases h
        | ub => rw [h4] at h; cases h
      | err e => rw [h3] at h; cases h
      | panic e => rw [h3] at h; cases h
      | ub => rw [h3] at h; cases h
    | err e => simp only [h2] at h; cases h
    | panic e => simp only [h2] at h; cases h
    | ub => simp only [h2] at h; cases h
  | err e => rw [h1] at h; cases h
  | panic e => rw [h1] at h; cases h
  | ub => rw [h1] at h; cases h

/-- Whatever is read from the dump of a block has the header of that block. -/
theorem deserialize_info {b b' : Block} (h : deserializeMainChainBlock b.dump = .ok b') : b'.info = b.info := by
  cases b with
  | transaction b =>
    have h : deserializeMainChainBlock b.dump = .ok b' := h
    rw [b.dump_cons, deserialize_tx_cons] at h
    cases h1 : TransactionBlock.parse (b.dump.drop 1) with
    | ok t =>
      rw [h1] at h
      cases h
      have h2 := transactionBlock_info h1
      have h3 : (b.dump.drop 1).drop 32 = b.defaultInfo.dump [] ++ (encU256 b.fee ++ (b.transactions.map (·.val)).flatten) := by
        rw [TransactionBlock.dump_eq, BasicInfo.dump_eq, List.drop_succ_cons, List.drop_zero,
          List.drop_left' b.merkleTreeRoot.property]
        simp
      rw [h3, BasicInfo.parse_dump] at h2
      exact (Outcome.ok.inj h2).symm
    | err e => rw [h1] at h; cases h
    | panic e => rw [h1] at h; cases h
    | ub => rw [h1] at h; cases h
  | derivative b =>
    exfalso
    have h : deserializeMainChainBlock b.dump = .ok b' := h
    rw [DerivativeBlock.dump_eq] at h
    obtain ⟨e, he⟩ := deserialize_foreign Headers.derivativeBlock.toU8 (b.defaultInfo.fixed ++ encU256 b.defaultInfo.height)
      (by decide) (by decide)
    rw [he] at h
    cases h
  | summarize b =>
    have h : deserializeMainChainBlock b.dump = .ok b' := h
    rw [deserialize_summarize] at h
    cases h
    rfl

/-- The same for derivative chains. -/
theorem derivDecode_info {b b' : DerivativeBlock} (h : DerivativeChain.decode (some b.dump) = .ok (some b')) :
    b'.defaultInfo = b.defaultInfo := by
  have e1 : sliceFrom b.dump 1 = .ok (b.defaultInfo.dump []) := by
    rw [DerivativeBlock.dump_eq, BasicInfo.dump_eq]
    unfold sliceFrom
    rw [if_pos (by simp)]
    rfl
  have e2 : BasicInfo.parse (b.defaultInfo.dump []) = .ok b.defaultInfo := by
    have := BasicInfo.parse_dump b.defaultInfo []
    rwa [List.append_nil] at this
  unfold DerivativeChain.decode at h
  simp only [e1, Outcome.ok_bind] at h
  unfold DerivativeBlock.parse at h
  rw [e2] at h
  split at h
  · cases h
  · cases h; rfl

/-- No difficulty in the database begins with `0xFF`. -/
def MainSoft (m : KV) : Prop := ∀ k v b, m.get k = some v → deserializeMainChainBlock v = .ok b →
  b.info.difficulty.val.head? ≠ some 0xFF

/-- The same for a derivative chain. -/
def DerivSoft (m : KV) : Prop := ∀ k v b, m.get k = some v → DerivativeChain.decode (some v) = .ok (some b) →
  b.defaultInfo.difficulty.val.head? ≠ some 0xFF

/-- No block of the node has a difficulty that begins with `0xFF`, also after a crash. -/
structure Soft (t : Tree) : Prop where
  main : t.main.chain.blocks.All MainSoft
  deriv : ∀ n, (t.derivFiles n).blocks.All DerivSoft

theorem MainSoft.insert {m : KV} (h : MainSoft m) (k : Bytes) {b : Block} (hb : b.info.difficulty.val.head? ≠ some 0xFF) :
    MainSoft (m.insert k b.dump) := by
  intro q v c hq hc
  rw [KV.get_insert] at hq
  split at hq
  · cases hq; rw [deserialize_info hc]; exact hb
  · exact h q v c hq hc

theorem DerivSoft.insert {m : KV} (h : DerivSoft m) (k : Bytes) {b : DerivativeBlock}
    (hb : b.defaultInfo.difficulty.val.head? ≠ some 0xFF) : DerivSoft (m.insert k b.dump) := by
  intro q v c hq hc
  rw [KV.get_insert] at hq
  split at hq
  · cases hq; rw [derivDecode_info hc]; exact hb
  · exact h q v c hq hc

/-- What keeps a node so. -/
abbrev KeepsSoft {α : Type} (x : Act Tree α) : Prop := Act.Rel (fun s t => Soft s → Soft t) x

theorem keepsSoft_closed : Act.Closed (fun {α} (x : Act Tree α) => KeepsSoft x) := Act.rel_closed (Act.inv_preord Soft)

theorem keepsSoft_onMain {α : Type} {x : Act MainChain α}
    (hx : Act.Rel (fun m m' : MainChain => m.chain.blocks.All MainSoft → m'.chain.blocks.All MainSoft) x) :
    KeepsSoft (Tree.onMain x) := Act.rel_zoom hx fun _ _ h1 h2 => ⟨h1 h2.main, h2.deriv⟩

theorem keepsSoft_onSummary (x : Act Db Unit) : KeepsSoft (Tree.onSummary x) :=
  Act.rel_zoom (Act.rel_true x) fun _ _ _ h => ⟨h.main, h.deriv⟩

theorem keepsSoft_onGas (x : Act Db Unit) : KeepsSoft (Tree.onGas x) :=
  Act.rel_zoom (Act.rel_true x) fun _ _ _ h => ⟨h.main, h.deriv⟩

theorem Soft.putHandle {t : Tree} (h : Soft t) (o : Address) {c : DerivativeChain} (hc : c.chain.blocks.All DerivSoft) :
    Soft (Tree.putHandle o c t) := by
  refine ⟨h.main, fun n => ?_⟩
  show Db.All DerivSoft (if n = hexEncode o.val then _ else t.derivFiles n).blocks
  split
  · exact hc
  · exact h.deriv n

theorem keepsSoft_onDeriv {α : Type} (o : Address) {x : Act DerivativeChain α}
    (hx : Act.Rel (fun m m' : DerivativeChain => m.chain.blocks.All DerivSoft → m'.chain.blocks.All DerivSoft) x) :
    KeepsSoft (Tree.onDeriv o x) :=
  Act.rel_zoom hx fun _ _ h1 h2 => h2.putHandle o (h1 (h2.deriv _))

theorem keepsSoft_mainAdd (E : Env) {b : Block} (hb : b.info.difficulty.val.head? ≠ some 0xFF) :
    KeepsSoft (Tree.onMain (MainChain.addBlock E b)) :=
  keepsSoft_onMain (MainChain.addBlock_rel (R := fun c c' => c.blocks.All MainSoft → c'.blocks.All MainSoft)
    (Chain.addBlock_rel E (fun _ h => h) _ _ (fun _ _ h => h.commit (h.1.insert _ hb))
      (fun _ _ h => h.commit (h.1.insert _ hb)) (fun _ _ _ h => h.commit (h.1.insert _ hb))) fun _ _ h => h)

theorem keepsSoft_derivAdd (E : Env) (o : Address) {b : DerivativeBlock}
    (hb : b.defaultInfo.difficulty.val.head? ≠ some 0xFF) :
    KeepsSoft (Tree.onDeriv o (DerivativeChain.addBlock E b)) :=
  keepsSoft_onDeriv o (DerivativeChain.addBlock_rel (R := fun c c' => c.blocks.All DerivSoft → c'.blocks.All DerivSoft)
    (Chain.addBlock_rel E (fun _ h => h) _ _ (fun _ _ h => h.commit (h.1.insert _ hb))
      (fun _ _ h => h.commit (h.1.insert _ hb)) (fun _ _ _ h => h.commit (h.1.insert _ hb))) fun _ _ h => h)

theorem keepsSoft_mainFlush : KeepsSoft (Tree.onMain MainChain.flush) := by
  have C := Act.rel_closed (Act.inv_preord fun m : MainChain => m.chain.blocks.All MainSoft)
  refine keepsSoft_onMain ?_
  exact C.bind (C.bind (Act.rel_step fun _ h => h) fun _ => C.bind (Act.rel_step fun _ h => h) fun _ =>
    Act.rel_step fun _ h => h) fun _ => C.bind (Act.rel_step fun _ h => h.flush) fun _ =>
      C.bind (Act.rel_step fun _ h => h) fun _ => Act.rel_step fun _ h => h

theorem keepsSoft_derivFlush (o : Address) : KeepsSoft (Tree.onDeriv o DerivativeChain.flush) := by
  have C := Act.rel_closed (Act.inv_preord fun m : DerivativeChain => m.chain.blocks.All DerivSoft)
  refine keepsSoft_onDeriv o ?_
  exact C.bind (C.bind (Act.rel_step fun _ h => h) fun _ => C.bind (Act.rel_step fun _ h => h) fun _ =>
    C.bind (Act.rel_step fun _ h => h) fun _ => Act.rel_step fun _ h => h) fun _ =>
      C.bind (Act.rel_step fun _ h => h.flush) fun _ => Act.rel_step fun _ h => h

theorem keepsSoft_addTransactions (E : Env) (ts : List Transaction) :
    KeepsSoft (Tree.onMain (MainChain.addTransactions E ts)) := by
  have C := Act.rel_closed (Act.inv_preord fun m : MainChain => m.chain.blocks.All MainSoft)
  exact keepsSoft_onMain (C.forEach fun t => Act.rel_step fun _ h => h)

theorem keepsSoft_addTransaction (E : Env) (t : Transaction) : KeepsSoft (Tree.onMain (MainChain.addTransaction E t)) :=
  keepsSoft_onMain (Act.rel_step fun _ h => h)

theorem keepsSoft_flush : KeepsSoft Tree.flush := by
  have C := keepsSoft_closed
  exact C.bind keepsSoft_mainFlush fun _ => C.bind (Act.rel_step fun _ h => ⟨h.main, h.deriv⟩) fun _ =>
    C.bind (Act.rel_step fun _ h => ⟨h.main, h.deriv⟩) fun _ => C.bind (Act.rel_step fun _ h => ⟨h.main, h.deriv⟩) fun _ =>
      Act.rel_step fun _ h => ⟨h.main, h.deriv⟩

theorem keepsSoft_rotate : KeepsSoft Tree.rotateDbs := by
  have C := keepsSoft_closed
  exact C.bind keepsSoft_flush fun _ => C.bind (Act.rel_step fun _ h => ⟨h.main, h.deriv⟩) fun _ =>
    C.bind (Act.rel_step fun _ h => ⟨h.main, h.deriv⟩) fun _ => C.bind (Act.rel_step fun _ h => ⟨h.main, h.deriv⟩) fun _ =>
      Act.rel_step fun _ h => ⟨h.main, h.deriv⟩

theorem keepsSoft_sendAmount (s t : Bytes) (a : U256) : KeepsSoft (Tree.sendAmount s t a) := by
  unfold Tree.sendAmount
  split
  · exact keepsSoft_closed.pure ()
  · exact keepsSoft_onSummary _

theorem keepsSoft_getDeriv (E : Env) (o : Address) : KeepsSoft (Tree.getDerivativeChain E o) := by
  intro s
  rcases Tree.getDeriv_cases E o s with ⟨_, e⟩ | ⟨_, ⟨_, _, e⟩ | ⟨_, c, _, hc, e⟩⟩
  · rw [e]; exact ⟨fun h => h, by simp⟩
  · rw [e]; exact ⟨fun h => h, by simp⟩
  · rw [e]
    have hc' : c.chain.blocks = (s.derivFiles (hexEncode o.val)).blocks := by
      unfold DerivativeChain.new at hc
      cases hr : DerivativeChain.readConfig (_ : Hash) (s.derivFiles (hexEncode o.val)).config with
      | ok r => rw [hr] at hc; cases hc; rfl
      | err x => rw [hr] at hc; cases hc
      | panic x => rw [hr] at hc; cases hc
      | ub => rw [hr] at hc; cases hc
    have key : Soft s → Soft (Tree.putHandle o c s) := fun h => h.putHandle o (by rw [hc']; exact h.deriv _)
    exact ⟨key, by simpa using key⟩

theorem findRaw_get {c : Chain} {i : U256} {v : Bytes} (h : c.findRawByHeight i = some v) :
    c.blocks.cur.get i.toBE.val = some v := by
  unfold Chain.findRawByHeight at h
  split at h
  · cases h
  · exact h

/-- No difficulty on a node of such blocks begins with `0xFF`. -/
theorem Soft.last {t : Tree} (h : Soft t) {b : Block} (hb : t.main.getLastBlock = .ok (some b)) :
    b.info.difficulty.val.head? ≠ some 0xFF := by
  unfold MainChain.getLastBlock at hb
  cases hr : t.main.getLastRawBlock with
  | ok r =>
    rw [hr, Outcome.ok_bind] at hb
    cases r with
    | none => cases hb
    | some v =>
      unfold MainChain.getLastRawBlock at hr
      cases hs : t.main.chain.height.sub U256.one with
      | ok i =>
        rw [hs, Outcome.ok_bind] at hr
        have hv := findRaw_get (Outcome.ok.inj hr)
        cases hd : deserializeMainChainBlock v with
        | ok c =>
          unfold MainChain.decode at hb
          simp only [hd, Outcome.mapErr_ok, Outcome.ok_bind] at hb
          cases hb
          exact h.main.1 _ v _ hv hd
        | err x => unfold MainChain.decode at hb; simp only [hd] at hb; cases hb
        | panic x => unfold MainChain.decode at hb; simp only [hd] at hb; cases hb
        | ub => unfold MainChain.decode at hb; simp only [hd] at hb; cases hb
      | err x => rw [hs] at hr; cases hr
      | panic x => rw [hs] at hr; cases hr
      | ub => rw [hs] at hr; cases hr
  | err x => rw [hr] at hb; cases hb
  | panic x => rw [hr] at hb; cases hb
  | ub => rw [hr] at hb; cases hb

theorem Soft.derivLast {t : Tree} (h : Soft t) (o : Address) {b : DerivativeBlock}
    (hb : (t.handle o).getLastBlock = .ok (some b)) : b.defaultInfo.difficulty.val.head? ≠ some 0xFF := by
  unfold DerivativeChain.getLastBlock at hb
  cases hr : (t.handle o).getLastRawBlock with
  | ok r =>
    rw [hr, Outcome.ok_bind] at hb
    cases r with
    | none => cases hb
    | some v =>
      unfold DerivativeChain.getLastRawBlock at hr
      split at hr
      · cases hr
      · cases hs : (t.handle o).chain.height.sub U256.one with
        | ok i =>
          rw [hs, Outcome.ok_bind] at hr
          have hv := findRaw_get (Outcome.ok.inj hr)
          exact (h.deriv _).1 _ v _ hv hb
        | err x => rw [hs] at hr; cases hr
        | panic x => rw [hs] at hr; cases hr
        | ub => rw [hs] at hr; cases hr
  | err x => rw [hr] at hb; cases hb
  | panic x => rw [hr] at hb; cases hb
  | ub => rw [hr] at hb; cases hb

/-- The node is so at the end of the call and at every moment of it. -/
def SoftAt {α : Type} (x : Act Tree α) (s : Tree) : Prop := Soft (x s).final ∧ ∀ t ∈ (x s).trace, Soft t

theorem KeepsSoft.at {α : Type} {x : Act Tree α} (h : KeepsSoft x) {s : Tree} (hs : Soft s) : SoftAt x s :=
  ⟨(h s).1 hs, fun t ht => (h s).2 t ht hs⟩

theorem SoftAt.bind {α β : Type} {x : Act Tree α} {f : α → Act Tree β} {s : Tree} (hx : SoftAt x s)
    (hf : ∀ a, (x s).out = .ok a → SoftAt (f a) (x s).final) : SoftAt (x >>= f) s := by
  unfold SoftAt
  rw [Act.bind_def]
  unfold Act.bind
  cases h : (x s).out with
  | ok a =>
    refine ⟨(hf a h).1, fun t ht => ?_⟩
    rcases List.mem_append.mp ht with ht | ht
    · exact hx.2 t ht
    · exact (hf a h).2 t ht
  | err e => exact hx
  | panic e => exact hx
  | ub => exact hx

theorem softAt_lift {α : Type} (o : Outcome α) {s : Tree} (hs : Soft s) : SoftAt (Act.lift o) s := ⟨hs, by simp [Act.lift]⟩

/-- Every value the call can return has the property. -/
def Yields {α : Type} (P : α → Prop) (x : Act Tree α) : Prop := ∀ s a, (x s).out = .ok a → P a

theorem yields_pure {α : Type} {P : α → Prop} {a : α} (h : P a) : Yields P (Pure.pure a) := fun _ b hb => by
  have : a = b := by simpa using hb
  exact this ▸ h
theorem yields_err {α : Type} {P : α → Prop} (e : Err) : Yields P (Act.lift (.err e)) := fun _ _ h => by cases h
theorem yields_bind {α β : Type} {P : β → Prop} {x : Act Tree α} {f : α → Act Tree β} (h : ∀ a, Yields P (f a)) :
    Yields P (x >>= f) := fun s b hb => by
  rw [Act.bind_def] at hb
  unfold Act.bind at hb
  cases e : (x s).out with
  | ok a => rw [e] at hb; exact h a _ _ hb
  | err y => rw [e] at hb; cases hb
  | panic y => rw [e] at hb; cases hb
  | ub => rw [e] at hb; cases hb
theorem yields_ite {α : Type} {P : α → Prop} {c : Prop} [Decidable c] {x y : Act Tree α} (hx : Yields P x) (hy : Yields P y) :
    Yields P (if c then x else y) := by split <;> assumption

theorem softAt_emitMain (E : Env) (p : BytesN 32) (f : Address) (txs : List Hash) (ts : UInt64) {s : Tree} (hs : Soft s) :
    SoftAt (Tree.emitMain E p f txs ts) s := by
  have C := keepsSoft_closed
  unfold Tree.emitMain SoftAt
  rw [Act.get_bind]
  refine SoftAt.bind (softAt_lift _ hs) fun last hl => SoftAt.bind (softAt_lift _ hs) fun b hb =>
    SoftAt.bind (softAt_lift _ hs) fun good _ => ?_
  cases last with
  | none => cases hb
  | some b' =>
    have hb : b' = b := by simpa [Act.lift] using hb
    subst hb
    have hb := hs.last hl
    split
    · exact softAt_lift _ hs
    · refine SoftAt.bind (softAt_lift _ hs) fun d hd => ?_
      have hd := recalculate_head hd hb
      refine SoftAt.bind (softAt_lift _ hs) fun fee _ => SoftAt.bind (softAt_lift _ hs) fun height _ => ?_
      refine SoftAt.bind (KeepsSoft.at ?_ hs) fun nb hnb => ?_
      · split
        · split
          · exact C.lift _
          · exact C.bind (C.lift _) fun _ => C.bind keepsSoft_rotate fun _ => C.bind (keepsSoft_onSummary _) fun _ => C.pure _
        · split
          · exact C.lift _
          · exact C.bind (C.lift _) fun _ => C.pure _
      · have hy : nb.info.difficulty = d := by
          refine yields_ite (P := fun nb : Block => nb.info.difficulty = d) ?_ ?_ _ _ hnb
          · exact yields_ite (yields_err _) (yields_bind fun _ => yields_bind fun _ => yields_bind fun _ => yields_pure rfl)
          · exact yields_ite (yields_err _) (yields_bind fun _ => yields_pure rfl)
        refine KeepsSoft.at (C.bind (keepsSoft_mainAdd E ?_) fun _ => C.pure _) (KeepsSoft.at ?_ hs).1
        · rw [hy]; exact hd
        · split
          · split
            · exact C.lift _
            · exact C.bind (C.lift _) fun _ => C.bind keepsSoft_rotate fun _ => C.bind (keepsSoft_onSummary _) fun _ => C.pure _
          · split
            · exact C.lift _
            · exact C.bind (C.lift _) fun _ => C.pure _

theorem softAt_emitDerivative (E : Env) (p : BytesN 32) (f : Address) (ts : UInt64) {s : Tree} (hs : Soft s) :
    SoftAt (Tree.emitDerivative E p f ts) s := by
  have C := keepsSoft_closed
  have hbegin : BEGINNING_DIFFICULTY.val.head? ≠ some 0xFF := by decide
  unfold Tree.emitDerivative
  refine SoftAt.bind (KeepsSoft.at (keepsSoft_getDeriv E f) hs) fun _ _ => ?_
  replace hs := (KeepsSoft.at (keepsSoft_getDeriv E f) hs).1
  generalize (Tree.getDerivativeChain E f s).final = t at hs
  unfold SoftAt
  rw [Act.get_bind]
  refine SoftAt.bind (softAt_lift _ hs) fun last hl => SoftAt.bind (softAt_lift _ hs) fun r hr => ?_
  have hd : r.2.1.val.head? ≠ some 0xFF := by
    cases last with
    | some b =>
      have hb := hs.derivLast f hl
      have hr : (b.defaultInfo.height.add U256.one >>= fun h =>
        Outcome.ok (b.hash E, b.defaultInfo.difficulty, b.defaultInfo.timestamp, h)) = Outcome.ok r := hr
      cases e : b.defaultInfo.height.add U256.one with
      | ok v => rw [e] at hr; cases hr; exact hb
      | err v => rw [e] at hr; cases hr
      | panic v => rw [e] at hr; cases hr
      | ub => rw [e] at hr; cases hr
    | none =>
      have hr : (t.main.findByHash (t.handle f).genesisHash >>= fun found => match found with
        | none => Outcome.err .chainFindByHashE
        | some block => Outcome.ok (block.hash E, BEGINNING_DIFFICULTY, block.info.timestamp, U256.zero)) = Outcome.ok r := hr
      cases e : t.main.findByHash (t.handle f).genesisHash with
      | ok v =>
        rw [e, Outcome.ok_bind] at hr
        cases v with
        | none => cases hr
        | some b => cases hr; exact hbegin
      | err v => rw [e] at hr; cases hr
      | panic v => rw [e] at hr; cases hr
      | ub => rw [e] at hr; cases hr
  obtain ⟨r1, r2, r3, r4⟩ := r
  simp only at hd ⊢
  refine SoftAt.bind (softAt_lift _ hs) fun good _ => ?_
  split
  · exact softAt_lift _ hs
  · refine SoftAt.bind (softAt_lift _ hs) fun d h => ?_
    have h : recalculateDifficulty E r3 ts r2 = .ok d := h
    exact KeepsSoft.at (C.bind (keepsSoft_derivAdd E f (recalculate_head h hd)) fun _ => C.pure _) hs

/-- A block handed to the node whose difficulty begins with `0xFF`. -/
def HandsFull : Op → Prop
  | .addBlock b => b.info.difficulty.val.head? = some 0xFF
  | .addNewBlock b _ => b.info.difficulty.val.head? = some 0xFF
  | .derivAddBlock _ b => b.defaultInfo.difficulty.val.head? = some 0xFF
  | _ => False

theorem softAt_op (E : Env) (op : Op) (ho : ¬ HandsFull op) {s : Tree} (hs : Soft s) : SoftAt (op.run E) s := by
  have C := keepsSoft_closed
  cases op with
  | addBlock b => exact KeepsSoft.at (keepsSoft_mainAdd E ho) hs
  | addNewBlock b txs => exact KeepsSoft.at (C.bind (keepsSoft_mainAdd E ho) fun _ => keepsSoft_addTransactions E txs) hs
  | addTransaction t => exact KeepsSoft.at (keepsSoft_addTransaction E t) hs
  | addTransactions ts => exact KeepsSoft.at (keepsSoft_addTransactions E ts) hs
  | addAmount o a => exact KeepsSoft.at (keepsSoft_onSummary _) hs
  | setAmount o a => exact KeepsSoft.at (keepsSoft_onSummary _) hs
  | subAmount o a => exact KeepsSoft.at (keepsSoft_onSummary _) hs
  | sendAmount s t a => exact KeepsSoft.at (keepsSoft_sendAmount s t a) hs
  | addGas o a => exact KeepsSoft.at (keepsSoft_onGas _) hs
  | subGas o a => exact KeepsSoft.at (keepsSoft_onGas _) hs
  | sendGas s t a => exact KeepsSoft.at (keepsSoft_onGas _) hs
  | sendTransaction tx =>
    refine KeepsSoft.at (x := Tree.sendTransaction E tx) ?_ hs
    unfold Tree.sendTransaction
    refine C.bind C.get fun t => C.bind (C.lift _) fun g => C.bind (C.lift _) fun a => C.bind (C.lift _) fun r => ?_
    split
    · exact C.lift _
    · refine C.bind (C.lift _) fun _ => C.bind (C.lift _) fun _ => C.bind (C.lift _) fun _ => C.bind (C.lift _) fun _ => ?_
      split
      · exact C.lift _
      · exact C.bind (keepsSoft_addTransaction E tx) fun _ => C.bind (keepsSoft_sendAmount _ _ _) fun _ => keepsSoft_onGas _
  | emitMain p f txs ts => exact softAt_emitMain E p f txs ts hs
  | emitDerivative p f ts => exact softAt_emitDerivative E p f ts hs
  | getDerivativeChain o => exact KeepsSoft.at (keepsSoft_getDeriv E o) hs
  | derivAddBlock o b => exact KeepsSoft.at (C.bind (keepsSoft_getDeriv E o) fun _ => keepsSoft_derivAdd E o ho) hs
  | derivFlush o => exact KeepsSoft.at (C.bind (keepsSoft_getDeriv E o) fun _ => keepsSoft_derivFlush o) hs
  | mainFlush => exact KeepsSoft.at keepsSoft_mainFlush hs
  | flush => exact KeepsSoft.at keepsSoft_flush hs

theorem keepsSoft_new (E : Env) : KeepsSoft (Tree.new E) :=
  Tree.new_rel (Act.inv_preord Soft) (fun _ h => ⟨h.main, h.deriv⟩) (fun _ _ _ h => ⟨h.main, h.deriv⟩)
    (keepsSoft_mainAdd E (show BEGINNING_DIFFICULTY.val.head? ≠ some 0xFF by decide)) (keepsSoft_onSummary _)

theorem lifeWith_soft {E : Env} {m : Moment} (h : LifeWith E (fun op => ¬ HandsFull op) m) :
    match m with
    | .idle t => Soft t
    | .busy t => Soft t
    | .down d => MainSoft d.blocks ∧ ∀ n, DerivSoft (d.deriv n).blocks := by
  have boot : ∀ d : Disk, (MainSoft d.blocks ∧ ∀ n, DerivSoft (d.deriv n).blocks) → Soft d.boot := fun d h =>
    ⟨Db.all_open h.1, fun n => Db.all_open (h.2 n)⟩
  induction h with
  | start =>
    refine ⟨?_, ?_⟩
    · intro _ _ _ h; cases h
    · intro _ _ _ _ h; cases h
  | opening d t _ ht ih => exact (keepsSoft_new E d.boot).2 t ht (boot d ih)
  | opened d _ _ ih => exact (keepsSoft_new E d.boot).1 (boot d ih)
  | running s t op _ ho ht ih => exact (softAt_op E op ho ih).2 t ht
  | call s op _ ho ih => exact (softAt_op E op ho ih).1
  | crashIdle s d _ hd ih => exact ⟨ih.main.2 _ hd.blocks, fun n => (ih.deriv n).2 _ (hd.deriv n).1⟩
  | crashBusy s d _ hd ih => exact ⟨ih.main.2 _ hd.blocks, fun n => (ih.deriv n).2 _ (hd.deriv n).1⟩

/-! ## C163 -/

/-- C163, in full: nothing the crate does has undefined behaviour. -/
def C163_full : Prop := (∀ (E : Env) (s : Tree) (op : Op), Run E s → (op.run E s).out ≠ .ub) ∧
  ∀ (E : Env) (b : Block) (prev : Option Block), b.validate E prev ≠ .ub

/-- C163. The functions that contain `unsafe`, written with undefined behaviour wherever the precondition of an unsafe
operation is not met, do exactly what the functions of the model do: no precondition is ever missed. -/
theorem C163_sites (E : Env) (S : SigScheme) :
    (∀ n b, Unsafe.dumpU256 n b = .ok (dumpU256 n b)) ∧
    (∀ d, Unsafe.basicInfo d = BasicInfo.parse d ∧ Unsafe.transactionBlock d = TransactionBlock.parse d ∧
      Unsafe.derivativeBlock d = DerivativeBlock.parse d ∧ Unsafe.summarizeBlock d = SummarizeBlock.parse d ∧
      Unsafe.mainChainBlock d = deserializeMainChainBlock d ∧ Unsafe.transaction E d = Transaction.parse E d) ∧
    (∀ s r ts a d k, Unsafe.generateSignature E S s r ts a d k = Transaction.generateSignature E S s r ts a d k) ∧
    (∀ t, Unsafe.hashWithoutSignature E t = .ok (t.hashWithoutSignature E)) ∧
    (∀ l, Unsafe.buildTree E l = buildTree E l) ∧
    (∀ h root proof, Unsafe.verifyProof E h root proof = verifyProof E h root proof) ∧
    (∀ b prev, Unsafe.validate E b prev = b.validate E prev) :=
  ⟨unsafe_dumpU256, fun d => ⟨unsafe_basicInfo d, unsafe_transactionBlock d, unsafe_derivativeBlock d, unsafe_summarizeBlock d,
    unsafe_mainChainBlock d, unsafe_transaction E d⟩, unsafe_generateSignature E S, unsafe_hashWithoutSignature E,
    unsafe_buildTree E, unsafe_verifyProof E, unsafe_validate E⟩

/-- C163. Whatever bytes are parsed, whatever hashes a tree is built from, whatever proof is checked, and whatever is in
the databases of a node when it is asked something: no undefined behaviour. Opening a node neither, whatever is in the
directory. -/
theorem C163_data (E : Env) (S : SigScheme) :
    (∀ d, loadU256 d ≠ .ub ∧ BasicInfo.parse d ≠ .ub ∧ TransactionBlock.parse d ≠ .ub ∧ DerivativeBlock.parse d ≠ .ub ∧
      SummarizeBlock.parse d ≠ .ub ∧ deserializeMainChainBlock d ≠ .ub ∧ Transaction.parse E d ≠ .ub) ∧
    (∀ l, ∃ t root, buildTree E l = .ok t ∧ t.getRoot = .ok root ∧ ∀ h, ∃ proof, t.getProof h = .ok proof) ∧
    (∀ h root proof, verifyProof E h root proof ≠ .ub) ∧
    (∀ h d l p, checkPow E h d l p ≠ .ub) ∧
    (∀ t : Transaction, t.verify E S ≠ .ub) ∧
    (∀ m : MainChain, m.getLastBlock ≠ .ub ∧ (∀ h, m.findByHash h ≠ .ub) ∧ (∀ q, m.findByHeight q ≠ .ub) ∧
      ∀ h, m.getTransaction E h ≠ .ub) ∧
    (∀ m : DerivativeChain, m.getLastBlock ≠ .ub ∧ (∀ h, m.findByHash h ≠ .ub) ∧ ∀ q, m.findByHeight q ≠ .ub) ∧
    (∀ (t : Tree) a, t.getAmount a ≠ .ub ∧ t.getGas a ≠ .ub) ∧
    (∀ d : Disk, (openTree E d).out ≠ .ub) := by
  refine ⟨fun d => ⟨ne_ub_loadU256 d, ne_ub_basicInfo d, ne_ub_transactionBlock d, ne_ub_derivativeBlock d,
    ne_ub_summarizeBlock d, ne_ub_mainChainBlock d, ne_ub_transaction E d⟩, tree_answers E, ne_ub_verifyProof E,
    ne_ub_checkPow E, fun t => ?_, fun m => ⟨ne_ub_last m, ne_ub_findByHash m, fun q => ne_ub_decode _, ne_ub_getTransaction E m⟩,
    fun m => ⟨ne_ub_derivLast m, fun h => ne_ub_bind (ne_ub_findRawByHash _ _) fun _ _ => ne_ub_derivDecode _,
      fun q => ne_ub_derivDecode _⟩,
    fun t a => ⟨ne_ub_balance _, ne_ub_balance _⟩, fun d => sane_new E d.boot⟩
  unfold Transaction.verify
  simp only
  split
  · simp
  · split <;> simp

/-- The transactions of the block have the root it claims; other blocks have no such check before the difficulty. -/
def Block.RootAgrees (E : Env) : Block → Prop
  | .transaction b => merkleRoot E b.transactions = .ok b.merkleTreeRoot
  | _ => True

/-- C163, what holds, the calls: in every state, whatever is in the databases, a call of the crate has undefined
behaviour exactly if it is an emission on a last block at risk; with objects from outside the crate, whose methods have
none themselves, no call has; and validation has exactly if the earlier block is at risk and the block names it.
Missing: that this never happens. -/
theorem C163_calls_partial (E : Env) :
    (∀ (s : Tree) (op : Op), (op.run E s).out = .ub ↔ Op.Hits E s op) ∧
    (∀ (s : Tree) (op : WideOp), (∀ o, op ≠ .own o) → WideOp.Defined op → (op.run E s).out ≠ .ub) ∧
    (∀ (b : Block) (prev : Option Block), b.validate E prev = .ub ↔ ∃ q, prev = some q ∧
      b.info.previousHash = q.hash E ∧ Block.RootAgrees E b ∧ AtRisk E q.info b.info.timestamp) := by
  refine ⟨fun s op => ⟨op_ub E s op, fun h => ?_⟩, fun s op hn hd => ?_, fun b prev => ?_⟩
  · cases op with
    | emitMain p f txs ts =>
      obtain ⟨b, h1, h2⟩ := h
      show ((Tree.emitMain E p f txs ts s).out >>= fun _ => Outcome.ok ()) = .ub
      rw [emitMain_hits E p f txs ts s b h1 h2]; rfl
    | emitDerivative p f ts =>
      obtain ⟨h0, b, h1, h2, h3⟩ := h
      show ((Tree.emitDerivative E p f ts s).out >>= fun _ => Outcome.ok ()) = .ub
      rw [emitDerivative_hits E p f ts s b h0 h1 h2 h3]; rfl
    | _ => exact absurd h id
  · cases op with
    | own o => exact absurd rfl (hn o)
    | addBlock a => exact sane_zoom (sane_foreignBlock E a hd.1 hd.2) s
    | addNewBlock a txs =>
      exact sane_bind (sane_zoom (sane_foreignBlock E a hd.1 hd.2)) (fun _ => sane_zoom (sane_addTransactions E txs)) s
    | addTransaction d => exact sane_zoom (sane_foreignTx E hd) s
    | addTransactions ds => exact sane_zoom (sane_foreignTxs E ds hd) s
    | sendTransaction a => exact sane_sendForeign E hd s
  · have tail : ∀ (q : Block) (ts : UInt64) {k : Hash → Outcome Bool}, (∀ d, k d ≠ .ub) →
        ((recalculateDifficulty E q.info.timestamp ts q.info.difficulty >>= k) = .ub ↔ AtRisk E q.info ts) := by
      intro q ts k hk
      rw [AtRisk, ← recalculate_ub]
      constructor
      · intro h
        refine Classical.byContradiction fun hn => ne_ub_bind hn (fun d _ => hk d) h
      · intro h; rw [h]; rfl
    cases prev with
    | none =>
      constructor
      · intro h; cases b <;> cases h
      · rintro ⟨_, h, _⟩; cases h
    | some q =>
      have e : (∃ q', some q = some q' ∧ b.info.previousHash = q'.hash E ∧ Block.RootAgrees E b ∧
          AtRisk E q'.info b.info.timestamp) ↔ (b.info.previousHash = q.hash E ∧ Block.RootAgrees E b ∧
          AtRisk E q.info b.info.timestamp) := by
        constructor
        · rintro ⟨q', h, hh⟩; cases h; exact hh
        · exact fun h => ⟨q, rfl, h⟩
      rw [e]
      cases b with
      | transaction b =>
        show TransactionBlock.validate E b (some q) = .ub ↔ (b.defaultInfo.previousHash = q.hash E ∧
          merkleRoot E b.transactions = .ok b.merkleTreeRoot ∧ AtRisk E q.info b.defaultInfo.timestamp)
        simp only [TransactionBlock.validate, merkleRoot_eq, Outcome.ok_bind]
        split
        · rename_i h; simp [h]
        · rename_i h
          split
          · rename_i h'
            simp only [reduceCtorEq, false_iff]
            rintro ⟨-, hc, -⟩
            exact h' (Outcome.ok.inj hc).symm
          · rename_i h'
            rw [tail q b.defaultInfo.timestamp (fun d => ne_ub_ite (by simp) (ne_ub_checkPow _ _ _ _ _))]
            simp only [ne_eq, Decidable.not_not] at h h'
            simp [h, h', Block.info]
      | derivative b =>
        show DerivativeBlock.validate E b (some q) = .ub ↔ (b.defaultInfo.previousHash = q.hash E ∧
          True ∧ AtRisk E q.info b.defaultInfo.timestamp)
        simp only [DerivativeBlock.validate]
        split
        · rename_i h; simp [h]
        · rename_i h
          rw [tail q b.defaultInfo.timestamp (fun d => ne_ub_ite (by simp)
            (ne_ub_bind (by simp [Block.merkleRoot]) fun _ _ => ne_ub_checkPow _ _ _ _ _))]
          simp only [ne_eq, Decidable.not_not] at h
          simp [h, Block.info]
      | summarize b =>
        show SummarizeBlock.validate E b (some q) = .ub ↔ (b.defaultInfo.previousHash = q.hash E ∧
          True ∧ AtRisk E q.info b.defaultInfo.timestamp)
        simp only [SummarizeBlock.validate]
        split
        · rename_i h; simp [h]
        · rename_i h
          rw [tail q b.defaultInfo.timestamp (fun d => ne_ub_ite (by simp) (ne_ub_checkPow _ _ _ _ _))]
          simp only [ne_eq, Decidable.not_not] at h
          simp [h, Block.info]

/-- C163, what holds, debug builds: with overflow checks nothing has undefined behaviour, in any state. -/
theorem C163_checked_partial (E : Env) (hE : E.overflowChecks = true) :
    (∀ (s : Tree) (op : Op), (op.run E s).out ≠ .ub) ∧ ∀ (b : Block) (prev : Option Block), b.validate E prev ≠ .ub := by
  have no : ∀ i ts, ¬ AtRisk E i ts := fun i ts h => by rw [h.1] at hE; cases hE
  obtain ⟨h1, -, h2⟩ := C163_calls_partial E
  refine ⟨fun s op h => ?_, fun b prev h => ?_⟩
  · have := (h1 s op).mp h
    cases op with
    | emitMain p f txs ts => obtain ⟨_, _, h⟩ := this; exact no _ _ h
    | emitDerivative p f ts => obtain ⟨_, _, _, _, h⟩ := this; exact no _ _ h
    | _ => exact this
  · obtain ⟨_, _, _, _, h⟩ := (h2 b prev).mp h
    exact no _ _ h

/-- C163, what holds, any build: a node that was never handed a block whose difficulty begins with `0xFF`, through all
calls, crashes and openings, has no undefined behaviour in any call, the emissions included; the blocks it emits are
none of those. -/
theorem C163_soft_partial (E : Env) (s : Tree) (h : LifeWith E (fun op => ¬ HandsFull op) (.idle s)) :
    (∀ op : Op, (op.run E s).out ≠ .ub) ∧
    (∀ b, s.main.getLastBlock = .ok (some b) → b.info.difficulty.val.head? ≠ some 0xFF) ∧
    (∀ q b, s.main.findByHeight q = .ok (some b) → ∀ next : Block, next.validate E (some b) ≠ .ub) := by
  have hs : Soft s := lifeWith_soft h
  obtain ⟨h1, -, h2⟩ := C163_calls_partial E
  refine ⟨fun op hu => ?_, fun b hb => hs.last hb, fun q b hb next hu => ?_⟩
  · have := (h1 s op).mp hu
    cases op with
    | emitMain p f txs ts => obtain ⟨b, hb, h⟩ := this; exact hs.last hb h.2.1
    | emitDerivative p f ts =>
      obtain ⟨_, b, hb, _, h⟩ := this
      exact (KeepsSoft.at (keepsSoft_getDeriv E f) hs).1.derivLast f hb h.2.1
    | _ => exact this
  · obtain ⟨_, e, _, _, hr⟩ := (h2 next (some b)).mp hu
    cases e
    unfold MainChain.findByHeight at hb
    cases hv : s.main.findRawByHeight q with
    | none => rw [hv] at hb; cases hb
    | some v =>
      rw [hv] at hb
      unfold MainChain.decode at hb
      cases hd : deserializeMainChainBlock v with
      | ok c =>
        simp only [hd, Outcome.mapErr_ok, Outcome.ok_bind] at hb
        cases hb
        exact hs.main.1 _ v _ (findRaw_get hv) hd hr.2.1
      | err x => simp only [hd] at hb; cases hb
      | panic x => simp only [hd] at hb; cases hb
      | ub => simp only [hd] at hb; cases hb

/-- A block for height one of a fresh node, with the easiest difficulty there is. -/
def fullBlock : TransactionBlock :=
  { exTxBlock with defaultInfo := { exInfo with height := U256.one, difficulty := BytesN.fill 32 0xFF } }

/-- C163 is false: `add_block` accepts a block whose difficulty begins with `0xFF` (it looks at the height alone), and
in a release build the next block emitted more than ten minutes later writes at index `0 - 1` of the difficulty, without
a bounds check. `validate` does the same with such a block before it. -/
theorem C163_refuted :
    (∀ (E : Env) (p : BytesN 32) (f : Address) (txs : List Hash), E.overflowChecks = false →
      let s := (openTree E Disk.empty).final
      let s' := ((Op.addBlock (.transaction fullBlock)).run E s).final
      Run E s' ∧ ((Op.addBlock (.transaction fullBlock)).run E s).out = .ok () ∧
      ((Op.emitMain p f txs 1700000601).run E s').out = .ub ∧ ((Op.emitMain p f txs 1700000600).run E s').out ≠ .ub) ∧
    (∀ (E : Env) (b : SummarizeBlock), E.overflowChecks = false → b.defaultInfo.timestamp = 1700000601 →
      b.defaultInfo.previousHash = (Block.transaction fullBlock).hash E →
      b.validate E (some (.transaction fullBlock)) = .ub) ∧
    ¬ C163_full := by
  have k1 : ∀ (E : Env) (p : BytesN 32) (f : Address) (txs : List Hash), E.overflowChecks = false →
      let s := (openTree E Disk.empty).final
      let s' := ((Op.addBlock (.transaction fullBlock)).run E s).final
      Run E s' ∧ ((Op.addBlock (.transaction fullBlock)).run E s).out = .ok () ∧
      ((Op.emitMain p f txs 1700000601).run E s').out = .ub ∧ ((Op.emitMain p f txs 1700000600).run E s').out ≠ .ub := by
    intro E p f txs hE s s'
    have h1 : s.main.getHeight = U256.one := by show (openTree E Disk.empty).final.main.getHeight = _; rw [(openTree_fresh E).2]; rfl
    have hm : s.main.getHeight.val + 1 < U256.size := by rw [h1]; decide
    have hok : ((Op.addBlock (.transaction fullBlock)).run E s).out = .ok () := by
      rw [addBlock_op]; exact (C31_add_block E s.main _ hm).1.mpr h1.symm
    have hl := (C35_last_is_newest E s _ .fresh hm hok).2 trivial
    refine ⟨.call _ _ .fresh trivial, hok, ?_, fun hu => ?_⟩
    · exact ((C163_calls_partial E).1 _ _).mpr ⟨_, hl, hE, by decide, by decide⟩
    · obtain ⟨b, hb, hr⟩ := ((C163_calls_partial E).1 _ _).mp hu
      rw [show s'.main.getLastBlock = _ from hl] at hb
      cases hb
      exact absurd hr.2.2 (by decide)
  refine ⟨k1, fun E b hE ht hp => ?_, fun hf => ?_⟩
  · exact ((C163_calls_partial E).2.2 (.summarize b) _).mpr ⟨_, rfl, hp, trivial, hE, by decide, by
      show 600 < since64 b.defaultInfo.timestamp _
      rw [ht]; decide⟩
  · let E : Env := ⟨fun _ => BytesN.fill 32 0, false⟩
    obtain ⟨h1, _, h2, _⟩ := k1 E (BytesN.fill 32 0) ROOT_PUBLIC_ADDRESS [] rfl
    exact hf.1 E _ _ h1 h2

/-- C163 is about something: a release build, a fresh node that was handed a block with an ordinary difficulty; the next
block, emitted hours later, is no undefined behaviour. -/
example (E : Env) (p : BytesN 32) (f : Address) (txs : List Hash) : ∃ s, E.overflowChecks = false →
    LifeWith E (fun op => ¬ HandsFull op) (.idle s) ∧ s.main.getHeight.val = 2 ∧
    ((Op.emitMain p f txs 1700009999).run E s).out ≠ .ub := by
  let b : Block := .transaction { exTxBlock with defaultInfo := { exInfo with height := U256.one } }
  have h0 : LifeWith E (fun op => ¬ HandsFull op) (.idle (openTree E Disk.empty).final) := .opened _ .start (openTree_fresh E).1
  have h1 := LifeWith.call _ (.addBlock b) h0 (by show ¬ BEGINNING_DIFFICULTY.val.head? = some 0xFF; decide)
  refine ⟨_, fun _ => ⟨h1, ?_, (C163_soft_partial E _ h1).1 _⟩⟩
  have hh : (openTree E Disk.empty).final.main.getHeight = U256.one := by rw [(openTree_fresh E).2]; rfl
  have hm : (openTree E Disk.empty).final.main.chain.height.val + 1 < U256.size := by
    show (openTree E Disk.empty).final.main.getHeight.val + 1 < _; rw [hh]; decide
  obtain ⟨m', e, e', _⟩ := (C31_add_block E _ b hm).2.1 hh.symm
  rw [addBlock_op, e]
  show m'.chain.height.val = 2
  rw [e']
  show (openTree E Disk.empty).final.main.getHeight.val + 1 = 2
  rw [hh]; rfl

/-- The same on a derivative chain whose last block is such a one. -/
example (E : Env) (s : Tree) (f : Address) (p : BytesN 32) (b : DerivativeBlock) (hE : E.overflowChecks = false)
    (h0 : (Tree.getDerivativeChain E f s).out = .ok ())
    (h1 : ((Tree.getDerivativeChain E f s).final.handle f).getLastBlock = .ok (some b))
    (h2 : b.defaultInfo = { exInfo with difficulty := BytesN.fill 32 0xFF }) :
    ((Op.emitDerivative p f 1700000601).run E s).out = .ub :=
  ((C163_calls_partial E).1 _ _).mpr ⟨h0, b, h1, by rw [h2]; decide, hE, by rw [h2]; decide, by rw [h2]; decide⟩

end BCT.Props
