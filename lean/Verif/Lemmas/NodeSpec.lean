import Verif.Spec.Node
import Verif.Props.Pow
/-!
# The rules of the abstract node are those of the code
-/

namespace BCT
open BCT.Props

theorem bitLength_spec (n : Nat) : Spec.IsBitLength n (Spec.bitLength n) := by
  unfold Spec.bitLength
  split
  · rename_i h; subst h; exact ⟨by simp, fun _ _ => Nat.zero_le _⟩
  · rename_i h
    exact isBitLength_of_bounds (Nat.log2_self_le h) Nat.lt_log2_self

theorem bitLength_eq {n k : Nat} (h : Spec.IsBitLength n k) : k = Spec.bitLength n :=
  isBitLength_unique h (bitLength_spec n)

theorem treeRoot_eq (E : Env) (l : List Hash) : merkleRootT E l = Spec.treeRoot E l := by
  unfold merkleRootT Spec.treeRoot
  have h1 : Spec.parent E = nodeHash E := specParent_eq E
  have h2 : Spec.padding = PADDING_HASH := rfl
  have h3 : findClosestPowerOf2 l.length = Spec.bitLength l.length :=
    isNextPower_unique (findClosestPowerOf2_spec _) (bitLength_spec l.length)
  rw [h1, h2, h3]

theorem checkPow_spec (E : Env) (prev d : Hash) (txs : List Hash) (pow : BytesN 32) :
    checkPow E prev d txs pow.val = .ok (Spec.enoughWork E prev d txs pow) := by
  obtain ⟨p, kd, kr, hp, hd, hr, h⟩ := C22_check_pow E prev d txs pow.val
  have hp' : p = Spec.bitLength txs.length := isNextPower_unique hp (bitLength_spec txs.length)
  subst hp'
  rw [h, bitLength_eq hd, bitLength_eq hr]
  rfl

theorem clz_spec (d : Hash) : countLeadingZeros d.val = Spec.zeroBits d := by
  obtain ⟨k, h1, h2⟩ := clz_bitLength d.val
  rw [d.property] at h2
  unfold Spec.zeroBits
  rw [← bitLength_eq h1]
  omega

theorem zeroBits_le (d : Hash) : Spec.zeroBits d ≤ 256 := by unfold Spec.zeroBits; omega

theorem fee_lt (d : Hash) : Spec.fee d < U256.size := by
  have := zeroBits_le d
  unfold Spec.fee
  have : (16000001 : Nat) < U256.size := by decide
  omega

theorem fee_spec (d : Hash) : recalculateFee d = .ok ⟨Spec.fee d, fee_lt d⟩ := by
  have h : FEE_STEP.val * countLeadingZeros d.val = Spec.fee d := by
    rw [clz_spec]; rfl
  unfold recalculateFee U256.mulNat
  rw [dif_pos (by rw [h]; exact fee_lt d)]
  congr 1
  exact U256.ext h

/-! ## Difficulty -/

theorem split_append (d : List UInt8) : (Spec.split d).1 ++ (Spec.split d).2 = d := by
  unfold Spec.split; simp

theorem split_firstNonZero (d : List UInt8) :
    ((Spec.split d).2 = [] ∧ firstNonZero d = 0 ∧ (∀ x ∈ d, x = 0)) ∨
    ∃ v r, (Spec.split d).2 = v :: r ∧ v ≠ 0 ∧ firstNonZero d = (Spec.split d).1.length ∧
      (∀ x ∈ (Spec.split d).1, x = 0) := by
  induction d with
  | nil => left; exact ⟨rfl, rfl, by simp⟩
  | cons x d ih =>
    by_cases hx : x = 0
    · subst hx
      have h1 : (Spec.split (0 :: d)).1 = 0 :: (Spec.split d).1 := by simp [Spec.split]
      have h2 : (Spec.split (0 :: d)).2 = (Spec.split d).2 := by simp [Spec.split]
      rw [h1, h2, firstNonZero_cons_zero]
      rcases ih with ⟨a, _, c⟩ | ⟨v, r, a, b, c, e⟩
      · left
        refine ⟨a, ?_, by simpa using c⟩
        have : d.findIdx? (· ≠ 0) = none := by rw [List.findIdx?_eq_none_iff]; intro y hy; simp [c y hy]
        rw [this]
      · right
        refine ⟨v, r, a, b, ?_, by simpa using e⟩
        have hne : d.findIdx? (· ≠ 0) ≠ none := by
          intro hn
          rw [List.findIdx?_eq_none_iff] at hn
          have := hn v (by rw [← split_append d, a]; simp)
          simp at this; exact b this
        unfold firstNonZero at c
        cases hf : d.findIdx? (· ≠ 0) with
        | none => exact absurd hf hne
        | some i => rw [hf] at c; simp at c; simp [c]
    · right
      have h1 : (Spec.split (x :: d)).1 = [] := by simp [Spec.split, hx]
      have h2 : (Spec.split (x :: d)).2 = x :: d := by simp [Spec.split, hx]
      exact ⟨x, d, h2, hx, by rw [h1, firstNonZero_cons_ne x d hx]; rfl, by rw [h1]; simp⟩

theorem shr_one (v : UInt8) : v >>> 1 = UInt8.ofNat (v.toNat / 2) := by
  have : ∀ n : Fin 256, UInt8.ofNat n.val >>> 1 = UInt8.ofNat ((UInt8.ofNat n.val).toNat / 2) := by decide +kernel
  have h := this ⟨v.toNat, v.toNat_lt⟩
  simpa using h

theorem shl_one (v : UInt8) : (v <<< 1) + 1 = UInt8.ofNat (2 * v.toNat + 1) := by
  have : ∀ n : Fin 256, (UInt8.ofNat n.val <<< 1) + 1 = UInt8.ofNat (2 * (UInt8.ofNat n.val).toNat + 1) := by
    decide +kernel
  have h := this ⟨v.toNat, v.toNat_lt⟩
  simp only [UInt8.ofNat_toNat] at h
  exact h

theorem modify_append_length {α : Type} (z : List α) (v : α) (r : List α) (f : α → α) :
    (z ++ v :: r).modify z.length f = z ++ f v :: r := by
  induction z with
  | nil => rfl
  | cons x z ih => simp [List.modify_succ_cons, ih]

theorem harder_spec (d : Hash) : ∃ d', harder d = .ok d' ∧ d'.val = Spec.harder d.val := by
  obtain ⟨d', h1, h2⟩ := modifyUnchecked_ok d _ (fun v => v >>> 1) (firstNonZero_lt d)
  refine ⟨d', h1, ?_⟩
  rw [h2]
  unfold Spec.harder
  have hs := split_append d.val
  generalize hsp : Spec.split d.val = sp at *
  obtain ⟨z, r⟩ := sp
  rcases split_firstNonZero d.val with ⟨a, b, c⟩ | ⟨v, r', a, b, c, e⟩
  · rw [hsp] at a
    simp only at a
    subst a
    simp only
    rw [b]
    cases hd : d.val with
    | nil => rfl
    | cons x l =>
      have := c x (by rw [hd]; exact List.mem_cons_self)
      subst this; rfl
  · rw [hsp] at a c
    simp only at a c hs
    subst a
    simp only
    rw [c, ← hs, modify_append_length, shr_one]

theorem easier_spec (E : Env) (d : Hash) :
    match Spec.easier d.val with
    | some l => ∃ d', easier E d = .ok d' ∧ d'.val = l
    | none => easier E d = if E.overflowChecks then .panic .overflow else .ub := by
  unfold Spec.easier
  have hs := split_append d.val
  generalize hsp : Spec.split d.val = sp at *
  obtain ⟨z, r⟩ := sp
  have hlt := firstNonZero_lt d
  have hlen := d.property
  rcases split_firstNonZero d.val with ⟨a, b, c⟩ | ⟨v, r', a, b, c, e⟩
  · rw [hsp] at a
    simp only at a
    subst a
    simp only
    obtain ⟨d', h1, h2⟩ := modifyUnchecked_ok d 0 (fun v => (v <<< 1) + 1) (by decide)
    refine ⟨d', ?_, ?_⟩
    · have h0 : d.val.getD 0 0 = 0 := by
        cases hd : d.val with
        | nil => rfl
        | cons x l => exact c x (by rw [hd]; exact List.mem_cons_self)
      unfold easier
      simp only [b, h0]
      rw [if_neg (by decide), if_neg (by decide)]
      exact h1
    · rw [h2]
      cases hd : d.val with
      | nil => rw [hd] at hlen; simp at hlen
      | cons x l =>
        have := c x (by rw [hd]; exact List.mem_cons_self)
        subst this; rfl
  · rw [hsp] at a c e
    simp only at a c e hs
    subst a
    simp only
    have hv : d.val.getD (firstNonZero d.val) 0 = v := by
      rw [c, ← hs]; simp
    unfold easier
    simp only [hv]
    have hz : firstNonZero d.val = 0 ↔ z = [] := by rw [c]; exact List.length_eq_zero_iff
    by_cases h7 : z = [] ∧ v = 127
    · rw [if_pos h7]
      simp only
      rw [if_pos ⟨hz.mpr h7.1, h7.2⟩]
      exact ⟨d, rfl, rfl⟩
    · have h7' : ¬ (firstNonZero d.val = 0 ∧ v = 127) := by rw [hz]; exact h7
      simp only [if_neg h7, if_neg h7']
      by_cases hff : v = 255
      · simp only [if_pos hff]
        by_cases hz0 : z = []
        · simp only [if_pos hz0, if_pos (hz.mpr hz0)]
        · have hz0' : ¬ firstNonZero d.val = 0 := fun h => hz0 (hz.mp h)
          simp only [if_neg hz0, if_neg hz0']
          obtain ⟨d', h1, h2⟩ := modifyUnchecked_ok d (firstNonZero d.val - 1) (fun v => (v <<< 1) + 1) (by omega)
          refine ⟨d', h1, ?_⟩
          rw [h2, c, ← hs]
          obtain ⟨z', x, rfl⟩ : ∃ z' x, z = z' ++ [x] := ⟨z.dropLast, z.getLast hz0, (List.dropLast_concat_getLast hz0).symm⟩
          have hx : x = 0 := e x (by simp)
          subst hx
          rw [List.dropLast_concat]
          have := modify_append_length z' 0 (v :: r') (fun v : UInt8 => (v <<< 1) + 1)
          simpa using this
      · simp only [if_neg hff]
        obtain ⟨d', h1, h2⟩ := modifyUnchecked_ok d (firstNonZero d.val) (fun v => (v <<< 1) + 1) hlt
        refine ⟨d', h1, ?_⟩
        rw [h2, c, ← hs, modify_append_length, shl_one]

theorem bytes32_eq {d : Hash} {l : List UInt8} (h : d.val = l) : Spec.Node.bytes32 l = d := by
  subst h
  unfold Spec.Node.bytes32
  rw [dif_pos d.property]

/-- How an outcome without a value ends. -/
def replyOf {α : Type} : Outcome α → Spec.Reply
  | .ok _ => .done
  | .err _ => .refused
  | .panic _ => .crash
  | .ub => .undefined

theorem difficulty_spec (E : Env) (before now : UInt64) (d : Hash) :
    match Spec.nextDifficulty E before now d.val with
    | .ok l => recalculateDifficulty E before now d = .ok (Spec.Node.bytes32 l)
    | .error r => replyOf (recalculateDifficulty E before now d) = r ∧
        ∀ d', recalculateDifficulty E before now d ≠ .ok d' := by
  have key : ∀ delta : UInt64, match (if delta.toNat < 600 then Except.ok (Spec.harder d.val)
      else if delta.toNat = 600 then Except.ok d.val
      else match Spec.easier d.val with
        | some d' => Except.ok d'
        | none => Except.error (if E.overflowChecks then Spec.Reply.crash else .undefined)) with
    | .ok l => stepBy E delta d = .ok (Spec.Node.bytes32 l)
    | .error r => replyOf (stepBy E delta d) = r ∧ ∀ d', stepBy E delta d ≠ .ok d' := by
    intro delta
    have h6 : (600 : UInt64).toNat = 600 := rfl
    unfold stepBy
    simp only [gt_iff_lt, UInt64.lt_iff_toNat_lt, h6]
    rcases Nat.lt_trichotomy delta.toNat 600 with h | h | h
    · rw [if_pos h]
      simp only
      rw [if_pos h]
      obtain ⟨d', h1, h2⟩ := harder_spec d
      rw [h1, bytes32_eq h2]
    · rw [if_neg (by omega), if_pos h]
      simp only
      rw [if_neg (by omega), if_neg (by omega), bytes32_eq rfl]
    · simp only [if_neg (show ¬ delta.toNat < 600 by omega), if_neg (show ¬ delta.toNat = 600 by omega), if_pos h]
      have := easier_spec E d
      cases he : Spec.easier d.val with
      | none =>
        rw [he] at this
        simp only at this ⊢
        rw [this]
        cases E.overflowChecks <;> exact ⟨rfl, fun d' h => by cases h⟩
      | some l =>
        rw [he] at this
        simp only at this ⊢
        obtain ⟨d', h1, h2⟩ := this
        rw [h1, bytes32_eq h2]
  unfold Spec.nextDifficulty Spec.elapsed
  rw [recalculate_eq]
  by_cases hle : before.toNat ≤ now.toNat
  · rw [if_pos hle, u64Sub_inorder E before now (UInt64.le_iff_toNat_le.mpr hle), Outcome.ok_bind]
    have := key (now - before)
    rw [toNat_sub_inorder before now (UInt64.le_iff_toNat_le.mpr hle)] at this
    exact this
  · rw [if_neg hle]
    have hlt : now < before := UInt64.lt_iff_toNat_lt.mpr (by omega)
    cases hE : E.overflowChecks with
    | true =>
      simp only [if_true]
      have : u64Sub E now before = .panic .overflow := by unfold u64Sub; rw [if_pos ⟨hE, hlt⟩]
      rw [this]
      exact ⟨rfl, fun d' h => by simp at h⟩
    | false =>
      simp only [Bool.false_eq_true, if_false]
      have : u64Sub E now before = .ok (now - before) := by unfold u64Sub; rw [if_neg (by simp [hE])]
      rw [this, Outcome.ok_bind]
      have hk := key (now - before)
      have hn : (now - before).toNat = 2 ^ 64 + now.toNat - before.toNat := by
        rw [UInt64.toNat_sub]
        have := before.toNat_lt
        have := now.toNat_lt
        omega
      rw [hn, hE] at hk
      simp only [Bool.false_eq_true, if_false] at hk
      exact hk

end BCT
