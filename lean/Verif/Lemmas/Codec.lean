import Verif.Model.Tools
/-! Helper lemmas about big-endian digits and the integer codecs. -/

namespace BCT

/-! ### `beNat` -/

theorem foldl_be (b : Bytes) (acc : Nat) :
    b.foldl (fun acc x => acc * 256 + x.toNat) acc = acc * 256 ^ b.length + beNat b := by
  induction b generalizing acc with
  | nil => simp [beNat]
  | cons x xs ih =>
    simp only [List.foldl_cons, List.length_cons, beNat]
    rw [ih, ih (0 * 256 + x.toNat), Nat.pow_succ, Nat.add_mul]
    simp only [Nat.zero_mul, Nat.zero_add]
    rw [Nat.mul_assoc, Nat.mul_comm 256, Nat.add_assoc]

@[simp] theorem beNat_nil : beNat [] = 0 := rfl

theorem beNat_cons (x : UInt8) (xs : Bytes) : beNat (x :: xs) = x.toNat * 256 ^ xs.length + beNat xs := by
  have := foldl_be xs (0 * 256 + x.toNat)
  simpa [beNat] using this

theorem beNat_append (a b : Bytes) : beNat (a ++ b) = beNat a * 256 ^ b.length + beNat b := by
  unfold beNat
  rw [List.foldl_append, foldl_be]
  rfl

/-! ### `beBytes` -/

theorem beBytes_add (j k n : Nat) : beBytes (j + k) n = beBytes j (n / 256 ^ k) ++ beBytes k n := by
  induction j with
  | zero => simp [beBytes]
  | succ j ih =>
    rw [Nat.succ_add]
    simp only [beBytes, List.cons_append, ih]
    rw [Nat.div_div_eq_div_mul, ← Nat.pow_add, Nat.add_comm k j]

theorem beBytes_mod (k m n : Nat) (h : k ≤ m) : beBytes k (n % 256 ^ m) = beBytes k n := by
  induction k with
  | zero => rfl
  | succ k ih =>
    simp only [beBytes]
    rw [ih (by omega)]
    congr 1
    apply UInt8.toNat_inj.mp
    simp only [UInt8.toNat_ofNat']
    have : m = k + (m - k) := by omega
    rw [this, Nat.pow_add, Nat.mod_mul_right_div_self, Nat.mod_mod_of_dvd]
    exact ⟨256 ^ (m - k - 1), by
      have : m - k = (m - k - 1) + 1 := by omega
      rw [this, Nat.pow_succ, Nat.mul_comm]; rfl⟩

theorem beNat_beBytes (k n : Nat) : beNat (beBytes k n) = n % 256 ^ k := by
  induction k with
  | zero => simp [beBytes, Nat.mod_one]
  | succ k ih =>
    simp only [beBytes, beNat_cons, ih, beBytes_length, UInt8.toNat_ofNat']
    rw [Nat.pow_succ 256 k, Nat.mod_mul, Nat.mul_comm, Nat.add_comm]

theorem beBytes_beNat (b : Bytes) : beBytes b.length (beNat b) = b := by
  induction b with
  | nil => rfl
  | cons x xs ih =>
    simp only [List.length_cons, beBytes, beNat_cons]
    have hx := x.toNat_lt
    have h1 := beNat_lt xs
    congr 1
    · apply UInt8.toNat_inj.mp
      rw [UInt8.toNat_ofNat', Nat.mul_comm, Nat.mul_add_div (Nat.pow_pos (by decide)), Nat.div_eq_of_lt h1]
      rw [Nat.add_zero]; exact Nat.mod_eq_of_lt hx
    · rw [← beBytes_mod xs.length xs.length _ (Nat.le_refl _), Nat.mul_comm, Nat.mul_add_mod,
        beBytes_mod _ _ _ (Nat.le_refl _), ih]

theorem beNat_inj_of_length {a b : Bytes} (hl : a.length = b.length) (h : beNat a = beNat b) : a = b := by
  rw [← beBytes_beNat a, ← beBytes_beNat b, hl, h]

/-! ### Minimal big-endian digits -/

/-- The big-endian digits of `n` without leading zeros, given at most 32 bytes. -/
def minBE (n : U256) : Bytes := (beBytes 32 n.val).dropWhile (· == 0)

theorem beNat_dropWhile (b : Bytes) : beNat (b.dropWhile (· == 0)) = beNat b := by
  induction b with
  | nil => rfl
  | cons x xs ih =>
    rw [List.dropWhile_cons]
    split
    · rename_i h
      have : x = 0 := by simpa using h
      subst this
      rw [ih, beNat_cons]; simp
    · rfl

theorem length_dropWhile_le (b : Bytes) : (b.dropWhile (· == 0)).length ≤ b.length :=
  (List.dropWhile_sublist _).length_le

theorem minBE_length (n : U256) : (minBE n).length ≤ 32 := by
  have := length_dropWhile_le (beBytes 32 n.val)
  simpa [minBE] using this

theorem size_eq : U256.size = 256 ^ 32 := by decide

@[simp] theorem beNat_minBE (n : U256) : beNat (minBE n) = n.val := by
  rw [minBE, beNat_dropWhile, beNat_beBytes, ← size_eq]
  exact Nat.mod_eq_of_lt n.lt

theorem minBE_head (n : U256) (x : UInt8) (xs : Bytes) (h : minBE n = x :: xs) : x ≠ 0 := by
  intro hx
  have := List.head_dropWhile_not (p := fun x : UInt8 => x == 0) (l := beBytes 32 n.val)
    (by rw [show (beBytes 32 n.val).dropWhile _ = x :: xs from h]; simp)
  simp [show (beBytes 32 n.val).dropWhile _ = x :: xs from h, hx] at this

theorem minBE_inj {a b : U256} (h : minBE a = minBE b) : a = b := by
  apply U256.ext; rw [← beNat_minBE a, ← beNat_minBE b, h]

/-! ### The loop of `dump_u256` -/

theorem dumpStep_found (bs : Bytes) (buf : Bytes) (c : Nat) :
    bs.foldl dumpStep ⟨buf, true, c⟩ = ⟨buf ++ bs, true, c + bs.length⟩ := by
  induction bs generalizing buf c with
  | nil => simp
  | cons x xs ih =>
    simp only [List.foldl_cons, dumpStep, if_true]
    rw [ih]; simp; omega

theorem dumpStep_fold (bs : Bytes) (buf : Bytes) (c : Nat) :
    bs.foldl dumpStep ⟨buf, false, c⟩ =
      ⟨buf ++ bs.dropWhile (· == 0), !(bs.dropWhile (· == 0)).isEmpty,
        c + (bs.dropWhile (· == 0)).length⟩ := by
  induction bs generalizing buf c with
  | nil => simp
  | cons x xs ih =>
    rw [List.foldl_cons, List.dropWhile_cons]
    by_cases hx : x = 0
    · subst hx
      simp only [dumpStep, Bool.false_eq_true, if_false, ne_eq, not_true, beq_self_eq_true, if_true]
      exact ih buf c
    · have : (x == 0) = false := by simpa using hx
      simp only [dumpStep, Bool.false_eq_true, if_false, ne_eq, hx, not_false_iff, if_true, this]
      rw [dumpStep_found]
      simp; omega

theorem limbs_bytes (n : U256) : n.limbs.reverse.flatMap (beBytes 8) = beBytes 32 n.val := by
  have e64 : (2 : Nat) ^ 64 = 256 ^ 8 := by decide
  have e128 : (2 : Nat) ^ 128 = 256 ^ 16 := by decide
  have e192 : (2 : Nat) ^ 192 = 256 ^ 24 := by decide
  simp only [U256.limbs, List.reverse_cons, List.reverse_nil, List.nil_append, List.cons_append,
    List.flatMap_cons, List.flatMap_nil, List.append_nil, e64, e128, e192,
    beBytes_mod 8 8 _ (Nat.le_refl 8)]
  rw [show (32 : Nat) = 8 + 24 from rfl, beBytes_add, show (24 : Nat) = 8 + 16 from rfl,
    beBytes_add 8 16, show (16 : Nat) = 8 + 8 from rfl, beBytes_add 8 8]

theorem dumpU256_eq (n : U256) (buf : Bytes) :
    dumpU256 n buf = buf ++ UInt8.ofNat (minBE n).length :: minBE n := by
  unfold dumpU256
  have h : ∀ (l : List Nat) (s : DumpState),
      l.foldl (fun s num => (beBytes 8 num).foldl dumpStep s) s = (l.flatMap (beBytes 8)).foldl dumpStep s := by
    intro l
    induction l with
    | nil => intro s; rfl
    | cons a l ih => intro s; simp [List.foldl_append, ih]
  simp only [h, limbs_bytes, dumpStep_fold]
  simp [minBE, List.set_append_right, List.append_assoc]

/-- `dump_u256` into an empty buffer. -/
def encU256 (n : U256) : Bytes := dumpU256 n []

theorem encU256_eq (n : U256) : encU256 n = UInt8.ofNat (minBE n).length :: minBE n := by
  simp [encU256, dumpU256_eq]

theorem dumpU256_append (n : U256) (buf : Bytes) : dumpU256 n buf = buf ++ encU256 n := by
  rw [dumpU256_eq, encU256_eq]

theorem encU256_length (n : U256) : (encU256 n).length = (minBE n).length + 1 := by
  simp [encU256_eq]

theorem toNat_ofNat_small {k : Nat} (h : k ≤ 255) : (UInt8.ofNat k).toNat = k := by
  rw [UInt8.toNat_ofNat']; omega

/-! ### Loading -/

@[simp] theorem idx_cons_zero (x : UInt8) (xs : Bytes) : idx (x :: xs) 0 = .ok x := rfl

theorem slice_cons_append (x : UInt8) (a b : Bytes) :
    slice (x :: (a ++ b)) 1 (1 + a.length) = .ok a := by
  unfold slice
  have : 1 + a.length ≤ (x :: (a ++ b)).length := by simp; omega
  rw [if_pos this]
  simp

theorem loadU256_encU256 (n : U256) (rest : Bytes) :
    loadU256 (encU256 n ++ rest) = .ok (n, (minBE n).length) := by
  have hl := minBE_length n
  rw [encU256_eq]
  unfold loadU256
  simp only [List.cons_append, idx_cons_zero, Outcome.ok_bind, toNat_ofNat_small (show (minBE n).length ≤ 255 by omega)]
  rw [if_neg (by omega), if_neg (by simp; omega), slice_cons_append]
  simp [U256.fromBE, hl]

end BCT
