import Verif.Props.Blocks
/-!
# C102: which bytes parse to which object (block.rs, transaction.rs)
-/

namespace BCT.Props
open BCT

/-! ## Specification: the wire formats, independently of the parsers -/

/-- `bytes` is a length byte, at most 32, followed by that many bytes, big-endian, of value `v`. Leading zeros are
allowed. -/
def Number (v : U256) (bytes : Bytes) : Prop :=
  ∃ (k : UInt8) (ds : Bytes), bytes = k :: ds ∧ ds.length = k.toNat ∧ k.toNat ≤ 32 ∧ Spec.value ds = v.val

/-- The fields of a header before the height. -/
def Fixed (i : BasicInfo) (bytes : Bytes) : Prop :=
  ∃ ts : Bytes, ts.length = 8 ∧ Spec.value ts = i.timestamp.toNat ∧
    bytes = ts ++ i.previousHash.val ++ i.pow.val ++ i.difficulty.val ++ i.founder.val

/-- `w` is the number of bytes `v` takes without leading zeros, the length byte included; two for zero. -/
def Width (v : U256) (w : Nat) : Prop :=
  (v.val = 0 ∧ w = 2) ∨ (v.val ≠ 0 ∧ 256 ^ (w - 2) ≤ v.val ∧ v.val < 256 ^ (w - 1) ∧ 2 ≤ w)

/-! ## Lemmas -/

theorem number_enc (v : U256) : Number v (encU256 v) := by
  have hl := minBE_length v
  refine ⟨UInt8.ofNat (minBE v).length, minBE v, encU256_eq v, ?_, ?_, ?_⟩
  · rw [toNat_ofNat_small (by omega)]
  · rw [toNat_ofNat_small (by omega)]; exact hl
  · have h1 := loadU256_encU256 v []
    obtain ⟨ds, rest, h2, h3, h4, h5⟩ := (loadU256_ok_iff _ _ _).mp h1
    rw [List.append_nil, encU256_eq] at h2
    rw [value_eq_beNat]
    have : minBE v = ds := by
      have := (List.cons.inj h2).2
      have h6 : rest = [] := by
        have := congrArg List.length this
        rw [List.length_append, h3] at this
        exact List.eq_nil_of_length_eq_zero (by omega)
      rw [this, h6, List.append_nil]
    rw [this]; exact h5

theorem load_iff (data : Bytes) (v : U256) : (∃ k, loadU256 data = .ok (v, k)) ↔ ∃ n rest, data = n ++ rest ∧ Number v n := by
  constructor
  · rintro ⟨k, h⟩
    obtain ⟨ds, rest, rfl, h2, h3, h4⟩ := (loadU256_ok_iff _ _ _).mp h
    exact ⟨UInt8.ofNat k :: ds, rest, rfl, _, _, rfl, by rw [toNat_ofNat_small (by omega)]; exact h2,
      by rw [toNat_ofNat_small (by omega)]; exact h3, by rw [value_eq_beNat]; exact h4⟩
  · rintro ⟨n, rest, rfl, k, ds, rfl, h1, h2, h3⟩
    refine ⟨k.toNat, (loadU256_ok_iff _ _ _).mpr ⟨ds, rest, ?_, h1, h2, by rw [← value_eq_beNat]; exact h3⟩⟩
    simp

theorem load_number {v : U256} {n : Bytes} (h : Number v n) (rest : Bytes) :
    loadU256 (n ++ rest) = .ok (v, n.length - 1) := by
  obtain ⟨k, ds, rfl, h1, h2, h3⟩ := h
  refine (loadU256_ok_iff _ _ _).mpr ⟨ds, rest, ?_, by simp, by simp; omega, by rw [← value_eq_beNat]; exact h3⟩
  simp [h1]

theorem number_of_load {data : Bytes} {v : U256} {k : Nat} (h : loadU256 data = .ok (v, k)) :
    Number v (data.take (k + 1)) ∧ (data.take (k + 1)).length = k + 1 := by
  obtain ⟨ds, rest, rfl, h2, h3, h4⟩ := (loadU256_ok_iff _ _ _).mp h
  subst h2
  simp only [List.take_succ_cons, List.take_left']
  refine ⟨⟨_, _, rfl, ?_, ?_, by rw [value_eq_beNat]; exact h4⟩, by simp⟩
  · rw [toNat_ofNat_small (by omega)]
  · rw [toNat_ofNat_small (by omega)]; exact h3

theorem fixed_iff (i : BasicInfo) (bytes : Bytes) : Fixed i bytes ↔ bytes = i.fixed := by
  have hu : (u64BE i.timestamp).length = 8 := u64BE_length _
  have hv : Spec.value (u64BE i.timestamp) = i.timestamp.toNat := by
    rw [value_eq_beNat]
    unfold u64BE
    rw [beNat_beBytes, Nat.mod_eq_of_lt]
    have := i.timestamp.toNat_lt
    exact this
  constructor
  · rintro ⟨ts, h1, h2, rfl⟩
    have : ts = u64BE i.timestamp := by
      apply beNat_inj_of_length (by rw [h1, hu])
      rw [← value_eq_beNat, ← value_eq_beNat, h2, hv]
    rw [this]
    simp [BasicInfo.fixed]
  · rintro rfl
    exact ⟨_, hu, hv, by simp [BasicInfo.fixed]⟩

theorem width_iff (v : U256) (w : Nat) : Width v w ↔ w = u256Size v := by
  rw [u256Size_exact, encU256_length]
  have hup := minBE_upper v
  split
  · rename_i h
    constructor
    · rintro (⟨_, h2⟩ | ⟨h1, _⟩)
      · have := (minBE_zero v).mpr h
        rw [this]; simpa using h2
      · exact absurd h h1
    · intro e
      have := (minBE_zero v).mpr h
      rw [this] at e
      exact .inl ⟨h, by simpa using e⟩
  · rename_i h
    have hlo := minBE_lower v h
    have hpos : 0 < (minBE v).length := by
      rw [List.length_pos_iff]
      intro e; exact h ((minBE_zero v).mp e)
    constructor
    · rintro (⟨h1, _⟩ | ⟨_, h2, h3, h4⟩)
      · exact absurd h1 h
      · have a1 := (Nat.pow_lt_pow_iff_right (a := 256) (by decide)).mp (Nat.lt_of_le_of_lt h2 hup)
        have a2 := (Nat.pow_lt_pow_iff_right (a := 256) (by decide)).mp (Nat.lt_of_le_of_lt hlo h3)
        omega
    · rintro rfl
      exact .inr ⟨h, by simpa using hlo, by simpa using hup, by omega⟩

theorem basicInfo_iff (data : Bytes) (i : BasicInfo) :
    BasicInfo.parse data = .ok i ↔ ∃ f n rest, data = f ++ n ++ rest ∧ Fixed i f ∧ Number i.height n := by
  constructor
  · intro h
    by_cases hl : 137 ≤ data.length
    · obtain ⟨ts, pw, ph, d, f, e, hd⟩ := BasicInfo.parse_long data hl
      rw [e] at h
      cases hv : loadU256 (data.drop 137) with
      | ok r =>
        obtain ⟨v, k⟩ := r
        rw [hv] at h
        simp only [Outcome.mapErr_ok, Outcome.ok_bind, Outcome.ok.injEq] at h
        obtain ⟨n, rest, h1, h2⟩ := (load_iff _ _).mp ⟨k, hv⟩
        subst h
        refine ⟨_, n, rest, ?_, (fixed_iff _ _).mpr rfl, h2⟩
        rw [List.append_assoc, ← h1]
        simpa [BasicInfo.fixed] using hd
      | err => rw [hv] at h; simp at h
      | panic => rw [hv] at h; simp at h
      | ub => rw [hv] at h; simp at h
    · exfalso
      have hs : (BasicInfo.parse data).Safe := by rw [h]; trivial
      rcases (BasicInfo.parse_safe_iff data).mp hs with h2 | h2
      · unfold BasicInfo.parse at h
        simp only at h
        rw [if_pos h2] at h
        cases h
      · exact hl h2.1
  · rintro ⟨f, n, rest, rfl, hf, hn⟩
    rw [(fixed_iff _ _).mp hf, List.append_assoc]
    exact BasicInfo.parse_shape i i.height _ _ (load_number hn rest)

theorem derivative_iff (data : Bytes) (b : DerivativeBlock) :
    DerivativeBlock.parse data = .ok b ↔
      ∃ f n rest, data = f ++ n ++ rest ∧ Fixed b.defaultInfo f ∧ Number b.defaultInfo.height n := by
  rw [← basicInfo_iff]
  unfold DerivativeBlock.parse
  constructor
  · intro h
    split at h
    · cases h
    · cases hp : BasicInfo.parse data <;> rw [hp] at h <;> simp at h
      subst h; rfl
  · intro h
    have hl : ¬ data.length < 32 := by
      intro hl
      unfold BasicInfo.parse at h
      simp only at h
      rw [if_pos (by omega)] at h
      cases h
    rw [if_neg hl, h]
    rfl

theorem take_drop_eq (data : Bytes) (n : Nat) (x : BytesN n) (h : sliceN data 0 n = .ok x) :
    data = x.val ++ data.drop n := by
  unfold sliceN at h
  split at h
  · cases h; simp
  · cases h

theorem summarize_iff (data : Bytes) (b : SummarizeBlock) :
    SummarizeBlock.parse data = .ok b ↔
      ∃ f n rest, data = b.merkleTreeRoot.val ++ f ++ n ++ rest ∧ Fixed b.defaultInfo f ∧ Number b.defaultInfo.height n := by
  constructor
  · intro h
    unfold SummarizeBlock.parse at h
    split at h
    · cases h
    · rename_i hl
      obtain ⟨r, h0, _⟩ := sliceN_ok (n := 32) data 0 (by omega)
      rw [h0, Outcome.ok_bind, sliceFrom_ok data 32 (by omega), Outcome.ok_bind] at h
      cases hp : BasicInfo.parse (data.drop 32) <;> rw [hp] at h <;> simp at h
      subst h
      obtain ⟨f, n, rest, h1, h2, h3⟩ := (basicInfo_iff _ _).mp hp
      refine ⟨f, n, rest, ?_, h2, h3⟩
      rw [List.append_assoc, List.append_assoc, ← List.append_assoc f, ← h1]
      exact take_drop_eq _ _ _ h0
  · rintro ⟨f, n, rest, rfl, hf, hn⟩
    have hp : BasicInfo.parse (f ++ n ++ rest) = .ok b.defaultInfo := (basicInfo_iff _ _).mpr ⟨f, n, rest, rfl, hf, hn⟩
    have hr := b.merkleTreeRoot.property
    have hlen : (f ++ n ++ rest).length ≠ 0 := by
      intro e
      rw [List.eq_nil_of_length_eq_zero e] at hp
      cases hp
    have e : b.merkleTreeRoot.val ++ f ++ n ++ rest = b.merkleTreeRoot.val ++ (f ++ n ++ rest) := by simp
    rw [e]
    have s0 := sliceN_append [] b.merkleTreeRoot (f ++ n ++ rest) 0 rfl
    rw [List.nil_append] at s0
    unfold SummarizeBlock.parse
    rw [if_neg (by rw [List.length_append, hr]; omega), s0, Outcome.ok_bind, sliceFrom_append _ _ _ hr, Outcome.ok_bind, hp]
    rfl

theorem readHashes_iff (data : Bytes) : ∀ (k i : Nat) (acc r : List Hash), data.length = i + 32 * k →
    (TransactionBlock.readHashes data i acc = .ok r ↔ ∃ l, r = acc ++ l ∧ data.drop i = (l.map (·.val)).flatten) := by
  intro k i acc r hl
  constructor
  · intro h
    induction k generalizing i acc with
    | zero =>
      rw [TransactionBlock.readHashes, if_neg (by omega)] at h
      cases h
      exact ⟨[], by simp, by simp [List.drop_eq_nil_iff]; omega⟩
    | succ k ih =>
      rw [TransactionBlock.readHashes, if_pos (by omega)] at h
      obtain ⟨x, hx, hxv⟩ := sliceN_ok (n := 32) data i (by omega)
      rw [hx, Outcome.ok_bind] at h
      obtain ⟨l, h1, h2⟩ := ih (i + 32) _ (by omega) h
      refine ⟨x :: l, by rw [h1]; simp, ?_⟩
      rw [List.map_cons, List.flatten_cons, ← h2, hxv, ← List.drop_drop, List.take_append_drop]
  · rintro ⟨l, rfl, h2⟩
    have h3 := readHashes_flat l (data.take i) acc
    rw [← h2, List.take_append_drop, List.length_take, Nat.min_eq_left (by omega)] at h3
    exact h3

theorem txBlock_iff (data : Bytes) (b : TransactionBlock) :
    TransactionBlock.parse data = .ok b ↔
      ∃ f x w n, data = b.merkleTreeRoot.val ++ f ++ x ∧ Fixed b.defaultInfo f ∧
        (∃ h rest, x = h ++ rest ∧ Number b.defaultInfo.height h) ∧ Width b.defaultInfo.height w ∧ w ≤ x.length ∧
        x.drop w = n ++ (b.transactions.map (·.val)).flatten ∧ Number b.fee n := by
  constructor
  · intro h
    have hs : (TransactionBlock.parse data).Safe := by rw [h]; trivial
    obtain ⟨hl, hsi, hrest⟩ := (TransactionBlock.parse_safe_iff data).mp hs
    unfold TransactionBlock.parse at h
    obtain ⟨r, h0, _⟩ := sliceN_ok (n := 32) data 0 (by omega)
    simp only [h0, Outcome.ok_bind, sliceFrom_ok data (0 + 32) (by omega), Nat.zero_add] at h
    cases hp : BasicInfo.parse (data.drop 32) with
    | err => rw [hp] at h; simp at h
    | panic => rw [hp] at h; simp at h
    | ub => rw [hp] at h; simp at h
    | ok i =>
      obtain ⟨h2, h3⟩ := hrest i hp
      rw [hp, Outcome.mapErr_ok, Outcome.ok_bind, sliceFrom_ok _ _ h2, Outcome.ok_bind] at h
      cases hv : loadU256 (data.drop (32 + i.getDumpSize)) with
      | err => rw [hv] at h; simp at h
      | panic => rw [hv] at h; simp at h
      | ub => rw [hv] at h; simp at h
      | ok q =>
        obtain ⟨v, k⟩ := q
        rw [hv] at h
        simp only [Outcome.mapErr_ok, Outcome.ok_bind] at h
        have hk := loadU256_ok_length hv
        rw [List.length_drop] at hk
        split at h
        · cases h
        · rename_i hm
          have hm' : data.length = 32 + i.getDumpSize + (k + 1) +
            32 * ((data.length - (32 + i.getDumpSize + (k + 1))) / 32) := by omega
          cases hh : TransactionBlock.readHashes data (32 + i.getDumpSize + (k + 1)) [] with
          | err => rw [hh] at h; simp at h
          | panic => rw [hh] at h; simp at h
          | ub => rw [hh] at h; simp at h
          | ok l =>
            rw [hh] at h
            simp only [Outcome.ok_bind, Outcome.ok.injEq] at h
            subst h
            obtain ⟨l', h4, h5⟩ := (readHashes_iff data _ _ [] l hm').mp hh
            rw [List.nil_append] at h4
            subst h4
            obtain ⟨f, n, rest, h6, h7, h8⟩ := (basicInfo_iff _ _).mp hp
            have hfl : f.length = 137 := by rw [(fixed_iff _ _).mp h7]; exact BasicInfo.fixed_length _
            have hsz : i.getDumpSize = 137 + u256Size i.height := by unfold BasicInfo.getDumpSize; omega
            have hdx : data.drop 169 = n ++ rest := by
              rw [show 169 = 32 + 137 from rfl, ← List.drop_drop, h6, List.append_assoc, ← hfl, List.drop_left]
            refine ⟨f, n ++ rest, u256Size i.height, (data.drop (32 + i.getDumpSize)).take (k + 1), ?_, h7,
              ⟨n, rest, rfl, h8⟩, (width_iff _ _).mpr rfl, ?_, ?_, (number_of_load hv).1⟩
            · rw [List.append_assoc, ← List.append_assoc f, ← h6]
              exact take_drop_eq _ _ _ h0
            · rw [← hdx, List.length_drop]; omega
            · rw [← hdx, List.drop_drop, ← h5, show 169 + u256Size i.height = 32 + i.getDumpSize by omega]
              conv => lhs; rw [← List.take_append_drop (k + 1) (data.drop (32 + i.getDumpSize)), List.drop_drop]
  · rintro ⟨f, x, w, n, rfl, hf, ⟨hb, rest, hx, hn⟩, hw, hwx, hd, hfee⟩
    have hp : BasicInfo.parse (f ++ x) = .ok b.defaultInfo :=
      (basicInfo_iff _ _).mpr ⟨f, hb, rest, by rw [hx, List.append_assoc], hf, hn⟩
    have hr := b.merkleTreeRoot.property
    have hfl : f.length = 137 := by rw [(fixed_iff _ _).mp hf]; exact BasicInfo.fixed_length _
    have hw' := (width_iff _ _).mp hw
    have hsz : b.defaultInfo.getDumpSize = 137 + w := by unfold BasicInfo.getDumpSize; omega
    obtain ⟨data, hdata⟩ : ∃ data, data = b.merkleTreeRoot.val ++ f ++ x := ⟨_, rfl⟩
    rw [← hdata]
    have hlen : data.length = 169 + x.length := by rw [hdata]; simp only [List.length_append, hr, hfl]
    have s0 : sliceN data 0 32 = .ok b.merkleTreeRoot := by
      rw [hdata, List.append_assoc]
      exact sliceN_append [] b.merkleTreeRoot (f ++ x) 0 rfl
    have d1 : data.drop 32 = f ++ x := by rw [hdata, List.append_assoc]; exact List.drop_left' hr
    have d2 : data.drop (32 + b.defaultInfo.getDumpSize) = x.drop w := by
      rw [hsz, ← Nat.add_assoc, ← List.drop_drop, ← List.drop_drop, d1, ← hfl, List.drop_left]
    have hl2 := load_number hfee (b.transactions.map (·.val)).flatten
    rw [← hd, ← d2] at hl2
    obtain ⟨k0, ds, hne, _⟩ := hfee
    have hn1 : n.length - 1 + 1 = n.length := by rw [hne]; simp
    have hxl : x.length = w + n.length + 32 * b.transactions.length := by
      have := congrArg List.length hd
      rw [List.length_drop, List.length_append, flat_length] at this
      omega
    have hread : TransactionBlock.readHashes data (32 + b.defaultInfo.getDumpSize + n.length) [] = .ok b.transactions := by
      refine (readHashes_iff data b.transactions.length _ [] _ (by omega)).mpr ⟨_, rfl, ?_⟩
      rw [← List.drop_drop, d2, hd, List.drop_left]
    unfold TransactionBlock.parse
    simp only [s0, Outcome.ok_bind, Nat.zero_add]
    rw [sliceFrom_ok data 32 (by omega), Outcome.ok_bind, d1, hp, Outcome.mapErr_ok, Outcome.ok_bind,
      sliceFrom_ok data _ (by omega), Outcome.ok_bind, hl2]
    simp only [Outcome.mapErr_ok, Outcome.ok_bind, hn1]
    rw [if_neg (by omega), hread]
    rfl

theorem timestamp_iff (t : UInt64) (ts : Bytes) : (ts.length = 8 ∧ Spec.value ts = t.toNat) ↔ ts = u64BE t := by
  have hu : (u64BE t).length = 8 := u64BE_length _
  have hv : Spec.value (u64BE t) = t.toNat := by
    rw [value_eq_beNat]
    unfold u64BE
    rw [beNat_beBytes, Nat.mod_eq_of_lt]
    have := t.toNat_lt
    exact this
  constructor
  · rintro ⟨h1, h2⟩
    apply beNat_inj_of_length (by rw [h1, hu])
    rw [← value_eq_beNat, ← value_eq_beNat, h2, hv]
  · rintro rfl
    exact ⟨hu, hv⟩

/-- An empty payload is no payload. -/
def payload (bytes : Bytes) : Option Bytes := if bytes = [] then none else some bytes

theorem transaction_shape (E : Env) (s r : Address) (t : UInt64) (g : Signature) (v : U256) (n rest : Bytes)
    (hn : Number v n) : Transaction.parse E (s.val ++ r.val ++ u64BE t ++ g.val ++ n ++ rest) =
      .ok (Transaction.newSigned E s r t v (payload rest) g) := by
  have hs := s.property
  have hr := r.property
  have hg := g.property
  have hu := u64BE_length t
  have hl := load_number hn rest
  obtain ⟨k0, ds, hne, _⟩ := hn
  have hn1 : n.length - 1 + 1 = n.length := by rw [hne]; simp
  obtain ⟨body, hb⟩ : ∃ body, body = s.val ++ r.val ++ u64BE t ++ g.val ++ n ++ rest := ⟨_, rfl⟩
  rw [← hb]
  have hbl : body.length = 138 + n.length + rest.length := by
    rw [hb]; simp only [List.length_append, hs, hr, hg, hu]
  have s0 : sliceN body 0 33 = .ok s := by
    rw [hb]; simpa using sliceN_append [] s (r.val ++ (u64BE t ++ (g.val ++ (n ++ rest)))) 0 rfl
  have s1 : sliceN body (0 + 33) 33 = .ok r := by
    rw [hb]; simpa using sliceN_append s.val r (u64BE t ++ (g.val ++ (n ++ rest))) (0 + 33) hs
  have s2 : sliceN body (0 + 33 + 33) 8 = .ok (u64N t) := by
    rw [hb]
    simpa [u64N] using sliceN_append (s.val ++ r.val) (u64N t) (g.val ++ (n ++ rest)) (0 + 33 + 33) (by simp [hs, hr])
  have s3 : sliceN body (0 + 33 + 33 + 8) 64 = .ok g := by
    rw [hb]
    simpa using sliceN_append (s.val ++ r.val ++ u64BE t) g (n ++ rest) (0 + 33 + 33 + 8) (by simp [hs, hr, hu])
  have s4 : sliceFrom body (0 + 33 + 33 + 8 + 64) = .ok (n ++ rest) := by
    rw [hb, List.append_assoc _ n]
    exact sliceFrom_append _ _ _ (by simp [hs, hr, hu, hg])
  unfold Transaction.parse
  rw [if_neg (by rw [hne] at hbl; simp only [List.length_cons] at hbl; omega)]
  simp only [s0, s1, s2, s3, s4, hl, Outcome.ok_bind, Outcome.mapErr_ok, u64FromBE_u64N, hn1]
  unfold payload
  by_cases hp : rest = []
  · subst hp
    rw [if_pos (by rw [hbl]; simp), if_pos rfl]
  · have : rest.length ≠ 0 := fun e => hp (List.eq_nil_of_length_eq_zero e)
    rw [if_neg (by omega), if_neg hp]
    have s5 : sliceFrom body (0 + 33 + 33 + 8 + 64 + n.length) = .ok rest := by
      rw [hb]
      exact sliceFrom_append _ _ _ (by simp only [List.length_append, hs, hr, hu, hg])
    rw [s5, Outcome.ok_bind, if_neg (by omega)]

theorem transaction_iff (E : Env) (data : Bytes) (t : Transaction) :
    Transaction.parse E data = .ok t ↔
      ∃ ts n rest, data = t.sender.val ++ t.receiver.val ++ ts ++ t.signature.val ++ n ++ rest ∧
        ts.length = 8 ∧ Spec.value ts = t.timestamp.toNat ∧ Number t.amount n ∧ t.data = payload rest ∧
        t.hash = E.sha256 t.dump := by
  constructor
  · intro h
    have hs : (Transaction.parse E data).Safe := by rw [h]; trivial
    have hl : ¬ data.length < 139 := by
      intro hl
      unfold Transaction.parse at h
      rw [if_pos hl] at h
      cases h
    have hsafe := (or_iff_right hl).mp ((Transaction.parse_safe_iff E data).mp hs)
    obtain ⟨s, h0, v0⟩ := sliceN_ok (n := 33) data 0 (by omega)
    obtain ⟨r, h1, v1⟩ := sliceN_ok (n := 33) data (0 + 33) (by omega)
    obtain ⟨ts, h2, v2⟩ := sliceN_ok (n := 8) data (0 + 33 + 33) (by omega)
    obtain ⟨g, h3, v3⟩ := sliceN_ok (n := 64) data (0 + 33 + 33 + 8) (by omega)
    have h4 := sliceFrom_ok data (0 + 33 + 33 + 8 + 64) (by omega)
    have key : ∀ (i n : Nat), data.drop i = (data.drop i).take n ++ data.drop (i + n) := by
      intro i n
      rw [← List.drop_drop, List.take_append_drop]
    have hd : data = s.val ++ (r.val ++ (ts.val ++ (g.val ++ data.drop 138))) := by
      rw [v0, v1, v2, v3]
      conv => lhs; rw [← List.drop_zero (l := data), key 0 33, key (0 + 33) 33, key (0 + 33 + 33) 8,
        key (0 + 33 + 33 + 8) 64]
    have ets : ts.val = u64BE (u64FromBE ts) := by
      unfold u64BE u64FromBE
      have hl := beNat_lt ts.val
      rw [ts.property] at hl
      rw [UInt64.toNat_ofNat_of_lt' (by simpa using hl)]
      have := beBytes_beNat ts.val
      rw [ts.property] at this
      exact this.symm
    cases hv : loadU256 (data.drop 138) with
    | err =>
      unfold Transaction.parse at h
      rw [if_neg hl] at h
      simp only [h0, h1, h2, h3, h4, Outcome.ok_bind, Nat.zero_add, Nat.reduceAdd, hv] at h
      cases h
    | panic => rw [hv] at hsafe; cases hsafe
    | ub => rw [hv] at hsafe; cases hsafe
    | ok q =>
      obtain ⟨v, k⟩ := q
      obtain ⟨n, rest, h5, h6⟩ := (load_iff _ _).mp ⟨k, hv⟩
      rw [h5, ets] at hd
      have hsh := transaction_shape E s r (u64FromBE ts) g v n rest h6
      have e : data = s.val ++ r.val ++ u64BE (u64FromBE ts) ++ g.val ++ n ++ rest := by
        rw [hd]; simp
      rw [← e, h] at hsh
      cases hsh
      obtain ⟨a1, a2⟩ := (timestamp_iff (u64FromBE ts) _).mpr rfl
      exact ⟨_, n, rest, e, a1, a2, h6, rfl, rfl⟩
  · rintro ⟨ts, n, rest, rfl, h1, h2, h3, h4, h5⟩
    rw [(timestamp_iff _ _).mp ⟨h1, h2⟩, transaction_shape E _ _ _ _ _ _ _ h3, ← h4]
    unfold Transaction.newSigned
    congr 1
    have : ({ t with hash := BytesN.fill 32 0 } : Transaction).dump = t.dump := rfl
    change ({ t with hash := E.sha256 ({ t with hash := BytesN.fill 32 0 } : Transaction).dump } : Transaction) = t
    rw [this, ← h5]

/-! ## C102 -/

/-- C102 in full: bytes that parse are the dump, without its header byte, of what they parse to. -/
def C102_full : Prop := ∀ (E : Env) (data : Bytes),
  (∀ i, BasicInfo.parse data = .ok i → data = i.dump []) ∧
  (∀ b, TransactionBlock.parse data = .ok b → data = b.dump.drop 1) ∧
  (∀ b, SummarizeBlock.parse data = .ok b → data = b.dump.drop 1) ∧
  (∀ b, DerivativeBlock.parse data = .ok b → data = b.dump.drop 1) ∧
  (∀ t, Transaction.parse E data = .ok t → data = t.dump.drop 1)

/-- A hash function for examples. -/
def env0 : Env := ⟨fun _ => BytesN.fill 32 0, true⟩

/-- The number with one leading zero. -/
theorem number_padded (v : U256) (h : v.val < 256 ^ 31) : ∃ n, Number v n ∧ n.length = (encU256 v).length + 1 := by
  have h1 := number_enc v
  have hl : (minBE v).length ≤ 31 := by
    by_cases h0 : v.val = 0
    · rw [(minBE_zero v).mpr h0]; simp
    · have := minBE_lower v h0
      have := (Nat.pow_lt_pow_iff_right (a := 256) (by decide)).mp (Nat.lt_of_le_of_lt this h)
      omega
  obtain ⟨k, ds, e, h2, h3, h4⟩ := h1
  rw [encU256_eq] at e
  obtain ⟨_, rfl⟩ := List.cons.inj e
  refine ⟨UInt8.ofNat ((minBE v).length + 1) :: 0 :: minBE v, ⟨_, _, rfl, ?_, ?_, ?_⟩, ?_⟩
  · rw [toNat_ofNat_small (by omega)]; simp
  · rw [toNat_ofNat_small (by omega)]; omega
  · rw [value_eq_beNat, beNat_cons, ← value_eq_beNat, h4]; simp
  · rw [encU256_length]; simp

/-- C102 is false of the code, for every summarize and derivative block, for every transaction of less than `2^248`
coins, and for every transaction block of height above zero with a fee below `2^248`: some other bytes parse to it. -/
theorem C102_refuted :
    (∀ (b : SummarizeBlock) (junk : Bytes), SummarizeBlock.parse (b.dump.drop 1 ++ junk) = .ok b) ∧
    (∀ (b : DerivativeBlock) (junk : Bytes), DerivativeBlock.parse (b.dump.drop 1 ++ junk) = .ok b) ∧
    (∀ b : TransactionBlock, b.defaultInfo.height.val ≠ 0 → b.fee.val < 256 ^ 31 →
      ∃ data, data ≠ b.dump.drop 1 ∧ TransactionBlock.parse data = .ok b) ∧
    (∀ (E : Env) (t : Transaction), t.amount.val < 256 ^ 31 →
      ∃ data, data ≠ t.dump.drop 1 ∧ (Transaction.parse E data) = Transaction.parse E (t.dump.drop 1)) ∧
    ¬ C102_full := by
  have hS : ∀ (b : SummarizeBlock) (junk : Bytes), SummarizeBlock.parse (b.dump.drop 1 ++ junk) = .ok b := by
    intro b junk
    refine (summarize_iff _ _).mpr ⟨_, _, junk, ?_, (fixed_iff _ _).mpr rfl, number_enc _⟩
    rw [SummarizeBlock.dump_eq]; simp
  refine ⟨hS, ?_, ?_, ?_, ?_⟩
  · intro b junk
    refine (derivative_iff _ _).mpr ⟨_, _, junk, ?_, (fixed_iff _ _).mpr rfl, number_enc _⟩
    rw [DerivativeBlock.dump_eq]; simp
  · intro b hh hf
    obtain ⟨n, h1, h2⟩ := number_padded b.fee hf
    refine ⟨b.merkleTreeRoot.val ++ b.defaultInfo.fixed ++ (encU256 b.defaultInfo.height ++
      (n ++ (b.transactions.map (·.val)).flatten)), ?_, ?_⟩
    · intro e
      have := congrArg List.length e
      rw [TransactionBlock.dump_eq] at this
      simp only [List.drop_succ_cons, List.drop_zero, List.length_append] at this
      omega
    · have hsz := u256Size_exact b.defaultInfo.height
      rw [if_neg hh] at hsz
      refine (txBlock_iff _ _).mpr ⟨_, _, u256Size b.defaultInfo.height, n, rfl, (fixed_iff _ _).mpr rfl,
        ⟨_, _, rfl, number_enc _⟩, (width_iff _ _).mpr rfl, ?_, ?_, h1⟩
      · rw [List.length_append]; omega
      · rw [hsz, Nat.add_zero, List.drop_left]
  · intro E t ha
    obtain ⟨n, h1, h2⟩ := number_padded t.amount ha
    refine ⟨t.sender.val ++ t.receiver.val ++ u64BE t.timestamp ++ t.signature.val ++ n ++ t.data.getD [], ?_, ?_⟩
    · intro e
      have := congrArg List.length e
      rw [Transaction.dump_eq] at this
      simp only [List.drop_succ_cons, List.drop_zero, List.length_append] at this
      omega
    · have e : t.dump.drop 1 = t.sender.val ++ t.receiver.val ++ u64BE t.timestamp ++ t.signature.val ++
          encU256 t.amount ++ t.data.getD [] := by rw [Transaction.dump_eq]; simp
      rw [e, transaction_shape E _ _ _ _ _ _ _ h1, transaction_shape E _ _ _ _ _ _ _ (number_enc _)]
  · intro h
    have := (h env0 _).2.2.1 _ (hS ⟨exInfo, BytesN.fill 32 9⟩ [0])
    have := congrArg List.length this
    simp at this

/-- C102, exact: for each parser, the bytes that parse to a given object. Missing: uniqueness (`C102_refuted`); the
freedom is in leading zeros of numbers and in bytes after header, summarize and derivative blocks. In transaction
blocks the fee is looked for where the height would end without leading zeros. -/
theorem C102_exact_partial (E : Env) (data : Bytes) :
    (∀ i, BasicInfo.parse data = .ok i ↔
      ∃ f n rest, data = f ++ n ++ rest ∧ Fixed i f ∧ Number i.height n) ∧
    (∀ b, DerivativeBlock.parse data = .ok b ↔
      ∃ f n rest, data = f ++ n ++ rest ∧ Fixed b.defaultInfo f ∧ Number b.defaultInfo.height n) ∧
    (∀ b, SummarizeBlock.parse data = .ok b ↔
      ∃ f n rest, data = b.merkleTreeRoot.val ++ f ++ n ++ rest ∧ Fixed b.defaultInfo f ∧ Number b.defaultInfo.height n) ∧
    (∀ b, TransactionBlock.parse data = .ok b ↔
      ∃ f x w n, data = b.merkleTreeRoot.val ++ f ++ x ∧ Fixed b.defaultInfo f ∧
        (∃ h rest, x = h ++ rest ∧ Number b.defaultInfo.height h) ∧ Width b.defaultInfo.height w ∧ w ≤ x.length ∧
        x.drop w = n ++ (b.transactions.map (·.val)).flatten ∧ Number b.fee n) ∧
    (∀ t, Transaction.parse E data = .ok t ↔
      ∃ ts n rest, data = t.sender.val ++ t.receiver.val ++ ts ++ t.signature.val ++ n ++ rest ∧
        ts.length = 8 ∧ Spec.value ts = t.timestamp.toNat ∧ Number t.amount n ∧ t.data = payload rest ∧
        t.hash = E.sha256 t.dump) :=
  ⟨basicInfo_iff data, derivative_iff data, summarize_iff data, txBlock_iff data, transaction_iff E data⟩

/-- C102, where it holds: transactions of at least `2^248` coins have one form. -/
theorem C102_unique_partial (E : Env) (data : Bytes) (t : Transaction) (h : Transaction.parse E data = .ok t)
    (ha : 256 ^ 31 ≤ t.amount.val) : data = t.dump.drop 1 := by
  obtain ⟨ts, n, rest, rfl, h1, h2, ⟨k, ds, rfl, h3, h4, h5⟩, h6, _⟩ := (transaction_iff E data t).mp h
  have hk : k.toNat = 32 := by
    have := beNat_lt ds
    rw [← value_eq_beNat, h5, h3] at this
    have := (Nat.pow_lt_pow_iff_right (a := 256) (by decide)).mp (Nat.lt_of_le_of_lt ha this)
    omega
  obtain ⟨k', ds', e, h3', h4', h5'⟩ := number_enc t.amount
  have hk' : k'.toNat = 32 := by
    have := beNat_lt ds'
    rw [← value_eq_beNat, h5', h3'] at this
    have := (Nat.pow_lt_pow_iff_right (a := 256) (by decide)).mp (Nat.lt_of_le_of_lt ha this)
    omega
  have hkk : k = k' := UInt8.toNat_inj.mp (by omega)
  have hds : ds = ds' := by
    apply beNat_inj_of_length (by omega)
    rw [← value_eq_beNat, ← value_eq_beNat, h5, h5']
  rw [Transaction.dump_eq, e, (timestamp_iff _ _).mp ⟨h1, h2⟩, h6, hkk, hds]
  unfold payload
  by_cases hr : rest = []
  · subst hr; simp
  · rw [if_neg hr]; simp

example : ∃ t, Transaction.parse env0 (exTx.dump.drop 1) = .ok t ∧ t.amount.val < 256 ^ 31 :=
  ⟨_, Transaction.parse_dump _ _, by decide⟩
example : ∃ t : Transaction, Transaction.parse env0 ({ exTx with amount := U256.ofNat (256 ^ 31) }.dump.drop 1) = .ok t ∧
    256 ^ 31 ≤ t.amount.val := ⟨_, Transaction.parse_dump _ _, by decide⟩

end BCT.Props
