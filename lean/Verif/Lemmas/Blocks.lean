import Verif.Lemmas.Codec2
import Verif.Model.Block
/-! Round trips of headers, blocks and transactions. -/

namespace BCT

theorem u64BE_length (x : UInt64) : (u64BE x).length = 8 := beBytes_length _ _

/-- `u64BE` with its length. -/
def u64N (x : UInt64) : BytesN 8 := ⟨u64BE x, u64BE_length x⟩

theorem u64FromBE_u64N (x : UInt64) : u64FromBE (u64N x) = x := by
  unfold u64FromBE u64N u64BE
  apply UInt64.toNat_inj.mp
  simp only [beNat_beBytes, UInt64.toNat_ofNat']
  have := x.toNat_lt
  rw [show (256:Nat)^8 = 2^64 from by decide, Nat.mod_mod, Nat.mod_eq_of_lt this]

theorem u64BE_inj {x y : UInt64} (h : u64BE x = u64BE y) : x = y := by
  rw [← u64FromBE_u64N x, ← u64FromBE_u64N y]
  congr 1
  exact Subtype.ext h

/-! ### Slicing lemmas -/

theorem sliceN_append {n : Nat} (pre : Bytes) (x : BytesN n) (post : Bytes) (i : Nat)
    (hi : pre.length = i) : sliceN (pre ++ (x.val ++ post)) i n = .ok x := by
  unfold sliceN
  subst hi
  have hx := x.property
  rw [dif_pos (by simp; omega)]
  congr 1
  apply Subtype.ext
  simp [← hx]

theorem sliceFrom_append (pre post : Bytes) (i : Nat) (hi : pre.length = i) :
    sliceFrom (pre ++ post) i = .ok post := by
  unfold sliceFrom
  subst hi
  rw [if_pos (by simp)]
  simp

/-! ### Shape of the dumps -/

/-- Body of a header dump without the height. -/
def BasicInfo.fixed (i : BasicInfo) : Bytes :=
  u64BE i.timestamp ++ (i.previousHash.val ++ (i.pow.val ++ (i.difficulty.val ++ i.founder.val)))

theorem BasicInfo.fixed_length (i : BasicInfo) : i.fixed.length = 137 := by
  simp [fixed, u64BE_length, i.previousHash.property, i.pow.property, i.difficulty.property,
    i.founder.property]

theorem BasicInfo.dump_eq (i : BasicInfo) (buf : Bytes) :
    i.dump buf = buf ++ (i.fixed ++ encU256 i.height) := by
  unfold dump fixed
  simp only [dumpU256_append, List.append_assoc]

theorem BasicInfo.parse_shape (i : BasicInfo) (h : U256) (k : Nat) (tail : Bytes)
    (hl : loadU256 tail = .ok (h, k)) :
    BasicInfo.parse (i.fixed ++ tail) = .ok ⟨i.timestamp, i.pow, i.previousHash, h, i.difficulty, i.founder⟩ := by
  have hts := u64FromBE_u64N i.timestamp
  have hlen := i.fixed_length
  unfold parse
  have h0 : ¬ (i.fixed ++ tail).length ≤ 105 := by
    rw [List.length_append, hlen]; omega
  simp only
  rw [if_neg h0]
  have e : i.fixed ++ tail = u64BE i.timestamp ++ (i.previousHash.val ++ (i.pow.val ++ (i.difficulty.val ++
    (i.founder.val ++ tail)))) := by simp [fixed]
  have s0 : sliceN (i.fixed ++ tail) 0 8 = .ok (u64N i.timestamp) := by
    rw [e]; exact sliceN_append [] (u64N i.timestamp) _ 0 rfl
  have s1 : sliceN (i.fixed ++ tail) (0 + 8) 32 = .ok i.previousHash := by
    rw [e]; exact sliceN_append _ i.previousHash _ _ (u64BE_length _)
  have s2 : sliceN (i.fixed ++ tail) (0 + 8 + 32) 32 = .ok i.pow := by
    rw [e, ← List.append_assoc]
    exact sliceN_append _ i.pow _ _ (by simp [u64BE_length, i.previousHash.property])
  have s3 : sliceN (i.fixed ++ tail) (0 + 8 + 32 + 32) 32 = .ok i.difficulty := by
    rw [e, ← List.append_assoc, ← List.append_assoc]
    exact sliceN_append _ i.difficulty _ _ (by simp [u64BE_length, i.previousHash.property, i.pow.property])
  have s4 : sliceN (i.fixed ++ tail) (0 + 8 + 32 + 32 + 32) 33 = .ok i.founder := by
    rw [e, ← List.append_assoc, ← List.append_assoc, ← List.append_assoc]
    exact sliceN_append _ i.founder _ _
      (by simp [u64BE_length, i.previousHash.property, i.pow.property, i.difficulty.property])
  have s5 : sliceFrom (i.fixed ++ tail) (0 + 8 + 32 + 32 + 32 + 33) = .ok tail :=
    sliceFrom_append _ _ _ hlen
  simp only [s0, s1, s2, s3, s4, s5, Outcome.ok_bind, hl, Outcome.mapErr_ok, hts]

theorem encU256_ne_nil (n : U256) : encU256 n ≠ [] := by rw [encU256_eq]; simp

theorem BasicInfo.parse_dump (i : BasicInfo) (rest : Bytes) :
    BasicInfo.parse (i.dump [] ++ rest) = .ok i := by
  rw [dump_eq, List.nil_append, List.append_assoc]
  have := BasicInfo.parse_shape i i.height _ (encU256 i.height ++ rest) 
    (loadU256_encU256 i.height rest)
  simpa using this

/-! ### Transaction blocks -/

theorem foldl_append_flat (l : List Hash) (o : Bytes) :
    l.foldl (fun o t => o ++ t.val) o = o ++ (l.map (·.val)).flatten := by
  induction l generalizing o with
  | nil => simp
  | cons a l ih => simp [ih, List.append_assoc]

theorem flat_length (l : List Hash) : ((l.map (·.val)).flatten).length = 32 * l.length := by
  induction l with
  | nil => rfl
  | cons a l ih =>
    rw [List.map_cons, List.flatten_cons, List.length_append, ih, a.property, List.length_cons]; omega

theorem TransactionBlock.dump_eq (b : TransactionBlock) :
    b.dump = Headers.transactionBlock.toU8 :: (b.merkleTreeRoot.val ++ (b.defaultInfo.fixed ++
      (encU256 b.defaultInfo.height ++ (encU256 b.fee ++ (b.transactions.map (·.val)).flatten)))) := by
  unfold dump
  simp only [foldl_append_flat, dumpU256_append, BasicInfo.dump_eq]
  simp

theorem SummarizeBlock.dump_eq (b : SummarizeBlock) :
    b.dump = Headers.summarizeBlock.toU8 :: (b.merkleTreeRoot.val ++ (b.defaultInfo.fixed ++
      encU256 b.defaultInfo.height)) := by
  unfold dump
  simp [BasicInfo.dump_eq]

theorem DerivativeBlock.dump_eq (b : DerivativeBlock) :
    b.dump = Headers.derivativeBlock.toU8 :: (b.defaultInfo.fixed ++ encU256 b.defaultInfo.height) := by
  unfold dump
  simp [BasicInfo.dump_eq]

theorem readHashes_flat (l : List Hash) (pre : Bytes) (acc : List Hash) :
    TransactionBlock.readHashes (pre ++ (l.map (·.val)).flatten) pre.length acc = .ok (acc ++ l) := by
  induction l generalizing pre acc with
  | nil => rw [TransactionBlock.readHashes]; simp
  | cons a l ih =>
    rw [TransactionBlock.readHashes]
    have hp := a.property
    rw [if_pos (by simp; omega)]
    have s := sliceN_append pre a ((l.map (·.val)).flatten) pre.length rfl
    simp only [List.map_cons, List.flatten_cons]
    rw [s]
    simp only [Outcome.ok_bind]
    have := ih (pre ++ a.val) (acc ++ [a])
    simp only [List.length_append, hp, List.append_assoc] at this
    simpa using this

theorem BasicInfo.getDumpSize_of_pos (i : BasicInfo) (h : i.height.val ≠ 0) :
    i.getDumpSize = 137 + (encU256 i.height).length := by
  unfold getDumpSize
  rw [u256Size_exact, if_neg h]; omega

theorem TransactionBlock.parse_dump (b : TransactionBlock) (hh : b.defaultInfo.height.val ≠ 0) :
    TransactionBlock.parse (b.dump.drop 1) = .ok b := by
  rw [dump_eq]
  simp only [List.drop_succ_cons, List.drop_zero]
  let txs := (b.transactions.map (·.val)).flatten
  have htx : txs.length = 32 * b.transactions.length := flat_length _
  let body := b.merkleTreeRoot.val ++ (b.defaultInfo.fixed ++
      (encU256 b.defaultInfo.height ++ (encU256 b.fee ++ txs)))
  show TransactionBlock.parse body = _
  have hr := b.merkleTreeRoot.property
  have hf := b.defaultInfo.fixed_length
  have s0 : sliceN body 0 32 = .ok b.merkleTreeRoot := sliceN_append [] b.merkleTreeRoot _ 0 rfl
  have s1 : sliceFrom body (0 + 32) = .ok (b.defaultInfo.fixed ++
      (encU256 b.defaultInfo.height ++ (encU256 b.fee ++ txs))) := sliceFrom_append _ _ _ hr
  have p1 := BasicInfo.parse_shape b.defaultInfo b.defaultInfo.height _
    (encU256 b.defaultInfo.height ++ (encU256 b.fee ++ txs)) 
    (loadU256_encU256 _ _)
  change _ = Outcome.ok b.defaultInfo at p1
  have hsz := b.defaultInfo.getDumpSize_of_pos hh
  have eb : body = (b.merkleTreeRoot.val ++ (b.defaultInfo.fixed ++
      encU256 b.defaultInfo.height)) ++ (encU256 b.fee ++ txs) := by simp [body]
  have s2 : sliceFrom body (0 + 32 + b.defaultInfo.getDumpSize) = .ok (encU256 b.fee ++ txs) := by
    rw [eb]
    apply sliceFrom_append
    rw [hsz]; simp only [List.length_append, hr, hf]; try omega
  have l2 := loadU256_encU256 b.fee txs
  have hlen : body.length = 0 + 32 + b.defaultInfo.getDumpSize + ((minBE b.fee).length + 1) + txs.length := by
    rw [eb, hsz]
    have := encU256_length b.fee
    simp only [List.length_append, hr, hf]; omega
  have er : body = (b.merkleTreeRoot.val ++ (b.defaultInfo.fixed ++
      (encU256 b.defaultInfo.height ++ encU256 b.fee))) ++ txs := by simp [body]
  have s3 : readHashes body (0 + 32 + b.defaultInfo.getDumpSize + ((minBE b.fee).length + 1)) [] =
      .ok b.transactions := by
    have := readHashes_flat b.transactions (b.merkleTreeRoot.val ++ (b.defaultInfo.fixed ++
      (encU256 b.defaultInfo.height ++ encU256 b.fee))) []
    rw [List.nil_append] at this
    rw [← this, er]
    congr 1
    rw [hsz]
    have := encU256_length b.fee
    simp only [List.length_append, hr, hf]; omega
  unfold parse
  simp only [s0, s1, p1, Outcome.ok_bind, Outcome.mapErr_ok, s2, l2, s3]
  rw [if_neg]
  rw [hlen]
  omega

theorem SummarizeBlock.parse_dump (b : SummarizeBlock) :
    SummarizeBlock.parse (b.dump.drop 1) = .ok b := by
  rw [dump_eq]
  simp only [List.drop_succ_cons, List.drop_zero]
  have hr := b.merkleTreeRoot.property
  have hf := b.defaultInfo.fixed_length
  have s0 := sliceN_append [] b.merkleTreeRoot (b.defaultInfo.fixed ++ encU256 b.defaultInfo.height) 0 rfl
  have s1 := sliceFrom_append b.merkleTreeRoot.val (b.defaultInfo.fixed ++ encU256 b.defaultInfo.height) 32 hr
  have p1 := BasicInfo.parse_shape b.defaultInfo b.defaultInfo.height _
    (encU256 b.defaultInfo.height)
    (by simpa using loadU256_encU256 b.defaultInfo.height [])
  unfold parse
  rw [if_neg (by simp only [List.length_append, hr, hf]; omega)]
  simp only [List.nil_append] at s0
  simp only [s0, s1, p1, Outcome.ok_bind, Outcome.mapErr_ok]

theorem DerivativeBlock.parse_dump (b : DerivativeBlock) :
    DerivativeBlock.parse (b.dump.drop 1) = .ok b := by
  rw [dump_eq]
  simp only [List.drop_succ_cons, List.drop_zero]
  have hf := b.defaultInfo.fixed_length
  have p1 := BasicInfo.parse_shape b.defaultInfo b.defaultInfo.height _
    (encU256 b.defaultInfo.height)
    (by simpa using loadU256_encU256 b.defaultInfo.height [])
  unfold parse
  rw [if_neg (by simp only [List.length_append, hf]; omega)]
  simp only [p1, Outcome.ok_bind]

/-! ### Transactions -/

theorem Transaction.dump_eq (t : Transaction) :
    t.dump = Headers.transaction.toU8 :: (t.sender.val ++ (t.receiver.val ++ (u64BE t.timestamp ++
      (t.signature.val ++ (encU256 t.amount ++ t.data.getD []))))) := by
  unfold dump
  cases t.data <;> simp [dumpU256_append]

theorem Transaction.signingBytes_eq (s r : Address) (ts : UInt64) (a : U256) (d : Option Bytes) :
    signingBytes s r ts a d = Headers.transaction.toU8 :: (s.val ++ (r.val ++ (u64BE ts ++
      (encU256 a ++ d.getD [])))) := by
  unfold signingBytes
  cases d <;> simp [dumpU256_append]

theorem Transaction.unsignedBytes_eq (t : Transaction) :
    t.unsignedBytes = signingBytes t.sender t.receiver t.timestamp t.amount t.data := by
  unfold signingBytes unsignedBytes
  rfl

/-- What parsing does to the payload: an empty payload becomes a missing one. -/
def normData : Option Bytes → Option Bytes
  | some [] => none
  | d => d

theorem Transaction.parse_dump (E : Env) (t : Transaction) :
    Transaction.parse E (t.dump.drop 1) =
      .ok (newSigned E t.sender t.receiver t.timestamp t.amount (normData t.data) t.signature) := by
  rw [dump_eq]
  simp only [List.drop_succ_cons, List.drop_zero]
  let tail := encU256 t.amount ++ t.data.getD []
  let body := t.sender.val ++ (t.receiver.val ++ (u64BE t.timestamp ++ (t.signature.val ++ tail)))
  show Transaction.parse E body = _
  have hs := t.sender.property
  have hr := t.receiver.property
  have hg := t.signature.property
  have hu := u64BE_length t.timestamp
  have htl : tail.length = (minBE t.amount).length + 1 + (t.data.getD []).length := by
    simp [tail, encU256_length]
  have hbl : body.length = 138 + tail.length := by
    simp only [body, List.length_append, hs, hr, hg, hu]; omega
  have s0 : sliceN body 0 33 = .ok t.sender := sliceN_append [] t.sender _ 0 rfl
  have s1 : sliceN body (0 + 33) 33 = .ok t.receiver := sliceN_append _ t.receiver _ _ hs
  have s2 : sliceN body (0 + 33 + 33) 8 = .ok (u64N t.timestamp) := by
    have := sliceN_append (t.sender.val ++ t.receiver.val) (u64N t.timestamp)
      (t.signature.val ++ tail) (0 + 33 + 33) (by simp [hs, hr])
    simpa [body, u64N] using this
  have s3 : sliceN body (0 + 33 + 33 + 8) 64 = .ok t.signature := by
    have := sliceN_append (t.sender.val ++ (t.receiver.val ++ u64BE t.timestamp)) t.signature
      tail (0 + 33 + 33 + 8) (by simp [hs, hr, hu])
    simpa [body] using this
  have eb : body = (t.sender.val ++ (t.receiver.val ++ (u64BE t.timestamp ++ t.signature.val))) ++ tail := by
    simp [body]
  have s4 : sliceFrom body (0 + 33 + 33 + 8 + 64) = .ok tail := by
    rw [eb]
    exact sliceFrom_append _ _ _ (by simp [hs, hr, hu, hg])
  have l4 : loadU256 tail = .ok (t.amount, (minBE t.amount).length) := loadU256_encU256 _ _
  have hts := u64FromBE_u64N t.timestamp
  unfold parse
  rw [if_neg (by omega)]
  simp only [s0, s1, s2, s3, s4, l4, Outcome.ok_bind, Outcome.mapErr_ok, hts]
  cases hd : t.data.getD [] with
  | nil =>
    have hn : normData t.data = none := by
      cases h : t.data with
      | none => rfl
      | some d => rw [h] at hd; simp at hd; subst hd; rfl
    rw [if_pos (by rw [hbl, htl, hd]; simp; try omega), hn]
  | cons x xs =>
    have hn : normData t.data = some (x :: xs) := by
      cases h : t.data with
      | none => rw [h] at hd; simp at hd
      | some d => rw [h] at hd; simp at hd; subst hd; rfl
    rw [if_neg (by rw [hbl, htl, hd]; simp; try omega), hn]
    have s5 : sliceFrom body (0 + 33 + 33 + 8 + 64 + ((minBE t.amount).length + 1)) = .ok (x :: xs) := by
      have e2 : body = (t.sender.val ++ (t.receiver.val ++ (u64BE t.timestamp ++ (t.signature.val ++
        encU256 t.amount)))) ++ (x :: xs) := by simp [body, tail, hd]
      rw [e2]
      apply sliceFrom_append
      simp only [List.length_append, hs, hr, hu, hg, encU256_length]; omega
    simp only [s5, Outcome.ok_bind]
    rw [if_neg]
    rw [hbl, htl, hd]; simp; omega

end BCT

namespace BCT

/-! ### Exact panic conditions and the height-zero defect -/

theorem sliceN_ok {n : Nat} (data : Bytes) (i : Nat) (h : i + n ≤ data.length) :
    ∃ x : BytesN n, sliceN data i n = .ok x ∧ x.val = (data.drop i).take n := by
  unfold sliceN; rw [dif_pos h]; exact ⟨_, rfl, rfl⟩

theorem sliceN_panic {n : Nat} (data : Bytes) (i : Nat) (h : ¬ i + n ≤ data.length) :
    sliceN data i n = .panic .index := by
  unfold sliceN; rw [dif_neg h]

theorem sliceFrom_ok (data : Bytes) (i : Nat) (h : i ≤ data.length) :
    sliceFrom data i = .ok (data.drop i) := by unfold sliceFrom; rw [if_pos h]

theorem sliceFrom_panic (data : Bytes) (i : Nat) (h : ¬ i ≤ data.length) :
    sliceFrom data i = .panic .index := by unfold sliceFrom; rw [if_neg h]

theorem Outcome.safe_mapErr {α : Type} (e : Err) (x : Outcome α) : (x.mapErr e).Safe ↔ x.Safe := by
  cases x <;> simp

theorem Outcome.safe_bind_iff {α β : Type} (x : Outcome α) (f : α → Outcome β) :
    (x >>= f).Safe ↔ x.Safe ∧ ∀ a, x = .ok a → (f a).Safe := by
  cases x <;> simp

theorem BasicInfo.parse_long (data : Bytes) (h : 137 ≤ data.length) :
    ∃ (ts : UInt64) (pw ph d : BytesN 32) (f : Address),
      BasicInfo.parse data = (do
        let (height, _) ← (loadU256 (data.drop 137)).mapErr .basicInfoParse
        .ok ⟨ts, pw, ph, height, d, f⟩) ∧
      data = u64BE ts ++ (ph.val ++ (pw.val ++ (d.val ++ (f.val ++ data.drop 137)))) := by
  obtain ⟨ts, h0, v0⟩ := sliceN_ok (n := 8) data 0 (by omega)
  obtain ⟨ph, h1, v1⟩ := sliceN_ok (n := 32) data (0 + 8) (by omega)
  obtain ⟨pw, h2, v2⟩ := sliceN_ok (n := 32) data (0 + 8 + 32) (by omega)
  obtain ⟨d, h3, v3⟩ := sliceN_ok (n := 32) data (0 + 8 + 32 + 32) (by omega)
  obtain ⟨f, h4, v4⟩ := sliceN_ok (n := 33) data (0 + 8 + 32 + 32 + 32) (by omega)
  have h5 := sliceFrom_ok data (0 + 8 + 32 + 32 + 32 + 33) (by omega)
  refine ⟨u64FromBE ts, pw, ph, d, f, ?_, ?_⟩
  · unfold parse
    simp only
    rw [if_neg (by omega)]
    simp only [h0, h1, h2, h3, h4, h5, Outcome.ok_bind]
  · have ets : u64BE (u64FromBE ts) = ts.val := by
      unfold u64BE u64FromBE
      have hl := beNat_lt ts.val
      rw [ts.property] at hl
      rw [UInt64.toNat_ofNat_of_lt' (by simpa using hl)]
      have := beBytes_beNat ts.val
      rwa [ts.property] at this
    rw [ets, v0, v1, v2, v3, v4]
    have key : ∀ (i n : Nat), data.drop i = (data.drop i).take n ++ data.drop (i + n) := by
      intro i n
      rw [← List.drop_drop, List.take_append_drop]
    conv => lhs; rw [← List.drop_zero (l := data), key 0 8, key (0 + 8) 32, key (0 + 8 + 32) 32,
      key (0 + 8 + 32 + 32) 32, key (0 + 8 + 32 + 32 + 32) 33]

theorem BasicInfo.parse_safe_iff (data : Bytes) :
    (BasicInfo.parse data).Safe ↔
      data.length ≤ 105 ∨ (137 ≤ data.length ∧ (loadU256 (data.drop 137)).Safe) := by
  by_cases h : 137 ≤ data.length
  · obtain ⟨ts, pw, ph, d, f, e, _⟩ := BasicInfo.parse_long data h
    rw [e, Outcome.safe_bind_iff, Outcome.safe_mapErr]
    constructor
    · rintro ⟨a, _⟩; exact .inr ⟨h, a⟩
    · rintro (a | ⟨_, a⟩)
      · omega
      · exact ⟨a, fun _ _ => trivial⟩
  · by_cases h2 : data.length ≤ 105
    · simp only [h2, true_or, iff_true]
      unfold parse
      simp only
      rw [if_pos h2]; trivial
    · simp only [h, h2, false_and, or_self, iff_false]
      obtain ⟨ts, h0, v0⟩ := sliceN_ok (n := 8) data 0 (by omega)
      obtain ⟨ph, h1, v1⟩ := sliceN_ok (n := 32) data (0 + 8) (by omega)
      obtain ⟨pw, h2', v2⟩ := sliceN_ok (n := 32) data (0 + 8 + 32) (by omega)
      obtain ⟨d, h3, v3⟩ := sliceN_ok (n := 32) data (0 + 8 + 32 + 32) (by omega)
      have h4 := sliceN_panic (n := 33) data (0 + 8 + 32 + 32 + 32) (by omega)
      unfold parse
      simp only
      rw [if_neg h2]
      simp only [h0, h1, h2', h3, h4, Outcome.ok_bind, Outcome.panic_bind]
      exact id

theorem DerivativeBlock.parse_safe_iff (data : Bytes) :
    (DerivativeBlock.parse data).Safe ↔
      data.length ≤ 105 ∨ (137 ≤ data.length ∧ (loadU256 (data.drop 137)).Safe) := by
  unfold parse
  split
  · simp; omega
  · rw [Outcome.safe_bind_iff, BasicInfo.parse_safe_iff]
    simp

theorem SummarizeBlock.parse_safe_iff (data : Bytes) :
    (SummarizeBlock.parse data).Safe ↔
      data.length ≤ 137 ∨ (169 ≤ data.length ∧ (loadU256 (data.drop 169)).Safe) := by
  unfold parse
  split
  · simp; omega
  · obtain ⟨r, h0, _⟩ := sliceN_ok (n := 32) data 0 (by omega)
    rw [h0, Outcome.ok_bind, sliceFrom_ok data 32 (by omega), Outcome.ok_bind, Outcome.safe_bind_iff,
      Outcome.safe_mapErr, BasicInfo.parse_safe_iff]
    simp only [List.length_drop, List.drop_drop, Outcome.safe_ok, implies_true, and_true]
    constructor
    · rintro (a | ⟨a, b⟩)
      · left; omega
      · right; exact ⟨by omega, b⟩
    · rintro (a | ⟨a, b⟩)
      · left; omega
      · right; exact ⟨by omega, b⟩

theorem Transaction.parse_safe_iff (E : Env) (data : Bytes) :
    (Transaction.parse E data).Safe ↔ data.length < 139 ∨ (loadU256 (data.drop 138)).Safe := by
  unfold parse
  by_cases h : data.length < 139
  · simp [h]
  · obtain ⟨s, h0, _⟩ := sliceN_ok (n := 33) data 0 (by omega)
    obtain ⟨r, h1, _⟩ := sliceN_ok (n := 33) data (0 + 33) (by omega)
    obtain ⟨ts, h2, _⟩ := sliceN_ok (n := 8) data (0 + 33 + 33) (by omega)
    obtain ⟨g, h3, _⟩ := sliceN_ok (n := 64) data (0 + 33 + 33 + 8) (by omega)
    have h4 := sliceFrom_ok data (0 + 33 + 33 + 8 + 64) (by omega)
    rw [if_neg h]
    simp only [h0, h1, h2, h3, h4, Outcome.ok_bind, h, false_or]
    rw [Outcome.safe_bind_iff, Outcome.safe_mapErr]
    simp only [Nat.zero_add, Nat.reduceAdd]
    constructor
    · exact fun h => h.1
    · intro hs
      refine ⟨hs, ?_⟩
      rintro ⟨v, k⟩ hv
      have hv' : loadU256 (data.drop 138) = .ok (v, k) := by
        cases hl : loadU256 (data.drop 138) <;> rw [hl] at hv <;> simp_all
      obtain ⟨ds, rest, hd, hlen, hk, _⟩ := (loadU256_ok_iff _ _ _).mp hv'
      have : (data.drop 138).length = 1 + (k + rest.length) := by rw [hd]; simp [hlen]; omega
      rw [List.length_drop] at this
      simp only
      split
      · trivial
      · rw [sliceFrom_ok _ _ (by omega), Outcome.ok_bind]
        split <;> trivial

theorem readHashes_safe (data : Bytes) (k : Nat) : ∀ (i : Nat) (acc : List Hash), data.length = i + 32 * k →
    (TransactionBlock.readHashes data i acc).Safe := by
  induction k with
  | zero =>
    intro i acc h
    rw [TransactionBlock.readHashes, if_neg (by omega)]; trivial
  | succ k ih =>
    intro i acc h
    rw [TransactionBlock.readHashes, if_pos (by omega)]
    obtain ⟨x, hx, _⟩ := sliceN_ok (n := 32) data i (by omega)
    rw [hx, Outcome.ok_bind]
    exact ih _ _ (by omega)

theorem loadU256_ok_length {data : Bytes} {v : U256} {k : Nat} (h : loadU256 data = .ok (v, k)) :
    k + 1 ≤ data.length := by
  obtain ⟨ds, rest, hd, hlen, hk, _⟩ := (loadU256_ok_iff _ _ _).mp h
  rw [hd]; simp [hlen]

theorem Outcome.mapErr_eq_ok {α : Type} {e : Err} {x : Outcome α} {a : α} :
    x.mapErr e = .ok a ↔ x = .ok a := by
  cases x <;> simp

theorem TransactionBlock.parse_safe_iff (data : Bytes) :
    (TransactionBlock.parse data).Safe ↔
      32 ≤ data.length ∧ (BasicInfo.parse (data.drop 32)).Safe ∧
      ∀ i, BasicInfo.parse (data.drop 32) = .ok i →
        32 + i.getDumpSize ≤ data.length ∧ (loadU256 (data.drop (32 + i.getDumpSize))).Safe := by
  unfold parse
  by_cases h : 32 ≤ data.length
  · obtain ⟨r, h0, _⟩ := sliceN_ok (n := 32) data 0 (by omega)
    simp only [h0, Outcome.ok_bind, sliceFrom_ok data (0 + 32) (by omega), h, true_and, Nat.zero_add]
    rw [Outcome.safe_bind_iff, Outcome.safe_mapErr]
    apply and_congr_right
    intro _
    apply forall_congr'
    intro i
    rw [Outcome.mapErr_eq_ok]
    apply imp_congr_right
    intro _
    by_cases h2 : 32 + i.getDumpSize ≤ data.length
    · rw [sliceFrom_ok _ _ h2, Outcome.ok_bind, Outcome.safe_bind_iff, Outcome.safe_mapErr]
      simp only [h2, true_and]
      constructor
      · exact fun h => h.1
      · intro hs
        refine ⟨hs, ?_⟩
        rintro ⟨v, k⟩ hv
        rw [Outcome.mapErr_eq_ok] at hv
        have hk := loadU256_ok_length hv
        rw [List.length_drop] at hk
        simp only
        split
        · trivial
        · rename_i hm
          rw [Outcome.safe_bind_iff]
          refine ⟨readHashes_safe data ((data.length - (32 + i.getDumpSize + (k + 1))) / 32) _ _ (by omega),
            fun _ _ => trivial⟩
    · rw [sliceFrom_panic _ _ h2]
      simp [h2]
  · rw [sliceN_panic data 0 (by omega)]
    simp [h]

theorem readHashes_length (data : Bytes) (k : Nat) : ∀ (i : Nat) (acc r : List Hash),
    TransactionBlock.readHashes data i acc = .ok r → i ≤ data.length →
    data.length - i = 32 * k → r.length = acc.length + k := by
  induction k with
  | zero =>
    intro i acc r h hi h0
    rw [TransactionBlock.readHashes, if_neg (by omega)] at h
    cases h; rfl
  | succ k ih =>
    intro i acc r h hi h0
    rw [TransactionBlock.readHashes, if_pos (by omega)] at h
    obtain ⟨x, hx, _⟩ := sliceN_ok (n := 32) data i (by omega)
    rw [hx, Outcome.ok_bind] at h
    have := ih _ _ _ h (by omega) (by omega)
    rw [this]; simp; omega

theorem TransactionBlock.parse_dump_zero (b : TransactionBlock) (hz : b.defaultInfo.height.val = 0) :
    TransactionBlock.parse (b.dump.drop 1) ≠ .ok b := by
  intro h
  rw [dump_eq] at h
  simp only [List.drop_succ_cons, List.drop_zero] at h
  have hf := b.defaultInfo.fixed_length
  have hm0 : minBE b.defaultInfo.height = [] := (minBE_zero _).mpr hz
  have he0 : encU256 b.defaultInfo.height = [0] := by rw [encU256_eq, hm0]; rfl
  rw [he0, encU256_eq b.fee] at h
  generalize htx : (b.transactions.map (·.val)).flatten = txs at h
  have htl : txs.length = 32 * b.transactions.length := by rw [← htx]; exact flat_length _
  generalize hbody : b.merkleTreeRoot.val ++ (b.defaultInfo.fixed ++ ([0] ++
    (UInt8.ofNat (minBE b.fee).length :: minBE b.fee ++ txs))) = body at h
  have hr := b.merkleTreeRoot.property
  have hbl : body.length = 171 + (minBE b.fee).length + 32 * b.transactions.length := by
    rw [← hbody]; simp only [List.length_append, hr, hf, List.length_cons, List.length_nil, htl]; omega
  have s0 : sliceN body 0 32 = .ok b.merkleTreeRoot := by
    rw [← hbody]; exact sliceN_append [] b.merkleTreeRoot _ 0 rfl
  have s1 : body.drop 32 = b.defaultInfo.fixed ++ (0 :: (UInt8.ofNat (minBE b.fee).length :: minBE b.fee ++ txs)) := by
    rw [← hbody, List.drop_left' hr]; rfl
  have l0 : loadU256 (0 :: (UInt8.ofNat (minBE b.fee).length :: minBE b.fee ++ txs)) =
      .ok (b.defaultInfo.height, 0) := by
    have := loadU256_encU256 b.defaultInfo.height (UInt8.ofNat (minBE b.fee).length :: minBE b.fee ++ txs)
    rw [he0, hm0] at this
    exact this
  have p1 := BasicInfo.parse_shape b.defaultInfo b.defaultInfo.height 0 _ l0
  change _ = Outcome.ok b.defaultInfo at p1
  have hsz : b.defaultInfo.getDumpSize = 139 := by
    unfold BasicInfo.getDumpSize; rw [u256Size_exact, if_pos hz, he0]; rfl
  unfold parse at h
  simp only [s0, Outcome.ok_bind, sliceFrom_ok body (0 + 32) (by omega), Nat.zero_add, s1, p1,
    Outcome.mapErr_ok, hsz] at h
  have hd : body.drop (32 + 139) = minBE b.fee ++ txs := by
    rw [← hbody]
    have : b.merkleTreeRoot.val ++ (b.defaultInfo.fixed ++ ([0] ++
      (UInt8.ofNat (minBE b.fee).length :: minBE b.fee ++ txs))) =
      (b.merkleTreeRoot.val ++ (b.defaultInfo.fixed ++ [0, UInt8.ofNat (minBE b.fee).length])) ++ (minBE b.fee ++ txs) := by
      simp
    rw [this]
    apply List.drop_left'
    simp [hr, hf]
  rw [sliceFrom_ok _ _ (by omega), hd] at h
  simp only [Outcome.ok_bind] at h
  cases hl : loadU256 (minBE b.fee ++ txs) with
  | ok p =>
    obtain ⟨v, k⟩ := p
    rw [hl] at h
    simp only [Outcome.mapErr_ok, Outcome.ok_bind] at h
    have hk := loadU256_ok_length hl
    rw [List.length_append, htl] at hk
    obtain ⟨ds, rest, hds, hdl, hk32, hv⟩ := (loadU256_ok_iff _ _ _).mp hl
    split at h
    · cases h
    · rename_i hm
      cases hrd : readHashes body (32 + 139 + (k + 1)) [] with
      | ok r =>
        rw [hrd] at h
        simp only [Outcome.ok_bind, Outcome.ok.injEq] at h
        have h1 : v = b.fee := by rw [← h]
        have h2 : r = b.transactions := by rw [← h]
        have hlen := readHashes_length body ((body.length - (32 + 139 + (k + 1))) / 32) _ _ _ hrd
          (by omega) (by omega)
        rw [h2] at hlen
        simp only [List.length_nil, Nat.zero_add] at hlen
        have hkm : k + 1 = (minBE b.fee).length := by omega
        have hne : b.fee.val ≠ 0 := by
          intro h0
          rw [(minBE_zero _).mpr h0] at hkm
          simp at hkm
        have hlow := minBE_lower b.fee hne
        have hup := beNat_lt ds
        rw [hv, h1, hdl] at hup
        rw [← hkm, Nat.add_sub_cancel] at hlow
        omega
      | err e => rw [hrd] at h; cases h
      | panic e => rw [hrd] at h; cases h
      | ub => rw [hrd] at h; cases h
  | err e => rw [hl] at h; cases h
  | panic e => rw [hl] at h; cases h
  | ub => rw [hl] at h; cases h

theorem deserialize_foreign (h : UInt8) (rest : Bytes) (h2 : h ≠ Headers.transactionBlock.toU8)
    (h4 : h ≠ Headers.summarizeBlock.toU8) : ∃ e, deserializeMainChainBlock (h :: rest) = .err e := by
  unfold deserializeMainChainBlock Headers.fromU8
  simp only [Headers.toU8] at h2 h4
  simp only [h2, h4, if_false]
  split
  · exact ⟨_, rfl⟩
  · split
    · exact ⟨_, rfl⟩
    · split <;> exact ⟨_, rfl⟩

theorem deserialize_tx_cons (rest : Bytes) :
    deserializeMainChainBlock (Headers.transactionBlock.toU8 :: rest) = (do
      let b ← TransactionBlock.parse rest
      .ok (.transaction b)) := rfl

theorem deserialize_sum_cons (rest : Bytes) :
    deserializeMainChainBlock (Headers.summarizeBlock.toU8 :: rest) = (do
      let b ← SummarizeBlock.parse rest
      .ok (.summarize b)) := rfl

theorem TransactionBlock.dump_cons (b : TransactionBlock) :
    b.dump = Headers.transactionBlock.toU8 :: b.dump.drop 1 := by rw [dump_eq]; rfl

theorem SummarizeBlock.dump_cons (b : SummarizeBlock) :
    b.dump = Headers.summarizeBlock.toU8 :: b.dump.drop 1 := by rw [dump_eq]; rfl

theorem deserialize_transaction (b : TransactionBlock) (h : b.defaultInfo.height.val ≠ 0) :
    deserializeMainChainBlock b.dump = .ok (.transaction b) := by
  rw [b.dump_cons, deserialize_tx_cons, TransactionBlock.parse_dump b h]; rfl

theorem deserialize_summarize (b : SummarizeBlock) :
    deserializeMainChainBlock b.dump = .ok (.summarize b) := by
  rw [b.dump_cons, deserialize_sum_cons, SummarizeBlock.parse_dump b]; rfl

theorem deserialize_transaction_zero (b : TransactionBlock) (hz : b.defaultInfo.height.val = 0) :
    deserializeMainChainBlock b.dump ≠ .ok (.transaction b) := by
  rw [b.dump_cons, deserialize_tx_cons]
  intro h
  cases hp : TransactionBlock.parse (b.dump.drop 1) with
  | ok a =>
    rw [hp] at h
    simp only [Outcome.ok_bind, Outcome.ok.injEq, Block.transaction.injEq] at h
    exact TransactionBlock.parse_dump_zero b hz (h ▸ hp)
  | err e => rw [hp] at h; cases h
  | panic e => rw [hp] at h; cases h
  | ub => rw [hp] at h; cases h

end BCT
