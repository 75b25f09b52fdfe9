import Verif.Lemmas.Blocks
/-! Injectivity of serializations. -/

namespace BCT

theorem BytesN.append_inj {n : Nat} {x y : BytesN n} {r s : Bytes} (h : x.val ++ r = y.val ++ s) :
    x = y ∧ r = s := by
  obtain ⟨a, b⟩ := List.append_inj h (x.property.trans y.property.symm)
  exact ⟨Subtype.ext a, b⟩

theorem u64BE_append_inj {x y : UInt64} {r s : Bytes} (h : u64BE x ++ r = u64BE y ++ s) :
    x = y ∧ r = s := by
  obtain ⟨a, b⟩ := List.append_inj h ((u64BE_length x).trans (u64BE_length y).symm)
  exact ⟨u64BE_inj a, b⟩

theorem encU256_append_inj {a b : U256} {r s : Bytes} (h : encU256 a ++ r = encU256 b ++ s) :
    a = b ∧ r = s := by
  have ha := loadU256_encU256 a r
  have hb := loadU256_encU256 b s
  rw [h, hb] at ha
  simp only [Outcome.ok.injEq, Prod.mk.injEq] at ha
  obtain ⟨rfl, _⟩ := ha
  exact ⟨rfl, List.append_cancel_left h⟩

theorem flat_inj : ∀ {l m : List Hash}, (l.map (·.val)).flatten = (m.map (·.val)).flatten → l = m
  | [], [], _ => rfl
  | [], b :: m, h => by
    have := congrArg List.length h
    simp [b.property] at this
    omega
  | a :: l, [], h => by
    have := congrArg List.length h
    simp [a.property] at this
  | a :: l, b :: m, h => by
    simp only [List.map_cons, List.flatten_cons] at h
    obtain ⟨h1, h2⟩ := BytesN.append_inj h
    rw [h1, flat_inj h2]

theorem BasicInfo.body_inj {i j : BasicInfo} {r s : Bytes}
    (h : i.fixed ++ (encU256 i.height ++ r) = j.fixed ++ (encU256 j.height ++ s)) : i = j ∧ r = s := by
  simp only [fixed, List.append_assoc] at h
  obtain ⟨h1, h⟩ := u64BE_append_inj h
  obtain ⟨h2, h⟩ := BytesN.append_inj h
  obtain ⟨h3, h⟩ := BytesN.append_inj h
  obtain ⟨h4, h⟩ := BytesN.append_inj h
  obtain ⟨h5, h⟩ := BytesN.append_inj h
  obtain ⟨h6, h⟩ := encU256_append_inj h
  cases i; cases j; simp_all

theorem TransactionBlock.dump_inj {a b : TransactionBlock} (h : a.dump = b.dump) : a = b := by
  rw [dump_eq, dump_eq] at h
  obtain ⟨h1, h⟩ := BytesN.append_inj (List.cons.inj h).2
  obtain ⟨h2, h⟩ := BasicInfo.body_inj h
  obtain ⟨h3, h⟩ := encU256_append_inj h
  have h4 := flat_inj h
  cases a; cases b; simp_all

theorem SummarizeBlock.dump_inj {a b : SummarizeBlock} (h : a.dump = b.dump) : a = b := by
  rw [dump_eq, dump_eq] at h
  obtain ⟨h1, h⟩ := BytesN.append_inj (List.cons.inj h).2
  obtain ⟨h2, _⟩ := BasicInfo.body_inj (r := []) (s := []) (by simpa using h)
  cases a; cases b; simp_all

theorem DerivativeBlock.dump_inj {a b : DerivativeBlock} (h : a.dump = b.dump) : a = b := by
  rw [dump_eq, dump_eq] at h
  obtain ⟨h2, _⟩ := BasicInfo.body_inj (r := []) (s := []) (by simpa using (List.cons.inj h).2)
  cases a; cases b; simp_all

theorem Block.dump_head (b : Block) : b.dump.head? = some b.type.toU8 := by
  cases b <;> simp only [Block.dump, Block.type]
  · rw [TransactionBlock.dump_eq]; rfl
  · rw [DerivativeBlock.dump_eq]; rfl
  · rw [SummarizeBlock.dump_eq]; rfl

theorem Transaction.dump_head (t : Transaction) : t.dump.head? = some Headers.transaction.toU8 := by
  rw [dump_eq]; rfl

theorem Block.dump_inj {a b : Block} (h : a.dump = b.dump) : a = b := by
  have hh : a.type.toU8 = b.type.toU8 := by
    have := a.dump_head
    rw [h, b.dump_head] at this
    exact (Option.some.inj this).symm
  cases a <;> cases b <;> simp only [Block.type, Headers.toU8] at hh <;> first | (exact absurd hh (by decide)) | skip
  · rw [TransactionBlock.dump_inj h]
  · rw [DerivativeBlock.dump_inj h]
  · rw [SummarizeBlock.dump_inj h]

theorem Block.dump_ne_tx (b : Block) (t : Transaction) : b.dump ≠ t.dump := by
  intro h
  have := b.dump_head
  rw [h, t.dump_head] at this
  cases b <;> exact absurd (Option.some.inj this) (by simp only [Block.type]; decide)

theorem Transaction.dump_inj {a b : Transaction} (h : a.dump = b.dump) :
    a.sender = b.sender ∧ a.receiver = b.receiver ∧ a.timestamp = b.timestamp ∧
    a.signature = b.signature ∧ a.amount = b.amount ∧ a.data.getD [] = b.data.getD [] := by
  rw [dump_eq, dump_eq] at h
  obtain ⟨h1, h⟩ := BytesN.append_inj (List.cons.inj h).2
  obtain ⟨h2, h⟩ := BytesN.append_inj h
  obtain ⟨h3, h⟩ := u64BE_append_inj h
  obtain ⟨h4, h⟩ := BytesN.append_inj h
  obtain ⟨h5, h⟩ := encU256_append_inj h
  exact ⟨h1, h2, h3, h4, h5, h⟩

theorem Transaction.signingBytes_inj {s r s' r' : Address} {ts ts' : UInt64} {a a' : U256}
    {d d' : Option Bytes} (h : signingBytes s r ts a d = signingBytes s' r' ts' a' d') :
    s = s' ∧ r = r' ∧ ts = ts' ∧ a = a' ∧ d.getD [] = d'.getD [] := by
  rw [signingBytes_eq, signingBytes_eq] at h
  obtain ⟨h1, h⟩ := BytesN.append_inj (List.cons.inj h).2
  obtain ⟨h2, h⟩ := BytesN.append_inj h
  obtain ⟨h3, h⟩ := u64BE_append_inj h
  obtain ⟨h5, h⟩ := encU256_append_inj h
  exact ⟨h1, h2, h3, h5, h⟩

end BCT

namespace BCT

theorem Transaction.parse_hash (E : Env) (data : Bytes) (t : Transaction)
    (h : Transaction.parse E data = .ok t) : t.hash = E.sha256 t.dump := by
  have key : ∀ s r ts a d g, (newSigned E s r ts a d g).hash = E.sha256 (newSigned E s r ts a d g).dump :=
    fun _ _ _ _ _ _ => rfl
  unfold parse at h
  split at h
  · cases h
  · rename_i hl
    obtain ⟨s, h0, _⟩ := sliceN_ok (n := 33) data 0 (by omega)
    obtain ⟨r, h1, _⟩ := sliceN_ok (n := 33) data (0 + 33) (by omega)
    obtain ⟨ts, h2, _⟩ := sliceN_ok (n := 8) data (0 + 33 + 33) (by omega)
    obtain ⟨g, h3, _⟩ := sliceN_ok (n := 64) data (0 + 33 + 33 + 8) (by omega)
    have h4 := sliceFrom_ok data (0 + 33 + 33 + 8 + 64) (by omega)
    simp only [h0, h1, h2, h3, h4, Outcome.ok_bind] at h
    cases hv : (loadU256 (data.drop (0 + 33 + 33 + 8 + 64))).mapErr .txParse with
    | ok p =>
      rw [hv] at h
      simp only [Outcome.ok_bind] at h
      split at h
      · cases h; exact key _ _ _ _ _ _
      · unfold sliceFrom at h
        split at h
        · simp only [Outcome.ok_bind] at h
          split at h
          · cases h
          · cases h; exact key _ _ _ _ _ _
        · cases h
    | err e => rw [hv] at h; cases h
    | panic e => rw [hv] at h; cases h
    | ub => rw [hv] at h; cases h

end BCT
