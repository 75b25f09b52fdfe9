import Verif.Props.Clock
/-!
# C144: a block from the future
-/

namespace BCT.Props
open BCT

/-- C144 at full strength: whatever block has just been emitted, a miner whose clock has passed the date of the block before
it, and who has a nonce that fits, can emit the next one. -/
def C144_full : Prop := ∀ (E : Env) (s u : Tree) (prev b : Block) (pow pow' : BytesN 32) (founder founder' : Address)
  (txs txs' : List Hash) (ts now : UInt64), RunWith E EmitOnly s → s.main.getHeight.val + 2 < 2 ^ 256 →
  s.main.getLastBlock = .ok (some prev) → (Tree.emitMain E pow founder txs ts s).out = .ok b →
  u = (Tree.emitMain E pow founder txs ts s).final → prev.info.timestamp ≤ now →
  MeetsPow E (E.sha256 b.dump) b.info.difficulty txs' pow'.val → (u.main.getHeight.val % 1000000 = 0 ↔ txs' = []) →
  ∃ b', (Tree.emitMain E pow' founder' txs' now u).out = .ok b'

/-- A block is only emitted in a build with overflow checks if its date is not before that of the last one. -/
theorem emitted_not_before {E : Env} {s : Tree} {last b : Block} {pow : BytesN 32} {founder : Address} {txs : List Hash}
    {ts : UInt64} (hE : E.overflowChecks = true) (hr : Run E s) (hm : s.main.getHeight.val + 1 < 2 ^ 256)
    (hl : s.main.getLastBlock = .ok (some last)) (ho : (Tree.emitMain E pow founder txs ts s).out = .ok b) :
    last.info.timestamp ≤ ts := by
  obtain ⟨bs, h⟩ := run_holds hr hm
  obtain ⟨l, k1, _, k3, _, _, _, _, k4, _⟩ := emitted_next h hm ho
  rw [hl] at k1
  cases k1
  have hd := k3.info.difficulty
  rw [recalculate_eq, k4] at hd
  rcases Nat.lt_or_ge ts.toNat last.info.timestamp.toNat with hlt | hge
  · have : u64Sub E ts last.info.timestamp = .panic .overflow := by
      rw [u64Sub, if_pos ⟨hE, UInt64.lt_iff_toNat_lt.mpr hlt⟩]
    rw [this] at hd
    cases hd
  · exact UInt64.le_iff_toNat_le.mpr hge

/-- C144 is false of builds with overflow checks. (a) Whoever has a nonce can emit a block of any date not before the last
one, the end of time included. (b) Where there is a block of some date, nobody ever emits a block of an earlier date
again: until that date comes honest miners are shut out. (c) A block dated at the end of time is followed by blocks of that
date only, and each makes the next harder by a bit at least, to the 256 zero bits that no nonce meets. -/
theorem C144_refuted :
    (∀ (E : Env) (s : Tree) (prev : Block) (pow : BytesN 32) (founder : Address) (txs : List Hash) (ts : UInt64),
      RunWith E EmitOnly s → s.main.getHeight.val + 1 < 2 ^ 256 → s.main.getLastBlock = .ok (some prev) →
      prev.info.timestamp ≤ ts → MeetsPow E (E.sha256 prev.dump) prev.info.difficulty txs pow.val →
      (s.main.getHeight.val % 1000000 = 0 ↔ txs = []) →
      ∃ b, (Tree.emitMain E pow founder txs ts s).out = .ok b ∧ b.info.timestamp = ts) ∧
    (∀ (E : Env) (s : Tree) (q : U256) (a b : Block) (pow : BytesN 32) (founder : Address) (txs : List Hash) (ts : UInt64),
      E.overflowChecks = true → RunWith E EmitOnly s → s.main.getHeight.val + 1 < 2 ^ 256 → q.val < s.main.getHeight.val →
      s.main.findByHeight q = .ok (some a) → ts < a.info.timestamp → (Tree.emitMain E pow founder txs ts s).out ≠ .ok b) ∧
    (∀ (E : Env) (s : Tree) (first n : Nat) (block : Nat → Block), E.overflowChecks = true → RunWith E EmitOnly s →
      s.main.getHeight.val + 1 < 2 ^ 256 → first + n < s.main.getHeight.val →
      (∀ i, i ≤ n → ∀ q : U256, q.val = first + i → s.main.findByHeight q = .ok (some (block i))) →
      (block 0).info.timestamp.toNat = 2 ^ 64 - 1 →
      (block n).info.timestamp.toNat = 2 ^ 64 - 1 ∧
      min 256 (countLeadingZeros (block 0).info.difficulty.val + n) ≤ countLeadingZeros (block n).info.difficulty.val) ∧
    ¬ C144_full := by
  have one : ∀ (E : Env) (s : Tree) (prev : Block) (pow : BytesN 32) (founder : Address) (txs : List Hash) (ts : UInt64),
      RunWith E EmitOnly s → s.main.getHeight.val + 1 < 2 ^ 256 → s.main.getLastBlock = .ok (some prev) →
      prev.info.timestamp ≤ ts → MeetsPow E (E.sha256 prev.dump) prev.info.difficulty txs pow.val →
      (s.main.getHeight.val % 1000000 = 0 ↔ txs = []) →
      ∃ b, (Tree.emitMain E pow founder txs ts s).out = .ok b ∧ b.info.timestamp = ts := by
    intro E s prev pow founder txs ts hr hm hp ht hpow he
    obtain ⟨b, hb, _⟩ := ((C40_exact_partial E s prev pow founder txs ts hr hm hp (.inl ht)).2 hpow).2.2 he
    obtain ⟨bs, h⟩ := run_holds (runWith_run hr) hm
    obtain ⟨_, _, _, _, _, _, _, _, k, _⟩ := emitted_next h hm hb
    exact ⟨b, hb, k⟩
  have two : ∀ (E : Env) (s : Tree) (q : U256) (a b : Block) (pow : BytesN 32) (founder : Address) (txs : List Hash)
      (ts : UInt64), E.overflowChecks = true → RunWith E EmitOnly s → s.main.getHeight.val + 1 < 2 ^ 256 →
      q.val < s.main.getHeight.val → s.main.findByHeight q = .ok (some a) → ts < a.info.timestamp →
      (Tree.emitMain E pow founder txs ts s).out ≠ .ok b := by
    intro E s q a b pow founder txs ts hE hr hm hq ha hlt ho
    obtain ⟨bs, h, _, hM⟩ := emitOnly_linked hr hm
    have hlen : (genesis E :: bs).length = s.main.getHeight.val := h.len
    obtain ⟨last, k1, k2, _⟩ := emitted_next h hm ho
    have hlast : s.main.findByHeight ⟨s.main.getHeight.val - 1, by
        have := s.main.getHeight.lt; omega⟩ = .ok (some last) := by
      rw [emitted_find h hM _ (by show s.main.getHeight.val - 1 < _; omega)]
      rw [List.getLast?_eq_getElem?, List.getElem?_eq_getElem (by omega)] at k2
      simp only [Option.some.injEq] at k2
      rw [← k2]
      simp only [hlen]
    have h1 := C96_in_order_partial E s q _ a last hE hr hm (by show q.val ≤ s.main.getHeight.val - 1; omega)
      (by show s.main.getHeight.val - 1 < _; omega) ha hlast
    have h2 := emitted_not_before hE (runWith_run hr) hm k1 ho
    rw [UInt64.lt_iff_toNat_lt] at hlt
    rw [UInt64.le_iff_toNat_le] at h1 h2
    omega
  refine ⟨one, two, ?_, fun hf => ?_⟩
  · intro E s first n block hE hr hm hh hb h0
    have date : ∀ i, i ≤ n → (block i).info.timestamp.toNat = 2 ^ 64 - 1 := by
      intro i hi
      have := C96_in_order_partial E s ⟨first, by show first < 2 ^ 256; omega⟩ ⟨first + i, by show first + i < 2 ^ 256; omega⟩
        (block 0) (block i) hE hr hm (by show first ≤ first + i; omega) (by show first + i < _; omega)
        (hb 0 (by omega) _ rfl) (hb i hi _ rfl)
      rw [UInt64.le_iff_toNat_le, h0] at this
      have := (block i).info.timestamp.toNat_lt
      omega
    exact ⟨date n (Nat.le_refl _), C140_rise_partial E s first n block hr hm hh hb fun i hi => by
      rw [date i (by omega), date (i + 1) (by omega)]; omega⟩
  · obtain ⟨t, _, h2, h3, ⟨g, _, h4, h5⟩, _⟩ := C37_fresh_node zeroEnv
    have hm : t.main.getHeight.val + 2 < 2 ^ 256 := by rw [h3]; decide
    have hm1 : t.main.getHeight.val + 1 < 2 ^ 256 := by omega
    have hr : RunWith zeroEnv EmitOnly t := h2 ▸ .fresh
    obtain ⟨b, hb, hts⟩ := one zeroEnv t _ (BytesN.fill 32 0) ROOT_PUBLIC_ADDRESS [BytesN.fill 32 5] 18446744073709551615 hr
      hm1 h4 (by simp only [Block.info, h5]; decide) ((checkPow_iff ..).mp (checkPow_zero ..)) (by rw [h3]; simp)
    obtain ⟨bs, h⟩ := run_holds (runWith_run hr) hm1
    obtain ⟨_, _, _, _, k4, _, _, _⟩ := emitted_next h hm1 hb
    have hlen : (genesis zeroEnv :: bs).length = t.main.getHeight.val := h.len
    have hh : (Tree.emitMain zeroEnv (BytesN.fill 32 0) ROOT_PUBLIC_ADDRESS [BytesN.fill 32 5] 18446744073709551615
        t).final.main.getHeight.val = 2 := by
      have := k4.len
      rw [List.length_append, hlen, h3] at this
      exact this.symm
    have hr' : RunWith zeroEnv EmitOnly (Tree.emitMain zeroEnv (BytesN.fill 32 0) ROOT_PUBLIC_ADDRESS [BytesN.fill 32 5]
        18446744073709551615 t).final := .call t (.emitMain _ _ _ _) hr trivial
    obtain ⟨b', hb'⟩ := hf zeroEnv t _ _ b (BytesN.fill 32 0) (BytesN.fill 32 0) ROOT_PUBLIC_ADDRESS ROOT_PUBLIC_ADDRESS
      [BytesN.fill 32 5] [BytesN.fill 32 5] 18446744073709551615 1597924800 hr hm h4 hb rfl
      (by simp only [Block.info, h5]; decide) ((checkPow_iff ..).mp (checkPow_zero ..)) (by rw [hh]; simp)
    have hlast := ((C40_exact_partial zeroEnv t _ (BytesN.fill 32 0) ROOT_PUBLIC_ADDRESS [BytesN.fill 32 5]
      18446744073709551615 hr hm1 h4 (.inl (by simp only [Block.info, h5]; decide))).2
      ((checkPow_iff ..).mp (checkPow_zero ..))).2.2 (by rw [h3]; simp)
    obtain ⟨b'', e1, e2, _⟩ := hlast
    rw [hb] at e1
    cases e1
    have := emitted_not_before rfl (runWith_run hr') (by rw [hh]; decide) e2 hb'
    rw [hts] at this
    exact absurd this (by decide)

/-- C144, what holds: the next block can be emitted by every miner in builds without overflow checks, and in the others by
those whose clock has passed the date of the last block. Missing: everybody else (`C144_refuted`). -/
theorem C144_next_partial (E : Env) (s u : Tree) (b : Block) (pow pow' : BytesN 32) (founder founder' : Address)
    (txs txs' : List Hash) (ts now : UInt64) (hr : RunWith E EmitOnly s) (hm : s.main.getHeight.val + 2 < 2 ^ 256)
    (ho : (Tree.emitMain E pow founder txs ts s).out = .ok b)
    (hu : u = (Tree.emitMain E pow founder txs ts s).final) (hnow : ts ≤ now ∨ E.overflowChecks = false)
    (hw : MeetsPow E (E.sha256 b.dump) b.info.difficulty txs' pow'.val)
    (he : u.main.getHeight.val % 1000000 = 0 ↔ txs' = []) :
    ∃ b', (Tree.emitMain E pow' founder' txs' now u).out = .ok b' ∧ b'.info.timestamp = now ∧
      b'.info.founder = founder' ∧ b'.info.previousHash = E.sha256 b.dump := by
  subst hu
  have hm1 : s.main.chain.height.val + 1 < U256.size := by
    have : s.main.getHeight.val + 2 < U256.size := hm
    show s.main.getHeight.val + 1 < _; omega
  obtain ⟨bs, h, _, hM⟩ := emitOnly_linked hr hm1
  obtain ⟨last, _, _, _, k4, _, k5, _, kts, _⟩ := emitted_next h hm1 ho
  have hr' : RunWith E EmitOnly (Tree.emitMain E pow founder txs ts s).final := .call s (.emitMain _ _ _ _) hr trivial
  have hlen : (genesis E :: bs).length = s.main.getHeight.val := h.len
  have hh : (Tree.emitMain E pow founder txs ts s).final.main.getHeight.val = s.main.getHeight.val + 1 := by
    have := k4.len
    rw [List.length_append, hlen] at this
    exact this.symm
  have hm' : (Tree.emitMain E pow founder txs ts s).final.main.getHeight.val + 1 < U256.size := by
    have : s.main.getHeight.val + 2 < U256.size := hm
    omega
  obtain ⟨l, g1, _, _, g4, _⟩ := k4.last
  have hl : l = b := by
    have g1 : (genesis E :: bs ++ [b]).getLast? = some l := g1
    rw [List.getLast?_concat] at g1
    exact (Option.some.inj g1).symm
  subst hl
  have hlast := g4 k5
  obtain ⟨b', hb', _⟩ := ((C40_exact_partial E _ l pow' founder' txs' now hr' hm' hlast (by rw [kts]; exact hnow)).2 hw).2.2 he
  obtain ⟨bs', h'⟩ := run_holds (runWith_run hr') hm'
  obtain ⟨l', j1, _, j3, _, _, _, _, j4, _, j5, _⟩ := emitted_next h' hm' hb'
  have e : l' = l := by
    have hlast' : (Tree.emitMain E pow founder txs ts s).final.main.getLastBlock = .ok (some l) := hlast
    rw [hlast'] at j1
    cases j1
    rfl
  exact ⟨b', hb', j4, j5, e ▸ j3.info.link⟩

/-- The hypotheses are met by a fresh node. -/
example : ∃ (s : Tree) (prev b : Block), RunWith zeroEnv EmitOnly s ∧ s.main.getHeight.val + 2 < 2 ^ 256 ∧
    s.main.getLastBlock = .ok (some prev) ∧
    (Tree.emitMain zeroEnv (BytesN.fill 32 0) ROOT_PUBLIC_ADDRESS [BytesN.fill 32 5] 18446744073709551615 s).out = .ok b ∧
    MeetsPow zeroEnv (zeroEnv.sha256 b.dump) b.info.difficulty [BytesN.fill 32 5] (BytesN.fill 32 0).val := by
  obtain ⟨t, _, h2, h3, ⟨g, _, h4, h5⟩, _⟩ := C37_fresh_node zeroEnv
  have hr : RunWith zeroEnv EmitOnly t := h2 ▸ .fresh
  obtain ⟨b, hb, _⟩ := C144_refuted.1 zeroEnv t _ (BytesN.fill 32 0) ROOT_PUBLIC_ADDRESS [BytesN.fill 32 5]
    18446744073709551615 hr (by rw [h3]; decide) h4 (by simp only [Block.info, h5]; decide)
    ((checkPow_iff ..).mp (checkPow_zero ..)) (by rw [h3]; simp)
  exact ⟨t, _, b, hr, by rw [h3]; decide, h4, hb, (checkPow_iff ..).mp (checkPow_zero ..)⟩

end BCT.Props
