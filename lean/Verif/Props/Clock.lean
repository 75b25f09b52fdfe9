import Verif.Props.Time
/-!
# C140: the difficulty is a matter of the recorded times
-/

namespace BCT.Props
open BCT

/-- C140 at full strength: on a chain grown by emitting, a nonce that would have been enough for the first block after
the genesis is enough for the next block, if only that block is late enough. -/
def C140_full : Prop := ∀ (E : Env) (s : Tree) (prev : Block) (pow : BytesN 32) (founder : Address) (txs : List Hash),
  RunWith E EmitOnly s → s.main.getHeight.val + 1 < 2 ^ 256 → s.main.getLastBlock = .ok (some prev) →
  (s.main.getHeight.val % 1000000 = 0 ↔ txs = []) →
  MeetsPow E (E.sha256 prev.dump) BEGINNING_DIFFICULTY txs pow.val →
  ∃ ts b, (Tree.emitMain E pow founder txs ts s).out = .ok b

/-- With a digest that is always the same the proof of work depends on the difficulty alone. -/
theorem checkPow_const {E : Env} {d : Hash} (hE : ∀ x, E.sha256 x = d) (first difficulty : Hash)
    (txs : List Hash) (pow : Bytes) : checkPow E first difficulty txs pow =
      .ok (decide (countLeadingZeros difficulty.val ≤ countLeadingZeros d.val)) := by
  unfold checkPow
  rw [merkleRoot_eq, Outcome.ok_bind]
  show Outcome.ok (decide (_ ≤ countLeadingZeros (E.sha256 (first.val ++ (merkleRootT E txs).val ++ pow)).val)) = _
  rw [hE]

/-- C140 is false of the code. Waiting does not help: in every history a nonce that does not meet the difficulty of the
last block is refused whatever the time of the new one. -/
theorem C140_refuted :
    (∀ (E : Env) (s : Tree) (prev : Block) (pow : BytesN 32) (founder : Address) (txs : List Hash) (ts : UInt64),
      Run E s → s.main.getHeight.val + 1 < 2 ^ 256 → s.main.getLastBlock = .ok (some prev) →
      ¬ MeetsPow E (E.sha256 prev.dump) prev.info.difficulty txs pow.val →
      Tree.emitMain E pow founder txs ts s = ⟨.err .treeWrongPow, s, []⟩) ∧
    ¬ C140_full := by
  have key : ∀ (E : Env) (s : Tree) (prev : Block) (pow : BytesN 32) (founder : Address) (txs : List Hash) (ts : UInt64),
      Run E s → s.main.getHeight.val + 1 < 2 ^ 256 → s.main.getLastBlock = .ok (some prev) →
      ¬ MeetsPow E (E.sha256 prev.dump) prev.info.difficulty txs pow.val →
      Tree.emitMain E pow founder txs ts s = ⟨.err .treeWrongPow, s, []⟩ := by
    intro E s prev pow founder txs ts hr hm hp hn
    exact (C40_no_side_effects_partial E s pow founder txs ts hr hm).2 prev hp hn
  refine ⟨key, fun hfull => ?_⟩
  let E : Env := ⟨fun _ => regular 1, true⟩
  have hE : ∀ x, E.sha256 x = regular 1 := fun _ => rfl
  obtain ⟨t, _, h2, h3, ⟨g, _, h4, h5⟩, _⟩ := C37_fresh_node E
  have hr : RunWith E EmitOnly t := by subst h2; exact .fresh
  have hh : t.main.getHeight.val = 1 := h3
  have hm : t.main.getHeight.val + 1 < 2 ^ 256 := by rw [hh]; decide
  have easy : ∀ first (txs : List Hash) (pow : Bytes), MeetsPow E first BEGINNING_DIFFICULTY txs pow := fun first txs pow => by
    refine (checkPow_iff ..).mp ?_
    rw [checkPow_const hE, ← regular_one]
    simp
  have hg : (Block.summarize g).info.difficulty = BEGINNING_DIFFICULTY := by simp only [Block.info, h5]; rfl
  have hgt : (Block.summarize g).info.timestamp = 1597924800 := by simp [Block.info, h5]
  obtain ⟨b, k1, k2, k3⟩ := ((C40_exact_partial E t _ (BytesN.fill 32 0) ROOT_PUBLIC_ADDRESS [BytesN.fill 32 5] 1597924800 hr hm
    h4 (.inl (by rw [hgt]; exact UInt64.le_refl _))).2 (by rw [hg]; exact easy ..)).2.2 (by rw [hh]; simp)
  have hs' : RunWith E EmitOnly (Tree.emitMain E (BytesN.fill 32 0) ROOT_PUBLIC_ADDRESS [BytesN.fill 32 5] 1597924800 t).final :=
    .call t (Op.emitMain (BytesN.fill 32 0) ROOT_PUBLIC_ADDRESS [BytesN.fill 32 5] 1597924800) hr trivial
  have hbd : b.info.difficulty = regular 2 := by
    obtain ⟨bs, h, _, _⟩ := emitOnly_linked hr hm
    obtain ⟨last, g1, _, g3, _, _, _, _, g8, _⟩ := emitted_next h hm k1
    rw [h4] at g1
    cases g1
    have := g3.info.difficulty
    rw [g8, hgt, hg, ← regular_one, (stepBy_cases E _ _ _ (UInt64.le_refl _)).1 (by omega), harder_regular ⟨1, by omega⟩] at this
    exact (Outcome.ok.inj this).symm
  obtain ⟨ts, b', e⟩ := hfull E _ b (BytesN.fill 32 0) ROOT_PUBLIC_ADDRESS [BytesN.fill 32 5] hs' (by rw [k3, hh]; decide) k2
    (by rw [k3, hh]; simp) (easy ..)
  rw [key E _ b _ _ _ ts (runWith_run hs') (by rw [k3, hh]; decide) k2 (fun hc => by
    have := (checkPow_iff ..).mpr hc
    rw [checkPow_const hE, hbd, clz_regular ⟨1, by omega⟩, clz_regular ⟨2, by omega⟩] at this
    simp at this)] at e
  cases e

/-- Consecutive blocks of an emitted chain and their difficulties. -/
theorem run_blocks {E : Env} {s : Tree} {first n : Nat} {block : Nat → Block} (hr : RunWith E EmitOnly s)
    (hm : s.main.getHeight.val + 1 < 2 ^ 256) (hh : first + n < s.main.getHeight.val)
    (hb : ∀ i, i ≤ n → ∀ q : U256, q.val = first + i → s.main.findByHeight q = .ok (some (block i))) :
    (∀ i, i ≤ n → Reach (block i).info.difficulty) ∧
    ∀ i, i < n → recalculateDifficulty E (block i).info.timestamp (block (i + 1)).info.timestamp
      (block i).info.difficulty = .ok (block (i + 1)).info.difficulty := by
  obtain ⟨bs, h, hk, hM⟩ := emitOnly_linked hr hm
  have hlen : (genesis E :: bs).length = s.main.getHeight.val := h.len
  have heq : ∀ i (hi : i ≤ n), (genesis E :: bs)[first + i]'(by omega) = block i := by
    intro i hi
    have h1 := hb i hi ⟨first + i, by show first + i < 2 ^ 256; omega⟩ rfl
    rw [emitted_find h hM _ (by show first + i < _; omega)] at h1
    simpa using h1
  refine ⟨fun i hi => ?_, fun i hi => ?_⟩
  · rw [← heq i hi]
    exact linked_reach (a := genesis E) reach_beginning hk _ (List.getElem_mem _)
  · have := (hk.get (first + i) (by omega)).info.difficulty
    rw [heq i (by omega)] at this
    have e : (genesis E :: bs)[first + i + 1]'(by omega) = block (i + 1) := heq (i + 1) (by omega)
    rw [e] at this
    exact this

theorem reach_easier_exact (E : Env) {d : Hash} (h : Reach d) : ∃ d', easier E d = .ok d' ∧
    countLeadingZeros d'.val = if countLeadingZeros d.val = 256 then 7 else max 1 (countLeadingZeros d.val - 1) := by
  rcases h with ⟨k, h1, h2, rfl⟩ | ⟨j, h1, h2, rfl⟩
  · rcases Nat.lt_or_ge k 256 with h3 | h3
    · refine ⟨_, easier_regular E k h1 h3, ?_⟩
      rw [clz_regular ⟨k, by omega⟩, clz_regular ⟨max (k - 1) 1, by omega⟩, if_neg (by show ¬ k = 256; omega)]
      simp only
      omega
    · obtain rfl : k = 256 := by omega
      refine ⟨_, easier_zero E, ?_⟩
      rw [clz_regular ⟨256, by omega⟩, if_pos rfl]
      exact clz_peak ⟨1, by omega⟩ (by decide)
  · refine ⟨_, easier_peak E j h1 h2, ?_⟩
    rw [clz_peak ⟨j, by omega⟩ h1, clz_peak ⟨min (j + 1) 7, by omega⟩ (by show 1 ≤ min (j + 1) 7; omega),
      if_neg (by show ¬ 8 - j = 256; omega)]
    simp only
    omega

theorem one_le_reach {d : Hash} (h : Reach d) : 1 ≤ countLeadingZeros d.val := by
  rcases h with ⟨k, h1, h2, rfl⟩ | ⟨j, h1, h2, rfl⟩
  · rw [clz_regular ⟨k, by omega⟩]; exact h1
  · rw [clz_peak ⟨j, by omega⟩ h1]; show 1 ≤ 8 - j; omega

/-- C140, what holds: only blocks bring the difficulty down, and they do it at one bit each. Take consecutive blocks of a
chain grown by emitting, each recorded more than 600 seconds after the one before. The number of leading zero bits
falls by one with each block, from 256 at once to seven, and stays at one for good once it is there. Missing: any effect
of time without a block (`C140_refuted`). -/
theorem C140_relief_partial (E : Env) (s : Tree) (first n : Nat) (block : Nat → Block) (hr : RunWith E EmitOnly s)
    (hm : s.main.getHeight.val + 1 < 2 ^ 256) (hh : first + n < s.main.getHeight.val)
    (hb : ∀ i, i ≤ n → ∀ q : U256, q.val = first + i → s.main.findByHeight q = .ok (some (block i)))
    (ho : ∀ i, i < n → (block i).info.timestamp.toNat + 600 < (block (i + 1)).info.timestamp.toNat) :
    countLeadingZeros (block n).info.difficulty.val =
      if n = 0 then countLeadingZeros (block 0).info.difficulty.val
      else if countLeadingZeros (block 0).info.difficulty.val = 256 then max 1 (8 - n)
      else max 1 (countLeadingZeros (block 0).info.difficulty.val - n) := by
  obtain ⟨hreach, hstep⟩ := run_blocks hr hm hh hb
  have key : ∀ m, m ≤ n → countLeadingZeros (block m).info.difficulty.val =
      if m = 0 then countLeadingZeros (block 0).info.difficulty.val
      else if countLeadingZeros (block 0).info.difficulty.val = 256 then max 1 (8 - m)
      else max 1 (countLeadingZeros (block 0).info.difficulty.val - m) := by
    intro m
    induction m with
    | zero => intro _; rfl
    | succ m ih =>
      intro hmn
      have ih := ih (by omega)
      have h6 := ho m (by omega)
      have hs := hstep m (by omega)
      rw [(stepBy_cases E _ _ (block m).info.difficulty (UInt64.le_iff_toNat_le.mpr (by omega))).2.1 (by omega)] at hs
      obtain ⟨d', g1, g2⟩ := reach_easier_exact E (hreach m (by omega))
      rw [hs] at g1; cases g1
      rw [g2]
      have h1 := one_le_reach (hreach 0 (by omega))
      have h256 := clz_le_256 (block 0).info.difficulty
      rw [if_neg (by omega : ¬ m + 1 = 0)]
      by_cases h0 : m = 0
      · subst h0
        by_cases hc : countLeadingZeros (block 0).info.difficulty.val = 256
        · rw [if_pos hc, if_pos hc]; rfl
        · rw [if_neg hc, if_neg hc]
      · rw [if_neg h0] at ih
        by_cases hc : countLeadingZeros (block 0).info.difficulty.val = 256
        · rw [if_pos hc] at ih ⊢
          rw [if_neg (by omega)]; omega
        · rw [if_neg hc] at ih ⊢
          rw [if_neg (by omega)]; omega
  exact key n (Nat.le_refl _)

/-- C140, the other direction: blocks recorded less than 600 seconds apart make the difficulty one bit higher each, up to
the all-zero difficulty, which only a digest of zero meets. -/
theorem C140_rise_partial (E : Env) (s : Tree) (first n : Nat) (block : Nat → Block) (hr : RunWith E EmitOnly s)
    (hm : s.main.getHeight.val + 1 < 2 ^ 256) (hh : first + n < s.main.getHeight.val)
    (hb : ∀ i, i ≤ n → ∀ q : U256, q.val = first + i → s.main.findByHeight q = .ok (some (block i)))
    (ho : ∀ i, i < n → (block i).info.timestamp.toNat ≤ (block (i + 1)).info.timestamp.toNat ∧
      (block (i + 1)).info.timestamp.toNat < (block i).info.timestamp.toNat + 600) :
    min 256 (countLeadingZeros (block 0).info.difficulty.val + n) ≤ countLeadingZeros (block n).info.difficulty.val := by
  obtain ⟨hreach, hstep⟩ := run_blocks hr hm hh hb
  have key : ∀ m, m ≤ n → min 256 (countLeadingZeros (block 0).info.difficulty.val + m) ≤
      countLeadingZeros (block m).info.difficulty.val := by
    intro m
    induction m with
    | zero => intro _; exact Nat.min_le_right _ _
    | succ m ih =>
      intro hmn
      have ih := ih (by omega)
      have h6 := ho m (by omega)
      have hs := hstep m (by omega)
      rw [(stepBy_cases E _ _ (block m).info.difficulty (UInt64.le_iff_toNat_le.mpr h6.1)).1 (by omega)] at hs
      obtain ⟨d', g1, _, g2⟩ := reach_harder (hreach m (by omega))
      rw [hs] at g1; cases g1
      omega
  exact key n (Nat.le_refl _)

/-- A chain of any length below a million with blocks a fixed time apart. -/
theorem paced (gap : UInt64) (hgap : gap.toNat ≤ 1000) (n : Nat) (hn : n + 1 < 1000000) : ∃ s bs, RunWith zeroEnv EmitOnly s ∧
    Chain.Holds zeroEnv s.main.chain (genesis zeroEnv :: bs) ∧ (∀ b ∈ bs, b.IsMain) ∧ bs.length = n ∧
    ∀ i (hi : i < (genesis zeroEnv :: bs).length), (genesis zeroEnv :: bs)[i].info.timestamp.toNat = 1597924800 + gap.toNat * i := by
  induction n with
  | zero =>
    obtain ⟨t, _, h2, h3, ⟨g, _, h4, h5⟩, _⟩ := C37_fresh_node zeroEnv
    have hr : RunWith zeroEnv EmitOnly t := by subst h2; exact .fresh
    have hh : t.main.getHeight.val = 1 := h3
    have hm : t.main.getHeight.val + 1 < 2 ^ 256 := by rw [hh]; decide
    obtain ⟨bs, h, _, hM⟩ := emitOnly_linked hr hm
    have hlen : (genesis zeroEnv :: bs).length = 1 := h.len.trans hh
    have hbs : bs = [] := List.length_eq_zero_iff.mp (by simpa using hlen)
    subst hbs
    refine ⟨t, [], hr, h, nofun, rfl, fun i hi => ?_⟩
    obtain rfl : i = 0 := by simp at hi; exact hi
    rfl
  | succ n ih =>
    obtain ⟨s, bs, hr, h, hM, hl, hts⟩ := ih (by omega)
    have hlen : s.main.getHeight.val = n + 1 := by rw [← hl]; exact h.len.symm
    have hm : s.main.getHeight.val + 1 < 2 ^ 256 := by
      rw [hlen]; exact Nat.lt_trans (show n + 1 + 1 < 2000000 by omega) (by decide)
    obtain ⟨l, g1, g2, _, g4, _⟩ := h.last
    have hlast : s.main.getLastBlock = .ok (some l) := by
      apply g4
      rcases List.mem_cons.mp (List.mem_of_getLast? g1) with e | e
      · rw [e]; trivial
      · exact hM l e
    have hlt : l.info.timestamp.toNat = 1597924800 + gap.toNat * n := by
      rw [List.getLast?_eq_getElem?, List.getElem?_eq_getElem (by simp)] at g1
      rw [← Option.some.inj g1, hts _ (by simp)]
      simp [hl]
    have hle : l.info.timestamp.toNat + gap.toNat < 2 ^ 63 := by
      have : gap.toNat * n ≤ 1000 * 1000000 := Nat.mul_le_mul hgap (by omega)
      omega
    have ht : (l.info.timestamp + gap).toNat = l.info.timestamp.toNat + gap.toNat := by
      rw [UInt64.toNat_add, Nat.mod_eq_of_lt (by omega)]
    obtain ⟨b, k1, _, _⟩ := ((C40_exact_partial zeroEnv s l (BytesN.fill 32 0) ROOT_PUBLIC_ADDRESS [BytesN.fill 32 5]
      (l.info.timestamp + gap) hr hm hlast (.inl (UInt64.le_iff_toNat_le.mpr (by omega)))).2
      ((checkPow_iff ..).mp (checkPow_zeroDigest (fun _ => rfl) ..))).2.2 (by
        rw [hlen, Nat.mod_eq_of_lt (by omega)]; simp)
    obtain ⟨_, _, _, _, g4', _, g6, _, g8, _⟩ := emitted_next h hm k1
    refine ⟨_, bs ++ [b], .call s (Op.emitMain (BytesN.fill 32 0) ROOT_PUBLIC_ADDRESS [BytesN.fill 32 5]
      (l.info.timestamp + gap)) hr trivial, g4', fun x hx => ?_, by simp [hl], fun i hi => ?_⟩
    · rcases List.mem_append.mp hx with hx | hx
      · exact hM x hx
      · rw [List.mem_singleton.mp hx]; exact g6
    · simp only [← List.cons_append] at hi ⊢
      by_cases hi' : i < (genesis zeroEnv :: bs).length
      · rw [List.getElem_append_left hi']; exact hts i hi'
      · have : i = (genesis zeroEnv :: bs).length := by
          rw [List.length_append, List.length_singleton] at hi; omega
        subst this
        rw [List.getElem_append_right (Nat.le_refl _)]
        simp only [Nat.sub_self, List.getElem_cons_zero]
        rw [g8, ht, hlt, List.length_cons, hl, Nat.mul_succ]
        omega

/-- The hypotheses are met: a hundred thousand blocks 601 seconds apart, and as many a second apart. -/
example : ∀ gap : UInt64, gap = 1 ∨ gap = 601 → ∃ (s : Tree) (block : Nat → Block), RunWith zeroEnv EmitOnly s ∧
    s.main.getHeight.val = 100001 ∧
    (∀ i, i ≤ 100000 → ∀ q : U256, q.val = 0 + i → s.main.findByHeight q = .ok (some (block i))) ∧
    ∀ i, i < 100000 → (block (i + 1)).info.timestamp.toNat = (block i).info.timestamp.toNat + gap.toNat := by
  intro gap hg
  obtain ⟨s, bs, hr, h, hM, hl, hts⟩ := paced gap (by rcases hg with rfl | rfl <;> decide) 100000 (by omega)
  have hlen : (genesis zeroEnv :: bs).length = 100001 := by simp [hl]
  refine ⟨s, fun i => (genesis zeroEnv :: bs).getD i (genesis zeroEnv), hr, h.len.symm.trans hlen, fun i hi q hq => ?_,
    fun i hi => ?_⟩
  · have : q.val = i := by omega
    subst this
    rw [emitted_find h hM q (by omega)]
    simp only [List.getD_eq_getElem?_getD]
    rw [List.getElem?_eq_getElem (by omega)]; rfl
  · simp only [List.getD_eq_getElem?_getD]
    rw [List.getElem?_eq_getElem (by omega), List.getElem?_eq_getElem (by omega)]
    simp only [Option.getD_some]
    rw [hts _ (by omega), hts _ (by omega), Nat.mul_succ]
    omega

end BCT.Props
