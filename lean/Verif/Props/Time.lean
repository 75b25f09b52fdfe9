import Verif.Props.Emit
import Verif.Props.Pow
/-!
# C96 – C98: timestamps and difficulty along an emitted chain
-/

namespace BCT.Props
open BCT

theorem emitted_find {E : Env} {s : Tree} {bs : List Block} (h : Chain.Holds E s.main.chain (genesis E :: bs))
    (hb : ∀ b ∈ bs, b.IsMain) (x : U256) (hx : x.val < (genesis E :: bs).length) :
    s.main.findByHeight x = .ok (some (genesis E :: bs)[x.val]) := by
  unfold MainChain.findByHeight MainChain.findRawByHeight
  rw [h.findRaw, List.getElem?_eq_getElem hx]
  exact mainOnly_decode h hb _ hx

/-! ## C96 -/

/-- C96 at full strength: on a chain grown by emitting, no block is older than the one before it. -/
def C96_full : Prop := ∀ (E : Env) (s : Tree) (q q' : U256) (a b : Block), RunWith E EmitOnly s →
  s.main.getHeight.val + 1 < 2 ^ 256 → q'.val = q.val + 1 → q'.val < s.main.getHeight.val →
  s.main.findByHeight q = .ok (some a) → s.main.findByHeight q' = .ok (some b) →
  a.info.timestamp ≤ b.info.timestamp

/-- C96, what holds: in a build with overflow checks timestamps never decrease, between any two heights. Missing:
builds without overflow checks (`C96_refuted`). -/
theorem C96_in_order_partial (E : Env) (s : Tree) (q q' : U256) (a b : Block) (hE : E.overflowChecks = true)
    (hr : RunWith E EmitOnly s) (hm : s.main.getHeight.val + 1 < 2 ^ 256) (hq : q.val ≤ q'.val)
    (hq' : q'.val < s.main.getHeight.val) (ha : s.main.findByHeight q = .ok (some a))
    (hb : s.main.findByHeight q' = .ok (some b)) : a.info.timestamp ≤ b.info.timestamp := by
  obtain ⟨bs, h, hk, hM⟩ := emitOnly_linked hr hm
  have hlen : (genesis E :: bs).length = s.main.getHeight.val := h.len
  rw [emitted_find h hM q (by omega)] at ha
  rw [emitted_find h hM q' (by omega)] at hb
  simp only [Outcome.ok.injEq, Option.some.injEq] at ha hb
  subst ha hb
  have step : ∀ (i : Nat) (hi : i + 1 < (genesis E :: bs).length),
      (genesis E :: bs)[i].info.timestamp ≤ (genesis E :: bs)[i + 1].info.timestamp := by
    intro i hi
    have hd := (hk.get i hi).info.difficulty
    rcases UInt64.le_total (genesis E :: bs)[i].info.timestamp (genesis E :: bs)[i + 1].info.timestamp with h1 | h1
    · exact h1
    · rcases Classical.em ((genesis E :: bs)[i + 1].info.timestamp < (genesis E :: bs)[i].info.timestamp) with h2 | h2
      · rw [C25_out_of_order_partial E hE _ _ _ h2] at hd; cases hd
      · exact UInt64.not_lt.mp h2
  have all : ∀ (n i : Nat) (hi : i + n < (genesis E :: bs).length),
      (genesis E :: bs)[i].info.timestamp ≤ (genesis E :: bs)[i + n].info.timestamp := by
    intro n
    induction n with
    | zero => intro i hi; exact UInt64.le_refl _
    | succ n ih => intro i hi; exact UInt64.le_trans (ih i (by omega)) (step (i + n) (by omega))
  obtain ⟨n, hn⟩ : ∃ n, q'.val = q.val + n := ⟨q'.val - q.val, by omega⟩
  simp only [hn]
  exact all n q.val (by omega)

theorem checkPow_zeroDigest {E : Env} (hE : ∀ x, E.sha256 x = BytesN.fill 32 0) (first difficulty : Hash)
    (txs : List Hash) (pow : Bytes) : checkPow E first difficulty txs pow = .ok true := by
  unfold checkPow
  rw [merkleRoot_eq, Outcome.ok_bind]
  show Outcome.ok (decide (_ ≤ countLeadingZeros (E.sha256 (first.val ++ (merkleRootT E txs).val ++ pow)).val)) = _
  rw [hE]
  have : countLeadingZeros (BytesN.fill 32 0).val = 256 := by decide +kernel
  rw [this]
  simp [clz_le_256]

/-- C96 is false of builds without overflow checks: whatever the last block, every nonce that meets its difficulty
makes a block with any timestamp whatever. -/
theorem C96_refuted :
    (∀ (E : Env) (s : Tree) (prev : Block) (pow : BytesN 32) (founder : Address) (txs : List Hash) (ts : UInt64),
      E.overflowChecks = false → RunWith E EmitOnly s → s.main.getHeight.val + 1 < 2 ^ 256 →
      s.main.getLastBlock = .ok (some prev) → MeetsPow E (E.sha256 prev.dump) prev.info.difficulty txs pow.val →
      (s.main.getHeight.val % 1000000 = 0 ↔ txs = []) →
      ∃ b, (Tree.emitMain E pow founder txs ts s).out = .ok b ∧ b.info.timestamp = ts ∧
        (Tree.emitMain E pow founder txs ts s).final.main.getLastBlock = .ok (some b)) ∧
    ¬ C96_full := by
  have key : ∀ (E : Env) (s : Tree) (prev : Block) (pow : BytesN 32) (founder : Address) (txs : List Hash) (ts : UInt64),
      E.overflowChecks = false → RunWith E EmitOnly s → s.main.getHeight.val + 1 < 2 ^ 256 →
      s.main.getLastBlock = .ok (some prev) → MeetsPow E (E.sha256 prev.dump) prev.info.difficulty txs pow.val →
      (s.main.getHeight.val % 1000000 = 0 ↔ txs = []) →
      ∃ b, (Tree.emitMain E pow founder txs ts s).out = .ok b ∧ b.info.timestamp = ts ∧
        (Tree.emitMain E pow founder txs ts s).final.main.getLastBlock = .ok (some b) := by
    intro E s prev pow founder txs ts hE hr hm hp hpow he
    obtain ⟨b, h1, h2, _⟩ := ((C40_exact_partial E s prev pow founder txs ts hr hm hp (.inr hE)).2 hpow).2.2 he
    obtain ⟨bs, h⟩ := run_holds (runWith_run hr) hm
    obtain ⟨_, _, _, _, _, _, _, _, ht, _⟩ := emitted_next h hm h1
    exact ⟨b, h1, ht, h2⟩
  refine ⟨key, fun hfull => ?_⟩
  let E : Env := { zeroEnv with overflowChecks := false }
  obtain ⟨t, _, h2, h3, ⟨g, _, h4, h5⟩, _⟩ := C37_fresh_node E
  have hr : RunWith E EmitOnly t := by subst h2; exact .fresh
  have hm : t.main.getHeight.val + 1 < 2 ^ 256 := by
    have : t.main.getHeight.val = 1 := h3
    rw [this]; decide
  have hpow : MeetsPow E (E.sha256 (Block.summarize g).dump) (Block.summarize g).info.difficulty [BytesN.fill 32 5]
      (BytesN.fill 32 0).val := by
    exact (checkPow_iff ..).mp (checkPow_zeroDigest (fun _ => rfl) ..)
  have hh : t.main.getHeight.val = 1 := h3
  obtain ⟨b, k1, k2, _⟩ := key E t _ (BytesN.fill 32 0) ROOT_PUBLIC_ADDRESS [BytesN.fill 32 5] 0 rfl hr hm h4 hpow
    (by rw [hh]; simp)
  obtain ⟨bs, h, _, hM⟩ := emitOnly_linked hr hm
  obtain ⟨last, g1, g2, _, g4, _, g6, _⟩ := emitted_next h hm k1
  have hbs : bs = [] := by
    have := h.len
    rw [show t.main.chain.height.val = 1 from hh] at this
    exact List.length_eq_zero_iff.mp (by simpa using this)
  subst hbs
  have hs' : RunWith E EmitOnly ((Op.emitMain (BytesN.fill 32 0) ROOT_PUBLIC_ADDRESS [BytesN.fill 32 5] 0).run E t).final :=
    .call t _ hr trivial
  have hM' : ∀ x ∈ [b], x.IsMain := fun x hx => by rw [List.mem_singleton.mp hx]; exact g6
  have hH : Chain.Holds E ((Op.emitMain (BytesN.fill 32 0) ROOT_PUBLIC_ADDRESS [BytesN.fill 32 5] 0).run E
      t).final.main.chain (genesis E :: [b]) := g4
  have hlen := hH.len
  have hgen : genesis E = .summarize g := by
    rw [h4] at g1
    simp only [List.getLast?_singleton, Option.some.injEq] at g2
    rw [g2]
    simpa using g1.symm
  have := hfull E _ ⟨0, by decide⟩ ⟨1, by decide⟩ _ _ hs' (by
      show (Chain.height _).val + 1 < 2 ^ 256
      rw [← hlen]; simp) rfl (by
      show 1 < (Chain.height _).val
      rw [← hlen]; simp)
    (emitted_find hH hM' ⟨0, by decide⟩ (by show 0 < 2; decide)) (emitted_find hH hM' ⟨1, by decide⟩ (by show 1 < 2; decide))
  have h0 : (genesis E).info.timestamp ≤ b.info.timestamp := this
  rw [hgen, k2] at h0
  have : (Block.summarize g).info.timestamp = 1597924800 := by simp [Block.info, h5]
  rw [this] at h0
  revert h0; decide

/-- The hypotheses of `C96_in_order_partial` are met by a chain with more than a million blocks. -/
example : zeroEnv.overflowChecks = true ∧ ∃ s, RunWith zeroEnv EmitOnly s ∧ s.main.getHeight.val = 1000002 := by
  obtain ⟨s, _, h1, h2, _⟩ := steady 1000001 (by omega)
  exact ⟨rfl, s, h1, h2⟩

/-! ## C98 -/

/-- A first byte of `j` ones, everything else zero. -/
def peak (j : Nat) : Hash := ⟨UInt8.ofNat (2 ^ j - 1) :: List.replicate 31 0, by simp⟩

/-- The difficulties a chain can have. -/
def Reach (d : Hash) : Prop := (∃ k, 1 ≤ k ∧ k ≤ 256 ∧ d = regular k) ∨ ∃ j, 1 ≤ j ∧ j ≤ 7 ∧ d = peak j

theorem harder_peak : ∀ j : Fin 8, 2 ≤ j.val → harder (peak j.val) = .ok (peak (j.val - 1)) := by decide +kernel
theorem harder_peak_one : harder (peak 1) = .ok (regular 256) := by decide +kernel
theorem harder_zero : harder (regular 256) = .ok (regular 256) := by decide +kernel
theorem easier_peak_aux : ∀ j : Fin 8, 1 ≤ j.val → easier ⟨fun _ => BytesN.fill 32 0, true⟩ (peak j.val) =
    .ok (peak (min (j.val + 1) 7)) := by decide +kernel
theorem easier_zero_aux : easier ⟨fun _ => BytesN.fill 32 0, true⟩ (regular 256) = .ok (peak 1) := by decide +kernel
theorem clz_peak : ∀ j : Fin 8, 1 ≤ j.val → countLeadingZeros (peak j.val).val = 8 - j.val := by decide +kernel

theorem easier_peak (E : Env) (j : Nat) (h1 : 1 ≤ j) (h2 : j ≤ 7) : easier E (peak j) = .ok (peak (min (j + 1) 7)) := by
  have := easier_peak_aux ⟨j, by omega⟩ h1
  rw [← this]
  apply easier_env <;> rw [this] <;> simp

theorem easier_zero (E : Env) : easier E (regular 256) = .ok (peak 1) := by
  rw [← easier_zero_aux]
  apply easier_env <;> rw [easier_zero_aux] <;> simp

theorem reach_harder {d : Hash} (h : Reach d) : ∃ d', harder d = .ok d' ∧ Reach d' ∧
    min 256 (countLeadingZeros d.val + 1) ≤ countLeadingZeros d'.val := by
  rcases h with ⟨k, h1, h2, rfl⟩ | ⟨j, h1, h2, rfl⟩
  · rcases Nat.lt_or_ge k 256 with h3 | h3
    · refine ⟨regular (k + 1), harder_regular ⟨k, h3⟩, .inl ⟨k + 1, by omega, by omega, rfl⟩, ?_⟩
      rw [clz_regular ⟨k, by omega⟩, clz_regular ⟨k + 1, by omega⟩]
      exact Nat.min_le_right _ _
    · obtain rfl : k = 256 := by omega
      refine ⟨_, harder_zero, .inl ⟨256, by omega, by omega, rfl⟩, ?_⟩
      rw [clz_regular ⟨256, by omega⟩]
      exact Nat.min_le_left _ _
  · rcases Nat.lt_or_ge j 2 with h3 | h3
    · obtain rfl : j = 1 := by omega
      refine ⟨_, harder_peak_one, .inl ⟨256, by omega, by omega, rfl⟩, ?_⟩
      rw [clz_regular ⟨256, by omega⟩]
      exact Nat.min_le_left _ _
    · refine ⟨_, harder_peak ⟨j, by omega⟩ h3, .inr ⟨j - 1, by omega, by omega, rfl⟩, ?_⟩
      rw [clz_peak ⟨j, by omega⟩ h1, clz_peak ⟨j - 1, by omega⟩ (by show 1 ≤ j - 1; omega)]
      simp only
      omega

theorem reach_easier (E : Env) {d : Hash} (h : Reach d) : ∃ d', easier E d = .ok d' ∧ Reach d' ∧
    (countLeadingZeros d.val < 256 → countLeadingZeros d.val ≤ countLeadingZeros d'.val + 1) := by
  rcases h with ⟨k, h1, h2, rfl⟩ | ⟨j, h1, h2, rfl⟩
  · rcases Nat.lt_or_ge k 256 with h3 | h3
    · refine ⟨_, easier_regular E k h1 h3, .inl ⟨max (k - 1) 1, by omega, by omega, rfl⟩, fun _ => ?_⟩
      rw [clz_regular ⟨k, by omega⟩, clz_regular ⟨max (k - 1) 1, by omega⟩]
      simp only
      omega
    · obtain rfl : k = 256 := by omega
      refine ⟨_, easier_zero E, .inr ⟨1, by omega, by omega, rfl⟩, fun h => ?_⟩
      rw [clz_regular ⟨256, by omega⟩] at h
      simp only at h
      omega
  · refine ⟨_, easier_peak E j h1 h2, .inr ⟨min (j + 1) 7, by omega, by omega, rfl⟩, fun _ => ?_⟩
    rw [clz_peak ⟨j, by omega⟩ h1, clz_peak ⟨min (j + 1) 7, by omega⟩ (by show 1 ≤ min (j + 1) 7; omega)]
    simp only
    omega

theorem reach_stepBy (E : Env) (delta : UInt64) {d : Hash} (h : Reach d) : ∃ d', stepBy E delta d = .ok d' ∧ Reach d' := by
  unfold stepBy
  split
  · obtain ⟨d', h1, h2, _⟩ := reach_harder h; exact ⟨d', h1, h2⟩
  · split
    · obtain ⟨d', h1, h2, _⟩ := reach_easier E h; exact ⟨d', h1, h2⟩
    · exact ⟨d, rfl, h⟩

theorem reach_recalculate {E : Env} {prev t : UInt64} {d d' : Hash} (h : Reach d)
    (hd : recalculateDifficulty E prev t d = .ok d') : Reach d' := by
  rw [recalculate_eq] at hd
  cases hs : u64Sub E t prev with
  | ok delta =>
    rw [hs, Outcome.ok_bind] at hd
    obtain ⟨d'', h1, h2⟩ := reach_stepBy E delta h
    rw [h1] at hd; cases hd
    exact h2
  | err e => rw [hs] at hd; cases hd
  | panic e => rw [hs] at hd; cases hd
  | ub => rw [hs] at hd; cases hd

theorem reach_beginning : Reach BEGINNING_DIFFICULTY := .inl ⟨1, by omega, by omega, regular_one.symm⟩

theorem linked_reach {E : Env} : ∀ {l : List Block} {a : Block}, Reach a.info.difficulty → Linked E (a :: l) →
    ∀ b ∈ a :: l, Reach b.info.difficulty
  | [], a, ha, _, b, hb => by rw [List.mem_singleton.mp hb]; exact ha
  | c :: l, a, ha, hl, b, hb => by
    rcases List.mem_cons.mp hb with rfl | hb
    · exact ha
    · exact linked_reach (reach_recalculate ha hl.1.info.difficulty) hl.2 b hb

theorem value_peak : ∀ j : Fin 8, Spec.value (peak j.val).val = (2 ^ j.val - 1) * 2 ^ 248 := by decide +kernel

theorem reach_value {d : Hash} (h : Reach d) : (∃ k, 1 ≤ k ∧ k ≤ 256 ∧ Spec.value d.val = 2 ^ (256 - k) - 1) ∨
    ∃ j, 1 ≤ j ∧ j ≤ 7 ∧ Spec.value d.val = (2 ^ j - 1) * 2 ^ 248 := by
  rcases h with ⟨k, h1, h2, rfl⟩ | ⟨j, h1, h2, rfl⟩
  · exact .inl ⟨k, h1, h2, value_regular k⟩
  · exact .inr ⟨j, h1, h2, value_peak ⟨j, by omega⟩⟩

/-- C98. The difficulty of every block of a chain grown by emitting, read as a number, is one less than a power of two
(at most `2 ^ 255`), or, after a chain has been at the all-zero difficulty, one to seven one-bits followed by zeros.
This holds in every build and whatever the timestamps. -/
theorem C98_values (E : Env) (s : Tree) (q : U256) (hr : RunWith E EmitOnly s)
    (hm : s.main.getHeight.val + 1 < 2 ^ 256) (hq : q.val < s.main.getHeight.val) :
    ∃ b, s.main.findByHeight q = .ok (some b) ∧
      ((∃ k, 1 ≤ k ∧ k ≤ 256 ∧ Spec.value b.info.difficulty.val = 2 ^ (256 - k) - 1) ∨
       ∃ j, 1 ≤ j ∧ j ≤ 7 ∧ Spec.value b.info.difficulty.val = (2 ^ j - 1) * 2 ^ 248) := by
  obtain ⟨bs, h, hk, hM⟩ := emitOnly_linked hr hm
  have hlen : (genesis E :: bs).length = s.main.getHeight.val := h.len
  refine ⟨_, emitted_find h hM q (by omega), reach_value ?_⟩
  exact linked_reach (a := genesis E) reach_beginning hk _ (List.getElem_mem _)

theorem run_append (E : Env) : ∀ (l l' : List UInt64) (t0 t : UInt64) (d d' : Hash),
    runDifficulty E t0 d l = .ok (t, d') → runDifficulty E t0 d (l ++ l') = runDifficulty E t d' l'
  | [], l', t0, t, d, d', h => by cases h; rfl
  | x :: l, l', t0, t, d, d', h => by
    unfold runDifficulty at h
    rw [List.cons_append, runDifficulty]
    cases hr : recalculateDifficulty E t0 x d with
    | ok d1 => rw [hr, Outcome.ok_bind] at h; rw [Outcome.ok_bind]; exact run_append E l l' x t d1 d' h
    | err e => rw [hr] at h; cases h
    | panic e => rw [hr] at h; cases h
    | ub => rw [hr] at h; cases h

theorem inOrder_replicate (t : UInt64) : ∀ (n : Nat) (l : List UInt64), InOrder t l → InOrder t (List.replicate n t ++ l)
  | 0, _, h => h
  | n + 1, l, h => ⟨UInt64.le_refl _, inOrder_replicate t n l h⟩

theorem toNat_add_601 (t : UInt64) (h : t.toNat + 601 < 2 ^ 64) : (t + 601).toNat = t.toNat + 601 := by
  have h6 : (601 : UInt64).toNat = 601 := rfl
  rw [UInt64.toNat_add, h6, Nat.mod_eq_of_lt h]

/-- C98, converse: each of these values is the difficulty of some chain with timestamps in order. -/
theorem C98_all_occur (E : Env) (d : Hash)
    (h : (∃ k, 1 ≤ k ∧ k ≤ 256 ∧ Spec.value d.val = 2 ^ (256 - k) - 1) ∨
      ∃ j, 1 ≤ j ∧ j ≤ 7 ∧ Spec.value d.val = (2 ^ j - 1) * 2 ^ 248) :
    ∃ ts t, InOrder 1597924800 ts ∧ runDifficulty E 1597924800 BEGINNING_DIFFICULTY ts = .ok (t, d) := by
  have inj : ∀ d' : Hash, Spec.value d.val = Spec.value d'.val → d = d' := fun d' e => by
    rw [value_eq_beNat, value_eq_beNat] at e
    have h1 := beBytes_beNat d.val
    have h2 := beBytes_beNat d'.val
    rw [d.2, e] at h1
    rw [d'.2] at h2
    exact Subtype.ext (h1.symm.trans h2)
  have fast : ∀ k, 1 ≤ k → k ≤ 256 → runDifficulty E 1597924800 BEGINNING_DIFFICULTY
      (List.replicate (k - 1) 1597924800) = .ok (1597924800, regular k) := fun k h1 h2 => by
    rw [← regular_one, run_fast E (k - 1) 1 _ (by omega)]
    rw [show 1 + (k - 1) = k by omega]
  rcases h with ⟨k, h1, h2, h3⟩ | ⟨j, h1, h2, h3⟩
  · rw [inj (regular k) (by rw [h3, value_regular])]
    exact ⟨_, _, by simpa using inOrder_replicate 1597924800 (k - 1) [] trivial, fast k h1 h2⟩
  · rw [inj (peak j) (by rw [h3]; exact (value_peak ⟨j, by omega⟩).symm)]
    clear inj h3
    have slow : ∀ n, n ≤ 7 → ∀ t : UInt64, t.toNat + 601 * n < 10000000000 → ∀ i, 1 ≤ i → i + n ≤ 7 →
        ∃ ts t', InOrder t ts ∧ runDifficulty E t (peak i) ts = .ok (t', peak (i + n)) := by
      intro n
      induction n with
      | zero => intro _ t _ i _ _; exact ⟨[], t, trivial, rfl⟩
      | succ n ih =>
        intro hn t ht i hi hin
        have e601 := toNat_add_601 t (Nat.lt_of_le_of_lt
          (Nat.add_le_add_left (Nat.le_mul_of_pos_right 601 (Nat.succ_pos n)) _) (Nat.lt_trans ht (by decide)))
        have hle : t ≤ t + 601 := by rw [UInt64.le_iff_toNat_le, e601]; omega
        obtain ⟨ts, t', g1, g2⟩ := ih (by omega) (t + 601) (by rw [e601]; omega) (i + 1) (by omega) (by omega)
        have hstep := (stepBy_cases E t (t + 601) (peak i) hle).2.1 (by rw [e601, Nat.add_sub_cancel_left]; decide)
        rw [easier_peak E i hi (by omega), show min (i + 1) 7 = i + 1 by omega] at hstep
        refine ⟨(t + 601) :: ts, t', ⟨hle, g1⟩, ?_⟩
        rw [runDifficulty, hstep, Outcome.ok_bind, g2]
        rw [show i + 1 + n = i + (n + 1) by omega]
    obtain ⟨ts, t', g1, g2⟩ := slow (j - 1) (by omega) 1597925401
      (by rw [show (1597925401 : UInt64).toNat = 1597925401 from rfl]; omega) 1 (by omega) (by omega)
    refine ⟨List.replicate 255 1597924800 ++ 1597925401 :: ts, t', inOrder_replicate _ _ _ ⟨by decide, g1⟩, ?_⟩
    rw [run_append E _ _ _ _ _ _ (fast 256 (by omega) (by omega)), runDifficulty]
    have hstep := (stepBy_cases E 1597924800 1597925401 (regular 256) (by decide)).2.1 (by decide)
    rw [easier_zero] at hstep
    rw [hstep, Outcome.ok_bind, g2, show 1 + (j - 1) = j by omega]

/-! ## C97 -/

/-- C97. Take `n + 1` consecutive blocks of a chain grown by emitting, with timestamps in order and `T` seconds between
the first and the last. Then one of them has a difficulty of at least `bits + n - 2 ⌊T / 600⌋` leading zero bits, where
`bits` are those of the first (or of all 256): many blocks in a short time can only be had by meeting ever higher
difficulties. -/
theorem C97_rate (E : Env) (s : Tree) (first n : Nat) (block : Nat → Block) (hr : RunWith E EmitOnly s)
    (hm : s.main.getHeight.val + 1 < 2 ^ 256) (hh : first + n < s.main.getHeight.val)
    (hb : ∀ i, i ≤ n → ∀ q : U256, q.val = first + i → s.main.findByHeight q = .ok (some (block i)))
    (ho : ∀ i, i < n → (block i).info.timestamp ≤ (block (i + 1)).info.timestamp) :
    ∃ i, i ≤ n ∧ min 256 (countLeadingZeros (block 0).info.difficulty.val + n -
        2 * (((block n).info.timestamp.toNat - (block 0).info.timestamp.toNat) / 600)) ≤
      countLeadingZeros (block i).info.difficulty.val := by
  obtain ⟨bs, h, hk, hM⟩ := emitOnly_linked hr hm
  have hlen : (genesis E :: bs).length = s.main.getHeight.val := h.len
  have heq : ∀ i (hi : i ≤ n), (genesis E :: bs)[first + i]'(by omega) = block i := by
    intro i hi
    have h1 := hb i hi ⟨first + i, by show first + i < 2 ^ 256; omega⟩ rfl
    rw [emitted_find h hM _ (by show first + i < _; omega)] at h1
    simpa using h1
  have hreach : ∀ i, i ≤ n → Reach (block i).info.difficulty := by
    intro i hi
    rw [← heq i hi]
    exact linked_reach (a := genesis E) reach_beginning hk _ (List.getElem_mem _)
  have hstep : ∀ i, i < n → recalculateDifficulty E (block i).info.timestamp (block (i + 1)).info.timestamp
      (block i).info.difficulty = .ok (block (i + 1)).info.difficulty := by
    intro i hi
    have := (hk.get (first + i) (by omega)).info.difficulty
    rw [heq i (by omega)] at this
    have e : (genesis E :: bs)[first + i + 1]'(by omega) = block (i + 1) := heq (i + 1) (by omega)
    rw [e] at this
    exact this
  by_cases hz : ∃ i, i ≤ n ∧ 256 ≤ countLeadingZeros (block i).info.difficulty.val
  · obtain ⟨i, h1, h2⟩ := hz
    exact ⟨i, h1, Nat.le_trans (Nat.min_le_left _ _) h2⟩
  · have hlt : ∀ i, i ≤ n → countLeadingZeros (block i).info.difficulty.val < 256 := fun i hi =>
      Nat.lt_of_not_le fun hc => hz ⟨i, hi, hc⟩
    -- among the first `m` steps `c` are not fast
    have key : ∀ m, m ≤ n → ∃ c, (block 0).info.timestamp.toNat + 600 * c ≤ (block m).info.timestamp.toNat ∧
        countLeadingZeros (block 0).info.difficulty.val + m ≤
          countLeadingZeros (block m).info.difficulty.val + 2 * c := by
      intro m
      induction m with
      | zero => intro _; exact ⟨0, by omega, by omega⟩
      | succ m ih =>
        intro hmn
        obtain ⟨c, h1, h2⟩ := ih (by omega)
        have hle := ho m (by omega)
        have hle' := UInt64.le_iff_toNat_le.mp hle
        obtain ⟨hl, hg, he⟩ := stepBy_cases E _ _ (block m).info.difficulty hle
        have hs := hstep m (by omega)
        have hm1 := hlt (m + 1) hmn
        rcases Nat.lt_trichotomy ((block (m + 1)).info.timestamp.toNat - (block m).info.timestamp.toNat) 600 with hd | hd | hd
        · rw [hl hd] at hs
          obtain ⟨d', g1, _, g3⟩ := reach_harder (hreach m (by omega))
          rw [hs] at g1; cases g1
          exact ⟨c, by omega, by omega⟩
        · rw [he hd] at hs
          rw [← Outcome.ok.inj hs]
          exact ⟨c + 1, by omega, by omega⟩
        · rw [hg hd] at hs
          obtain ⟨d', g1, _, g3⟩ := reach_easier E (hreach m (by omega))
          rw [hs] at g1; cases g1
          have := g3 (hlt m (by omega))
          exact ⟨c + 1, by omega, by omega⟩
    obtain ⟨c, h1, h2⟩ := key n (Nat.le_refl _)
    refine ⟨n, Nat.le_refl _, Nat.le_trans (Nat.min_le_right _ _) ?_⟩
    have : c ≤ ((block n).info.timestamp.toNat - (block 0).info.timestamp.toNat) / 600 :=
      (Nat.le_div_iff_mul_le (by omega)).mpr (by omega)
    omega

/-- The hypotheses are met: blocks 10 to 20 of a chain of 31 blocks, 600 seconds apart. -/
example : ∃ (s : Tree) (block : Nat → Block), RunWith zeroEnv EmitOnly s ∧ 10 + 10 < s.main.getHeight.val ∧
    (∀ i, i ≤ 10 → ∀ q : U256, q.val = 10 + i → s.main.findByHeight q = .ok (some (block i))) ∧
    ∀ i, i < 10 → (block i).info.timestamp ≤ (block (i + 1)).info.timestamp := by
  obtain ⟨s, _, h1, h2, _⟩ := steady 30 (by omega)
  have hm : s.main.getHeight.val + 1 < 2 ^ 256 := by
    rw [show s.main.getHeight.val = 31 from h2]; decide
  have hh : s.main.getHeight.val = 31 := h2
  obtain ⟨bs, h, hk, hM⟩ := emitOnly_linked h1 hm
  have hlen : (genesis zeroEnv :: bs).length = s.main.getHeight.val := h.len
  have hf : ∀ q : U256, q.val < 31 → s.main.findByHeight q = .ok (some ((genesis zeroEnv :: bs).getD q.val (genesis zeroEnv))) := by
    intro q hq
    rw [emitted_find h hM q (by omega), List.getD_eq_getElem?_getD, List.getElem?_eq_getElem (by omega)]; rfl
  refine ⟨s, fun i => (genesis zeroEnv :: bs).getD (10 + i) (genesis zeroEnv), h1, by omega, fun i hi q hq => ?_,
    fun i hi => ?_⟩
  · rw [hf q (by omega), hq]
  · exact C96_in_order_partial zeroEnv s ⟨10 + i, by show _ < 2 ^ 256; omega⟩ ⟨10 + (i + 1), by show _ < 2 ^ 256; omega⟩ _ _
      rfl h1 hm (by show 10 + i ≤ 10 + (i + 1); omega) (by show 10 + (i + 1) < _; omega)
      (hf ⟨10 + i, _⟩ (by show 10 + i < 31; omega)) (hf ⟨10 + (i + 1), _⟩ (by show 10 + (i + 1) < 31; omega))

end BCT.Props
