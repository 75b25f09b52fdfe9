import Verif.Props.Replica
import Verif.Props.Time
/-!
# C141: branches do not share work
-/

namespace BCT.Props
open BCT

/-- Two different stored blocks, one on either node, have the same hash. -/
def Collides (E : Env) (s t : Tree) : Prop := ∃ q q' x y, s.main.findRawByHeight q = some x ∧
  t.main.findRawByHeight q' = some y ∧ x ≠ y ∧ E.sha256 x = E.sha256 y

/-- What is hashed to prove the work of a block, with `root` for the Merkle root of its transactions (C22, C87). -/
def workBytes (root : Hash) (b : Block) : Bytes := b.info.previousHash.val ++ root.val ++ b.info.pow.val

/-- Below two blocks with the same predecessor hash there is the same chain. -/
theorem branch_below {E : Env} {s t : Tree} {l r : List Block} (h1 : Chain.Holds E s.main.chain l)
    (k1 : Chain.Holds E t.main.chain r) (h2 : HeaderLinked E l) (k2 : HeaderLinked E r) (hc : ¬ Collides E s t)
    {i j : Nat} (hi : i + 1 < l.length) (hj : j + 1 < r.length)
    (he : l[i + 1].info.previousHash = r[j + 1].info.previousHash) :
    i = j ∧ ∀ m (hml : m < l.length) (hmr : m < r.length), m ≤ i → l[m] = r[m] := by
  have raw : ∀ {u : Tree} {x : List Block}, Chain.Holds E u.main.chain x → ∀ n (hn : n < x.length),
      ∃ q : U256, q.val = n ∧ u.main.findRawByHeight q = some x[n].dump := by
    intro u x h n hn
    have hil : n < U256.size := by
      have := h.len; have := u.main.chain.height.lt; omega
    exact ⟨⟨n, hil⟩, rfl, by unfold MainChain.findRawByHeight; rw [h.findRaw, List.getElem?_eq_getElem hn]; rfl⟩
  have same : ∀ a b (ha : a < l.length) (hb : b < r.length), l[a].hash E = r[b].hash E → l[a] = r[b] := by
    intro a b ha hb e
    refine Classical.byContradiction fun hne => hc ?_
    obtain ⟨q, _, hq⟩ := raw h1 a ha
    obtain ⟨q', _, hq'⟩ := raw k1 b hb
    exact ⟨q, q', _, _, hq, hq', fun hd => hne (Block.dump_inj hd), e⟩
  have e0 : l[i] = r[j] := by
    apply same
    rw [← (h2.get i hi).link, ← (k2.get j hj).link, he]
  have hij : i = j := by
    rw [← h1.heights i (by omega), ← k1.heights j (by omega), e0]
  subst hij
  refine ⟨rfl, fun m hml hmr hm => ?_⟩
  obtain ⟨d, hd⟩ : ∃ d, m + d = i := ⟨i - m, by omega⟩
  induction d generalizing m with
  | zero => obtain rfl : m = i := by omega
            exact e0
  | succ d ih =>
    have e1 := ih (m + 1) (by omega) (by omega) (by omega) (by omega)
    apply same
    rw [← (h2.get m (by omega)).link, ← (k2.get m (by omega)).link, e1]

/-- C141. Take two nodes that emit their blocks or validate those they are handed, and that store no two blocks with the
same hash. If the proof of work of a block of one node is that of a block of the other, whatever the transactions, then
both blocks are at the same height and everything below them is the same. -/
theorem C141_work_binds (E : Env) (s t : Tree) (hs : Careful E s) (ht : Careful E t)
    (hms : s.main.getHeight.val + 1 < 2 ^ 256) (hmt : t.main.getHeight.val + 1 < 2 ^ 256) (hc : ¬ Collides E s t)
    (q q' : U256) (a b : Block) (root root' : Hash) (hq : 0 < q.val) (hq' : 0 < q'.val)
    (ha : s.main.findByHeight q = .ok (some a)) (hb : t.main.findByHeight q' = .ok (some b))
    (hw : workBytes root a = workBytes root' b) :
    q = q' ∧ ∀ p : U256, p.val < q.val → s.main.findByHeight p = t.main.findByHeight p := by
  obtain ⟨bs, h1, h2, h3⟩ := careful_linked hs hms
  obtain ⟨cs, k1, k2, k3⟩ := careful_linked ht hmt
  have inside : ∀ {u : Tree} {l : List Block} {x : U256} {c : Block}, Chain.Holds E u.main.chain (genesis E :: l) →
      (∀ b ∈ l, b.IsMain) → u.main.findByHeight x = .ok (some c) →
      ∃ h : x.val < (genesis E :: l).length, (genesis E :: l)[x.val] = c := by
    intro u l x c h hM hf
    by_cases hx : x.val < (genesis E :: l).length
    · rw [emitted_find h hM x hx] at hf
      cases hf
      exact ⟨hx, rfl⟩
    · unfold MainChain.findByHeight MainChain.findRawByHeight at hf
      rw [h.findRaw, List.getElem?_eq_none (by omega)] at hf
      cases hf
  obtain ⟨ha1, ha2⟩ := inside h1 h3 ha
  obtain ⟨hb1, hb2⟩ := inside k1 k3 hb
  have hp : a.info.previousHash = b.info.previousHash := by
    unfold workBytes at hw
    rw [List.append_assoc, List.append_assoc] at hw
    exact Subtype.ext (List.append_inj hw (by rw [a.info.previousHash.2, b.info.previousHash.2])).1
  obtain ⟨i, hi⟩ : ∃ i, q.val = i + 1 := ⟨q.val - 1, by omega⟩
  obtain ⟨j, hj⟩ : ∃ j, q'.val = j + 1 := ⟨q'.val - 1, by omega⟩
  simp only [hi] at ha1 ha2
  simp only [hj] at hb1 hb2
  obtain ⟨rfl, key⟩ := branch_below h1 k1 h2 k2 hc ha1 hb1 (by rw [ha2, hb2, hp])
  refine ⟨U256.ext (by omega), fun p hp => ?_⟩
  rw [emitted_find h1 h3 p (by omega), emitted_find k1 k3 p (by omega), key p.val (by omega) (by omega) (by omega)]

/-- C141, for branches: above the first height at which two such nodes differ no work is shared, neither at the same
height nor at different ones. -/
theorem C141_branches (E : Env) (s t : Tree) (hs : Careful E s) (ht : Careful E t)
    (hms : s.main.getHeight.val + 1 < 2 ^ 256) (hmt : t.main.getHeight.val + 1 < 2 ^ 256) (hc : ¬ Collides E s t)
    (p q q' : U256) (a b : Block) (root root' : Hash) (hp : s.main.findByHeight p ≠ t.main.findByHeight p)
    (hq : p.val < q.val) (hq' : 0 < q'.val) (ha : s.main.findByHeight q = .ok (some a))
    (hb : t.main.findByHeight q' = .ok (some b)) : workBytes root a ≠ workBytes root' b := fun hw =>
  hp ((C141_work_binds E s t hs ht hms hmt hc q q' a b root root' (by omega) hq' ha hb hw).2 p hq)

/-! ### A case -/

/-- A digest that is the timestamp of the main chain's blocks, after 24 zeros. -/
def stampEnv : Env :=
  ⟨fun x => ⟨List.replicate 24 0 ++ ((x.drop 33).take 8 ++ List.replicate 8 0).take 8, by simp⟩, true⟩

theorem stamp_block {b : Block} (h : b.IsMain) :
    (stampEnv.sha256 b.dump).val = List.replicate 24 0 ++ u64BE b.info.timestamp := by
  have key : ∀ (x : UInt8) (root rest : Bytes) (ts : UInt64), root.length = 32 →
      (stampEnv.sha256 (x :: (root ++ (u64BE ts ++ rest)))).val = List.replicate 24 0 ++ u64BE ts := by
    intro x root rest ts hr
    show List.replicate 24 0 ++ _ = _
    congr 1
    rw [show (33 : Nat) = 32 + 1 from rfl, List.drop_succ_cons, ← hr, List.drop_left, ← u64BE_length ts, List.take_left,
      List.take_left]
  cases b with
  | transaction b =>
    show (stampEnv.sha256 b.dump).val = _
    rw [TransactionBlock.dump_eq, BasicInfo.fixed]
    simp only [List.append_assoc]
    exact key _ _ _ _ b.merkleTreeRoot.2
  | summarize b =>
    show (stampEnv.sha256 b.dump).val = _
    rw [SummarizeBlock.dump_eq, BasicInfo.fixed]
    simp only [List.append_assoc]
    exact key _ _ _ _ b.merkleTreeRoot.2
  | derivative b => exact absurd h id

theorem stamp_clz (x : Bytes) : 192 ≤ countLeadingZeros (stampEnv.sha256 x).val := by
  have : ∀ n (l : Bytes), 8 * n ≤ countLeadingZeros (List.replicate n 0 ++ l) := by
    intro n l
    induction n with
    | zero => omega
    | succ n ih =>
      rw [List.replicate_succ, List.cons_append, countLeadingZeros]
      simp [u8LeadingZeros]; omega
  exact this 24 _

/-- Emitting on top of a block whose difficulty has at most 192 leading zero bits. -/
theorem stamp_emit {s : Tree} {last : Block} (hr : RunWith stampEnv EmitOnly s) (hm : s.main.getHeight.val < 1000000)
    (hp : 0 < s.main.getHeight.val) (hl : s.main.getLastBlock = .ok (some last))
    (hd : last.info.difficulty = BEGINNING_DIFFICULTY) (ts : UInt64)
    (hts : last.info.timestamp.toNat + 600 ≤ ts.toNat) :
    ∃ t b, RunWith stampEnv EmitOnly t ∧ t.main.getHeight.val = s.main.getHeight.val + 1 ∧
      t.main.getLastBlock = .ok (some b) ∧ b.info.difficulty = BEGINNING_DIFFICULTY ∧ b.info.timestamp = ts ∧
      (∀ l, Chain.Holds stampEnv s.main.chain (genesis stampEnv :: l) → (∀ x ∈ l, x.IsMain) →
        Chain.Holds stampEnv t.main.chain (genesis stampEnv :: (l ++ [b])) ∧ ∀ x ∈ l ++ [b], x.IsMain) := by
  have hm' : s.main.getHeight.val + 1 < 2 ^ 256 := Nat.lt_trans (show s.main.getHeight.val + 1 < 2000000 by omega) (by decide)
  have hle : last.info.timestamp ≤ ts := UInt64.le_iff_toNat_le.mpr (by omega)
  have hpow : checkPow stampEnv (stampEnv.sha256 last.dump) last.info.difficulty [BytesN.fill 32 5] (BytesN.fill 32 0).val =
      .ok true := by
    unfold checkPow
    rw [merkleRoot_eq, Outcome.ok_bind]
    show Outcome.ok (decide (_ ≤ _)) = _
    rw [hd, ← regular_one, clz_regular ⟨1, by omega⟩]
    exact congrArg Outcome.ok (decide_eq_true (Nat.le_trans (show 1 ≤ 192 by decide) (stamp_clz _)))
  obtain ⟨b, k1, k2, k3⟩ := ((C40_exact_partial stampEnv s last (BytesN.fill 32 0) ROOT_PUBLIC_ADDRESS [BytesN.fill 32 5] ts hr
    hm' hl (.inl hle)).2 ((checkPow_iff ..).mp hpow)).2.2 (by rw [Nat.mod_eq_of_lt hm]; simp; omega)
  obtain ⟨bs, h, _, hM⟩ := emitOnly_linked hr hm'
  obtain ⟨last', g1, _, g3, _, _, _, _, g8, _⟩ := emitted_next h hm' k1
  have : last' = last := by rw [hl] at g1; cases g1; rfl
  subst this
  have hd' := g3.info.difficulty
  have hstep : recalculateDifficulty stampEnv last'.info.timestamp ts last'.info.difficulty = .ok BEGINNING_DIFFICULTY := by
    obtain ⟨_, c2, c3⟩ := stepBy_cases stampEnv last'.info.timestamp ts last'.info.difficulty hle
    rcases Nat.eq_or_lt_of_le hts with e | e
    · rw [c3 (by omega), hd]
    · rw [c2 (by omega), hd, ← regular_one]; exact easier_regular stampEnv 1 (by omega) (by omega)
  rw [g8, hstep] at hd'
  refine ⟨_, b, .call s (Op.emitMain (BytesN.fill 32 0) ROOT_PUBLIC_ADDRESS [BytesN.fill 32 5] ts) hr trivial, k3, k2,
    (Outcome.ok.inj hd').symm, g8, fun l hh hl => ?_⟩
  obtain ⟨_, _, _, _, g4, _, g6, _⟩ := emitted_next hh hm' k1
  refine ⟨g4, fun x hx => ?_⟩
  rcases List.mem_append.mp hx with hx | hx
  · exact hl x hx
  · rw [List.mem_singleton.mp hx]; exact g6

/-- The hypotheses are met: two nodes with three blocks each that differ at height 1, no two of their blocks with the same
hash. -/
example : ∃ (s t : Tree) (p q : U256) (a b : Block), Careful stampEnv s ∧ Careful stampEnv t ∧
    s.main.getHeight.val = 3 ∧ t.main.getHeight.val = 3 ∧ ¬ Collides stampEnv s t ∧ p.val = 1 ∧ q.val = 2 ∧
    s.main.findByHeight p ≠ t.main.findByHeight p ∧ s.main.findByHeight q = .ok (some a) ∧
    t.main.findByHeight q = .ok (some b) := by
  have careful : ∀ {u}, RunWith stampEnv EmitOnly u → Careful stampEnv u := fun h => by
    induction h with
    | fresh => exact .fresh
    | call s op _ ha ih => exact .call s op ih ha
  obtain ⟨f, _, h2, h3, ⟨g, _, h4, h5⟩, _⟩ := C37_fresh_node stampEnv
  have hr : RunWith stampEnv EmitOnly f := by subst h2; exact .fresh
  have hh : f.main.getHeight.val = 1 := h3
  have hm : f.main.getHeight.val + 1 < 2 ^ 256 := by rw [hh]; decide
  have hgd : (Block.summarize g).info.difficulty = BEGINNING_DIFFICULTY := by simp only [Block.info, h5]; rfl
  have hgt : (Block.summarize g).info.timestamp = 1597924800 := by simp [Block.info, h5]
  obtain ⟨bs, h, _, hM⟩ := emitOnly_linked hr hm
  have hbs : bs = [] := by
    have := h.len.trans hh
    exact List.length_eq_zero_iff.mp (by simpa using this)
  subst hbs
  have two : ∀ ts ts' : UInt64, 1597925400 ≤ ts.toNat → ts.toNat + 600 ≤ ts'.toNat → ∃ u a b, RunWith stampEnv EmitOnly u ∧
      u.main.getHeight.val = 3 ∧ a.info.timestamp = ts ∧ b.info.timestamp = ts' ∧
      Chain.Holds stampEnv u.main.chain [genesis stampEnv, a, b] ∧ (∀ x ∈ [a, b], x.IsMain) := by
    intro ts ts' ht ht'
    obtain ⟨v, a, v1, v2, v3, v4, v5, v6⟩ := stamp_emit hr (by omega) (by omega) h4 hgd ts (by rw [hgt]; exact ht)
    obtain ⟨u, b, u1, u2, u3, u4, u5, u6⟩ := stamp_emit v1 (by omega) (by omega) v3 v4 ts' (by rw [v5]; exact ht')
    obtain ⟨w1, w2⟩ := v6 [] h hM
    obtain ⟨x1, x2⟩ := u6 _ w1 w2
    exact ⟨u, a, b, u1, by omega, v5, u5, x1, x2⟩
  obtain ⟨s, a, b, s1, s2, s3, s4, s5, s6⟩ := two 1597925400 1597926000 (by decide) (by decide)
  obtain ⟨t, c, d, t1, t2, t3, t4, t5, t6⟩ := two 1597925401 1597926001 (by decide) (by decide)
  have hg : (genesis stampEnv).info.timestamp = 1597924800 := rfl
  refine ⟨s, t, ⟨1, by decide⟩, ⟨2, by decide⟩, b, d, careful s1, careful t1, s2, t2, ?_, rfl, rfl, ?_,
    emitted_find s5 s6 ⟨2, by decide⟩ (show 2 < 3 by decide), emitted_find t5 t6 ⟨2, by decide⟩ (show 2 < 3 by decide)⟩
  · rintro ⟨q, q', x, y, e1, e2, hne, he⟩
    unfold MainChain.findRawByHeight at e1 e2
    rw [s5.findRaw] at e1
    rw [t5.findRaw] at e2
    obtain ⟨bx, hbx, rfl⟩ := Option.map_eq_some_iff.mp e1
    obtain ⟨by', hby, rfl⟩ := Option.map_eq_some_iff.mp e2
    have mx : bx ∈ [genesis stampEnv, a, b] := List.mem_of_getElem? hbx
    have my : by' ∈ [genesis stampEnv, c, d] := List.mem_of_getElem? hby
    have ix : bx.IsMain := by
      rcases List.mem_cons.mp mx with rfl | mx
      · trivial
      · exact s6 bx mx
    have iy : by'.IsMain := by
      rcases List.mem_cons.mp my with rfl | my
      · trivial
      · exact t6 by' my
    have := congrArg Subtype.val he
    rw [stamp_block ix, stamp_block iy] at this
    have hts := u64BE_inj (List.append_cancel_left this)
    simp only [List.mem_cons, List.not_mem_nil, or_false] at mx my
    rcases mx with rfl | rfl | rfl <;> rcases my with rfl | rfl | rfl <;>
      first
        | exact hne rfl
        | (simp only [hg, s3, s4, t3, t4] at hts; revert hts; decide)
  · rw [emitted_find s5 s6 ⟨1, by decide⟩ (show 1 < 3 by decide), emitted_find t5 t6 ⟨1, by decide⟩ (show 1 < 3 by decide)]
    intro e
    have e := Option.some.inj (Outcome.ok.inj e)
    have : a.info.timestamp = c.info.timestamp := congrArg (fun z : Block => z.info.timestamp) e
    rw [s3, t3] at this
    revert this; decide

end BCT.Props
