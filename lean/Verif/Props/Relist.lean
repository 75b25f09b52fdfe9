import Verif.Props.Future
import Verif.Props.Light
/-!
# C145: a transaction is listed by one block
-/

namespace BCT.Props
open BCT

/-- C145 at full strength: no two blocks of a chain list the same transaction. -/
def C145_full : Prop := ∀ (E : Env) (s : Tree) (q q' : U256) (b b' : TransactionBlock) (x : Hash),
  RunWith E EmitOnly s → s.main.getHeight.val + 1 < 2 ^ 256 →
  s.main.findByHeight q = .ok (some (.transaction b)) → s.main.findByHeight q' = .ok (some (.transaction b')) →
  x ∈ b.transactions → x ∈ b'.transactions → q = q'

/-- C145 is false of the code: whatever list of transactions a block has, the next block may have the same list, if only a
nonce fits; then both are stored and list them. -/
theorem C145_refuted :
    (∀ (E : Env) (s u v : Tree) (b : TransactionBlock) (pow pow' : BytesN 32) (founder founder' : Address) (txs : List Hash)
      (ts now : UInt64), RunWith E EmitOnly s → s.main.getHeight.val + 2 < 2 ^ 256 →
      (Tree.emitMain E pow founder txs ts s).out = .ok (.transaction b) →
      u = (Tree.emitMain E pow founder txs ts s).final → u.main.getHeight.val % 1000000 ≠ 0 → ts ≤ now →
      MeetsPow E (E.sha256 (Block.transaction b).dump) b.defaultInfo.difficulty txs pow'.val →
      v = (Tree.emitMain E pow' founder' txs now u).final →
      ∃ b', (Tree.emitMain E pow' founder' txs now u).out = .ok (.transaction b') ∧
        b.transactions = txs ∧ b'.transactions = txs ∧
        v.main.findByHeight s.main.getHeight = .ok (some (.transaction b)) ∧
        v.main.findByHeight u.main.getHeight = .ok (some (.transaction b')) ∧ s.main.getHeight ≠ u.main.getHeight) ∧
    ¬ C145_full := by
  have key : ∀ (E : Env) (s u v : Tree) (b : TransactionBlock) (pow pow' : BytesN 32) (founder founder' : Address)
      (txs : List Hash) (ts now : UInt64), RunWith E EmitOnly s → s.main.getHeight.val + 2 < 2 ^ 256 →
      (Tree.emitMain E pow founder txs ts s).out = .ok (.transaction b) →
      u = (Tree.emitMain E pow founder txs ts s).final → u.main.getHeight.val % 1000000 ≠ 0 → ts ≤ now →
      MeetsPow E (E.sha256 (Block.transaction b).dump) b.defaultInfo.difficulty txs pow'.val →
      v = (Tree.emitMain E pow' founder' txs now u).final →
      ∃ b', (Tree.emitMain E pow' founder' txs now u).out = .ok (.transaction b') ∧
        b.transactions = txs ∧ b'.transactions = txs ∧
        v.main.findByHeight s.main.getHeight = .ok (some (.transaction b)) ∧
        v.main.findByHeight u.main.getHeight = .ok (some (.transaction b')) ∧ s.main.getHeight ≠ u.main.getHeight := by
    intro E s u v b pow pow' founder founder' txs ts now hr hm ho hu he hnow hw hv
    have hm1 : s.main.chain.height.val + 1 < U256.size := by
      have : s.main.getHeight.val + 2 < U256.size := hm
      show s.main.getHeight.val + 1 < _; omega
    obtain ⟨bs, h, _, hM⟩ := emitOnly_linked hr hm1
    obtain ⟨_, _, _, kn, k4, khe, k5, _, _, _, _, ktx⟩ := emitted_next h hm1 ho
    have hbt : b.transactions = txs := ktx
    have hne : txs ≠ [] := by
      rw [← hbt]
      by_cases h0 : (Block.transaction b).info.height.val % BLOCKS_PER_EPOCH = 0
      · obtain ⟨x, hx⟩ := kn.epoch h0; cases hx
      · obtain ⟨x, hx, k1, _⟩ := kn.other h0; cases hx; exact k1
    have hru : RunWith E EmitOnly u := hu ▸ .call s (.emitMain pow founder txs ts) hr trivial
    rw [← hu] at k4
    have hlen : (genesis E :: bs).length = s.main.getHeight.val := h.len
    have hhu : u.main.getHeight.val = s.main.getHeight.val + 1 := by
      have := k4.len
      rw [List.length_append, hlen] at this
      exact this.symm
    have hmu : u.main.chain.height.val + 1 < U256.size := by
      have : s.main.getHeight.val + 2 < U256.size := hm
      show u.main.getHeight.val + 1 < _
      omega
    obtain ⟨b', hb', _⟩ := C144_next_partial E s u (.transaction b) pow pow' founder founder' txs txs ts now hr hm ho hu
      (.inl hnow) hw ⟨fun h => absurd h he, fun h => absurd h hne⟩
    have k4' : Chain.Holds E u.main.chain (genesis E :: (bs ++ [.transaction b])) := k4
    obtain ⟨_, _, _, jn, j4, jhe, j5, _, _, _, _, jtx⟩ := emitted_next k4' hmu hb'
    obtain ⟨x, rfl, _⟩ := jn.other (by
      rw [jhe]; exact he)
    have hM' : ∀ a ∈ bs ++ [Block.transaction b] ++ [Block.transaction x], a.IsMain := by
      intro a ha
      simp only [List.mem_append, List.mem_singleton, or_assoc] at ha
      rcases ha with ha | rfl | rfl
      · exact hM a ha
      · exact k5
      · exact j5
    have j4' : Chain.Holds E (Tree.emitMain E pow' founder' txs now u).final.main.chain
        (genesis E :: (bs ++ [Block.transaction b] ++ [Block.transaction x])) := j4
    have at1 : (genesis E :: (bs ++ [Block.transaction b] ++ [Block.transaction x]))[s.main.getHeight.val]? =
        some (.transaction b) := by
      show (((genesis E :: bs) ++ [Block.transaction b]) ++ [Block.transaction x])[s.main.getHeight.val]? = _
      rw [List.getElem?_append_left (by rw [List.length_append, hlen]; simp), ← hlen, List.getElem?_concat_length]
    have at2 : (genesis E :: (bs ++ [Block.transaction b] ++ [Block.transaction x]))[u.main.getHeight.val]? =
        some (.transaction x) := by
      show (((genesis E :: bs) ++ [Block.transaction b]) ++ [Block.transaction x])[u.main.getHeight.val]? = _
      rw [hhu, show s.main.getHeight.val + 1 = ((genesis E :: bs) ++ [Block.transaction b]).length by
        rw [List.length_append, hlen]; rfl, List.getElem?_concat_length]
    have find : ∀ {p : U256} {y : Block},
        (genesis E :: (bs ++ [Block.transaction b] ++ [Block.transaction x]))[p.val]? = some y →
        v.main.findByHeight p = .ok (some y) := by
      intro p y hy
      obtain ⟨hp, e⟩ := List.getElem?_eq_some_iff.mp hy
      rw [hv, emitted_find j4' hM' p hp, e]
    refine ⟨x, hb', hbt, jtx, find at1, find at2, ?_⟩
    intro e
    rw [← e] at hhu; omega
  refine ⟨key, fun hf => ?_⟩
  obtain ⟨t, _, h2, h3, ⟨g, _, h4, h5⟩, _⟩ := C37_fresh_node zeroEnv
  have hr : RunWith zeroEnv EmitOnly t := h2 ▸ .fresh
  have hm : t.main.getHeight.val + 2 < 2 ^ 256 := by rw [h3]; decide
  obtain ⟨b, hb, hbt⟩ := C85_refuted.1 zeroEnv t _ (BytesN.fill 32 0) ROOT_PUBLIC_ADDRESS [BytesN.fill 32 5]
    1597924800 hr (by rw [h3]; decide) (by rw [h3]; decide) (by simp) h4 (by simp only [Block.info, h5]; decide)
    ((checkPow_iff ..).mp (checkPow_zero ..))
  have grows : ∀ {s : Tree} {txs : List Hash} {ts : UInt64} {b : Block} {n : Nat}, RunWith zeroEnv EmitOnly s →
      s.main.getHeight.val = n → n < 1000 →
      (Tree.emitMain zeroEnv (BytesN.fill 32 0) ROOT_PUBLIC_ADDRESS txs ts s).out = .ok b →
      (Tree.emitMain zeroEnv (BytesN.fill 32 0) ROOT_PUBLIC_ADDRESS txs ts s).final.main.getHeight.val = n + 1 := by
    intro s txs ts b n hs hn hlt ho
    have hbig : (1000 : Nat) + 1 < U256.size := by decide
    have hms : s.main.chain.height.val + 1 < U256.size := by
      have : s.main.chain.height.val = n := hn
      omega
    obtain ⟨bs, h⟩ := run_holds (runWith_run hs) hms
    obtain ⟨_, _, _, _, k4, _⟩ := emitted_next h hms ho
    have := k4.len
    have hl : (genesis zeroEnv :: bs).length = s.main.getHeight.val := h.len
    rw [List.length_append, hl, hn] at this
    exact this.symm
  have hu := grows hr h3 (by decide) hb
  have hru : RunWith zeroEnv EmitOnly (Tree.emitMain zeroEnv (BytesN.fill 32 0) ROOT_PUBLIC_ADDRESS [BytesN.fill 32 5]
    1597924800 t).final := .call t (.emitMain _ _ _ _) hr trivial
  obtain ⟨b', e1, e2, e3, e4, e5, e6⟩ := key zeroEnv t _ _ b (BytesN.fill 32 0) (BytesN.fill 32 0) ROOT_PUBLIC_ADDRESS
    ROOT_PUBLIC_ADDRESS [BytesN.fill 32 5] 1597924800 1597924800 hr hm hb rfl (by rw [hu]; decide) (by decide)
    ((checkPow_iff ..).mp (checkPow_zero ..)) rfl
  have hv := grows hru hu (by decide) e1
  refine e6 (hf zeroEnv _ _ _ b b' (BytesN.fill 32 5) (.call _ (.emitMain _ _ _ _) hru trivial) ?_ e4 e5
    (by rw [e2]; simp) (by rw [e3]; simp))
  show (Tree.emitMain _ _ _ _ _ _).final.main.getHeight.val + 1 < _
  rw [hv]; decide

/-- C145, what holds: being listed again does nothing. A block that lists transactions leaves every balance, all gas and the
store of transactions as they were, so a transaction that is listed twice has been paid once. Missing: that it is listed
once (`C145_refuted`). -/
theorem C145_no_effect_partial (E : Env) (s : Tree) (pow : BytesN 32) (founder : Address) (txs : List Hash) (ts : UInt64)
    (b : TransactionBlock) (hr : Run E s) (hm : s.main.getHeight.val + 1 < 2 ^ 256)
    (ho : (Tree.emitMain E pow founder txs ts s).out = .ok (.transaction b)) :
    let t := (Tree.emitMain E pow founder txs ts s).final
    (∀ o, t.getAmount o = s.getAmount o) ∧ (∀ o, t.getGas o = s.getGas o) ∧
    (∀ o, t.oldSummary.get o = s.oldSummary.get o) ∧ (∀ o, t.oldGas.get o = s.oldGas.get o) ∧
    (∀ x, t.main.getTransactionRaw x = s.main.getTransactionRaw x) := by
  obtain ⟨bs, h⟩ := run_holds hr hm
  rcases emitMain_cases h hm pow founder txs ts with ⟨out, h1, h2, _⟩ | ⟨l, r, b', s0, c, tr, _, _, _, _, _, _, k7, _, _, _, k11⟩
  · rw [h2] at ho; exact absurd ho (h1 _)
  · rw [k7] at ho ⊢
    simp only [Outcome.ok.injEq] at ho
    rcases k11 with ⟨_, _, hb, hs0⟩ | ⟨_, _, hb, _⟩
    · subst hs0
      exact ⟨fun _ => rfl, fun _ => rfl, fun _ => rfl, fun _ => rfl, fun _ => rfl⟩
    · rw [hb] at ho; cases ho

/-- The hypotheses are met by a fresh node. -/
example : ∃ (s : Tree) (b : TransactionBlock), Run zeroEnv s ∧ s.main.getHeight.val + 1 < 2 ^ 256 ∧
    (Tree.emitMain zeroEnv (BytesN.fill 32 0) ROOT_PUBLIC_ADDRESS [BytesN.fill 32 5] 1597924800 s).out =
      .ok (.transaction b) := by
  obtain ⟨t, _, h2, h3, ⟨g, _, h4, h5⟩, _⟩ := C37_fresh_node zeroEnv
  have hr : RunWith zeroEnv EmitOnly t := h2 ▸ .fresh
  obtain ⟨b, hb, _⟩ := C85_refuted.1 zeroEnv t _ (BytesN.fill 32 0) ROOT_PUBLIC_ADDRESS [BytesN.fill 32 5]
    1597924800 hr (by rw [h3]; decide) (by rw [h3]; decide) (by simp) h4 (by simp only [Block.info, h5]; decide)
    ((checkPow_iff ..).mp (checkPow_zero ..))
  exact ⟨t, b, runWith_run hr, by rw [h3]; decide, hb⟩

end BCT.Props
