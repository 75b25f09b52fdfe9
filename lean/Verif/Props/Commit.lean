import Verif.Props.Emit
/-!
# C82, C83: what commitments and proofs depend on (blockchaintree.rs `summarize`, merkletree.rs `get_proof`)
-/

namespace BCT.Props
open BCT

/-! ## C82 -/

/-- C82 at full strength: nodes on which every address holds the same coins and the same gas commit to the same
root. -/
def C82_full : Prop := ∀ (E : Env) (s t : Tree) (f g : Spec.Accounts), Run E s → Run E t →
  Shows s.summary f → Shows t.summary f → Shows s.gas g → Shows t.gas g → s.summarize E = t.summarize E

theorem get_of_shows {d d' : Db} {f : Spec.Accounts} (hd : d.cur.Dec) (hd' : d'.cur.Dec) (h : Shows d f)
    (h' : Shows d' f) (k : Bytes) (hk : (d.get k).isSome = (d'.get k).isSome) : d.get k = d'.get k := by
  obtain ⟨a, ha1, ha2⟩ := h k
  obtain ⟨b, hb1, hb2⟩ := h' k
  have hab : a = b := U256.ext (by omega)
  subst hab
  cases hx : d.get k with
  | none =>
    rw [hx] at hk
    cases hy : d'.get k with
    | none => rfl
    | some y => rw [hy] at hk; cases hk
  | some x =>
    rw [hx] at hk ha1
    cases hy : d'.get k with
    | none => rw [hy] at hk; cases hk
    | some y =>
      rw [hy] at hb1
      obtain ⟨x', rfl⟩ := hd k x hx
      obtain ⟨y', rfl⟩ := hd' k y hy
      rw [Ledger.balance_encode] at ha1 hb1
      cases ha1; cases hb1; rfl

/-- C82, what holds: equal balances give equal roots when the same addresses have an entry in the coin database
and, among these, the same ones have an entry in the gas database. Nothing else of the node's history matters.
Missing: addresses whose entry is an explicit zero on one node only (`C82_refuted`). -/
theorem C82_balances_partial (E : Env) (s t : Tree) (f g : Spec.Accounts) (hs : Run E s) (ht : Run E t)
    (hsf : Shows s.summary f) (htf : Shows t.summary f) (hsg : Shows s.gas g) (htg : Shows t.gas g)
    (hc : ∀ k, (s.summary.get k).isSome = (t.summary.get k).isSome)
    (hg : ∀ k, (s.summary.get k).isSome → (s.gas.get k).isSome = (t.gas.get k).isSome) :
    s.summarize E = t.summarize E := by
  have is := run_storeInv hs
  have it := run_storeInv ht
  have h1 : s.summary.cur = t.summary.cur := KV.ext_get fun k =>
    get_of_shows is.summary.1 it.summary.1 hsf htf k (hc k)
  rw [summarize_eq, summarize_eq]
  have : s.summaryLeaves = t.summaryLeaves := by
    unfold Tree.summaryLeaves
    rw [← h1]
    refine List.map_congr_left fun e he => ?_
    have hk : s.summary.get e.1 = some e.2 := KV.mem_entries.mp he
    rw [get_of_shows is.gas.1 it.gas.1 hsg htg e.1 (hg e.1 (by rw [hk]; rfl))]
  rw [this]

/-- A digest that tells a one-account summary from a two-account one. -/
def padEnv : Env where
  sha256 b := if h : b.length = 32 then if b = List.replicate 32 255 then BytesN.fill 32 0 else ⟨b, h⟩ else BytesN.fill 32 1
  overflowChecks := true

/-- Depositing nothing on an unknown address leaves every balance alone and adds an account to the summary. -/
theorem zero_deposit (E : Env) (s : Tree) (k : Bytes) (hr : Run E s) (hk : s.summary.get k = none) :
    ∃ t, ((Op.addAmount k U256.zero).run E s).final = t ∧ ((Op.addAmount k U256.zero).run E s).out = .ok () ∧ Run E t ∧
      (∀ f, Shows s.summary f → Shows t.summary f) ∧ t.gas = s.gas ∧
      t.summaryLeaves.length = s.summaryLeaves.length + 1 := by
  have hi := run_storeInv hr
  have hrun : (Op.addAmount k U256.zero).run E s =
      ⟨.ok (), { s with summary := s.summary.insert k (Ledger.encode U256.zero) },
        [{ s with summary := s.summary.insert k (Ledger.encode U256.zero) }]⟩ := by
    show Tree.onSummary (Ledger.add k U256.zero) s = _
    have hz : s.summary.cur.get k = none := hk
    have hcl : Ledger.addClosure k U256.zero s.summary.cur = .ok (s.summary.cur.insert k (Ledger.encode U256.zero)) := by
      unfold Ledger.addClosure
      rw [hz]; rfl
    unfold Tree.onSummary Ledger.add
    rw [Act.zoom_run, Ledger.transact_ok hcl]
    rfl
  refine ⟨_, rfl, by rw [hrun], .call s _ hr trivial, fun f hf => ?_, by rw [hrun], ?_⟩
  · rw [hrun]
    refine shows_of (hi.summary.1.insert k _) fun q => ?_
    rw [shows_eq hf]
    show _ = ((s.summary.cur.insert k (Ledger.encode U256.zero)).amt q).val
    rw [KV.amt_insert]
    split
    · rename_i h; subst h
      show (s.summary.cur.amt k).val = 0
      rw [KV.amt_get, show s.summary.cur.get k = none from hk]; rfl
    · rfl
  · rw [hrun]
    unfold Tree.summaryLeaves
    rw [List.length_map, List.length_map]
    show (insertSorted k _ s.summary.cur.entries).length = _
    have : lookup k s.summary.cur.entries = none := hk
    revert this
    generalize s.summary.cur.entries = l
    intro h
    induction l with
    | nil => rfl
    | cons e l ih =>
      simp only [lookup] at h
      split at h
      · cases h
      · rename_i hne
        simp only [insertSorted]
        rw [if_neg (Ne.symm hne)]
        split
        · rfl
        · simp [ih h]

/-- C82 is false of the code: on every node, whatever its history, depositing nothing on an address without an entry
changes no balance but adds a leaf to the summary. -/
theorem C82_refuted : (∀ (E : Env) (s : Tree) (k : Bytes), Run E s → s.summary.get k = none →
      ∃ t, ((Op.addAmount k U256.zero).run E s).final = t ∧ ((Op.addAmount k U256.zero).run E s).out = .ok () ∧ Run E t ∧
        (∀ f, Shows s.summary f → Shows t.summary f) ∧ t.gas = s.gas ∧
        t.summaryLeaves.length = s.summaryLeaves.length + 1) ∧ ¬ C82_full := by
  refine ⟨zero_deposit, fun hf => ?_⟩
  obtain ⟨s, hs⟩ : ∃ s, s = (openTree padEnv Disk.empty).final := ⟨_, rfl⟩
  have hr : Run padEnv s := hs ▸ .fresh
  obtain ⟨t, ht, _, hrt, hsh, hgas, _⟩ := zero_deposit padEnv s exA hr (by
    rw [hs, (openTree_fresh padEnv).2]; decide +kernel)
  have hi := run_storeInv hr
  have := hf padEnv s t _ _ hr hrt (shows_amt hi.summary.1) (hsh _ (shows_amt hi.summary.1)) (shows_amt hi.gas.1)
    (by rw [hgas]; exact shows_amt hi.gas.1)
  rw [← ht, hs, (openTree_fresh padEnv).2] at this
  revert this
  decide +kernel

/-- The hypotheses are met by two different histories: two deposits against one, with different contents otherwise. -/
example : ∃ s t, Run padEnv s ∧ Run padEnv t ∧ s.summary.cur = t.summary.cur ∧ s.gas.cur = t.gas.cur ∧
    s.summary.recov ≠ t.summary.recov ∧ s.summarize padEnv = t.summarize padEnv := by
  obtain ⟨o, ho⟩ : ∃ o, o = (openTree padEnv Disk.empty).final := ⟨_, rfl⟩
  have hr : Run padEnv o := ho ▸ .fresh
  obtain ⟨s1, hs1⟩ : ∃ x, x = ((Op.addAmount exA (U256.ofNat 2)).run padEnv o).final := ⟨_, rfl⟩
  obtain ⟨s, hs⟩ : ∃ x, x = ((Op.addAmount exA (U256.ofNat 3)).run padEnv s1).final := ⟨_, rfl⟩
  obtain ⟨t, ht⟩ : ∃ x, x = ((Op.addAmount exA (U256.ofNat 5)).run padEnv o).final := ⟨_, rfl⟩
  have rs : Run padEnv s := hs ▸ .call _ _ (hs1 ▸ .call _ _ hr trivial) trivial
  have rt : Run padEnv t := ht ▸ .call _ _ hr trivial
  have e1 : s.summary.cur = t.summary.cur := by
    rw [hs, hs1, ht, ho, (openTree_fresh padEnv).2]; decide +kernel
  have e2 : s.gas.cur = t.gas.cur := by
    rw [hs, hs1, ht, ho, (openTree_fresh padEnv).2]; decide +kernel
  have e3 : s.summary.recov ≠ t.summary.recov := by
    rw [hs, hs1, ht, ho, (openTree_fresh padEnv).2]; decide +kernel
  have is := run_storeInv rs
  have it := run_storeInv rt
  refine ⟨s, t, rs, rt, e1, e2, e3, C82_balances_partial padEnv s t _ _ rs rt (shows_amt is.summary.1) ?_
    (shows_amt is.gas.1) ?_ (fun k => by unfold Db.get; rw [e1]) (fun k _ => by unfold Db.get; rw [e2])⟩
  · rw [e1]; exact shows_amt it.summary.1
  · rw [e2]; exact shows_amt it.gas.1

/-! ## C83 -/

/-- C83 at full strength: a proof produced for a hash that is not a leaf does not verify. -/
def C83_full : Prop := ∀ (E : Env) (items : List Hash) (t : MerkleTree) (root y : Hash) (proof : List Hash),
  NoCollision32 E → buildTree E items = .ok t → t.getRoot = .ok root → items ≠ [] → y ∉ items →
  t.getProof y = .ok proof → verifyProof E y root proof.dropLast = .ok false

theorem findLeaf_absent (a : List Hash) (x : Hash) : ∀ (m s d : Nat), s + m ≤ a.length →
    (∀ j < m, a[s + j]? ≠ some x) → findLeaf a x (List.range' s m) d = .ok (if m = 0 then d else s + m - 1) := by
  intro m
  induction m with
  | zero => intro _ _ _ _; rfl
  | succ m ih =>
    intro s d hs hx
    rw [List.range'_succ, findLeaf]
    have hg : getUnchecked a s = .ok a[s] := by
      unfold getUnchecked; rw [List.getElem?_eq_getElem (by omega)]
    have h0 := hx 0 (by omega)
    rw [Nat.add_zero, List.getElem?_eq_getElem (by omega)] at h0
    rw [hg, Outcome.ok_bind, if_neg (fun e => h0 (by rw [e]))]
    rw [ih (s + 1) s (by omega) (fun j hj => by rw [show s + 1 + j = s + (j + 1) by omega]; exact hx (j + 1) (by omega))]
    by_cases hm : m = 0
    · subst hm; rfl
    · rw [if_neg hm, if_neg (by omega)]; congr 1; omega

/-- The proof returned for a hash that is not a leaf. -/
theorem getProof_absent (E : Env) (items : List Hash) (p : Nat) (a : List Hash)
    (hn : items.length < 2 ^ p) (hl : a.length = 2 * 2 ^ p - 1)
    (h : HeapFrom E (Spec.padTo PADDING_HASH (2 ^ p) items) p a 0) (x : Hash) (hx : x ∉ items) :
    (MerkleTree.mk a (p + 1) items.length).getProof x = .ok
      (if items.length = 0 then (if p = 0 then [nodeVal E (Spec.padTo PADDING_HASH (2 ^ p) items) p 0]
          else nodeVal E (Spec.padTo PADDING_HASH (2 ^ p) items) p 0 :: List.replicate p (BytesN.fill 32 0))
        else siblings E (Spec.padTo PADDING_HASH (2 ^ p) items) p 0 (items.length - 1) ++
          [nodeVal E (Spec.padTo PADDING_HASH (2 ^ p) items) p 0]) := by
  have hpos : 0 < 2 ^ p := Nat.pow_pos (by decide)
  have leaf : ∀ i, i < items.length → a[2 ^ p - 1 + i]? = items[i]? := by
    intro i hi
    have := h 0 i (Nat.zero_le _) (by simp; omega) (Nat.zero_le _)
    simp only [Nat.sub_zero, nodeVal] at this
    rw [this, Spec.padTo, List.getD_eq_getElem?_getD, List.getElem?_append_left hi, List.getElem?_eq_getElem hi]
    rfl
  have hf := findLeaf_absent a x items.length (2 ^ p - 1) 0 (by omega) (fun j hj => by
    rw [leaf j hj]; intro e; exact hx (List.mem_of_getElem? e))
  unfold MerkleTree.getProof
  simp only [Nat.add_sub_cancel]
  rw [show a.length - 2 ^ p = 2 ^ p - 1 by omega,
    show a.length - (2 ^ p - items.length) - (2 ^ p - 1) = items.length by omega, hf, Outcome.ok_bind]
  have hr := h p 0 (Nat.le_refl _) (by simp) (Nat.zero_le _)
  simp only [Nat.sub_self, Nat.pow_zero, Nat.add_zero] at hr
  have hg : getUnchecked a 0 = .ok (nodeVal E (Spec.padTo PADDING_HASH (2 ^ p) items) p 0) := by
    unfold getUnchecked; rw [hr]
  by_cases h0 : items.length = 0
  · rw [if_pos h0, if_pos h0, proofLoop, if_neg (by omega)]
    simp only [Outcome.ok_bind, hg]
    unfold setUnchecked
    rw [if_pos (by simp)]
    cases p with
    | zero => rfl
    | succ p => simp [List.replicate_succ]
  · rw [if_neg h0, if_neg h0]
    have hpl := proofLoop_spec E _ p a h p 0 (items.length - 1) [] (List.replicate (p + 1) (BytesN.fill 32 0)) (by omega)
      (by omega) (by simp)
    simp only [List.nil_append, List.length_nil, Nat.zero_add, List.drop_replicate, Nat.add_sub_cancel_left] at hpl
    rw [show 2 ^ p - 1 + items.length - 1 = 2 ^ p - 1 + (items.length - 1) by omega, hpl, Outcome.ok_bind]
    simp only [hg, Outcome.ok_bind]
    unfold setUnchecked
    rw [if_pos (by simp [siblings_length]), List.set_append_right _ _ (Nat.le_of_eq (siblings_length ..)), siblings_length]
    simp

/-- C83, what holds: asking for a hash that is not a leaf is not noticed. It never leaves the array, and the answer
is a valid proof of the last leaf instead; without leaves it is the root alone. With one leaf the answer does not verify
for the hash asked for, unless SHA-256 collides. Missing: larger trees, where it can verify (`C83_refuted`). -/
theorem C83_last_leaf_partial (E : Env) (items : List Hash) (y : Hash) (hy : y ∉ items) :
    ∃ t root proof, buildTree E items = .ok t ∧ t.getRoot = .ok root ∧ t.getProof y = .ok proof ∧
      proof.length = t.depth ∧ proof.getLast? = some root ∧ (items = [] → proof = [root]) ∧
      (∀ last, items.getLast? = some last → verifyProof E last root proof.dropLast = .ok true) ∧
      (∀ x, items = [x] → verifyProof E y root proof.dropLast = .ok true →
        x.val ≠ y.val ∧ E.sha256 x.val = E.sha256 y.val) := by
  have hp := findClosestPowerOf2_spec items.length
  obtain ⟨a, h1, h2, h3⟩ := buildTree_spec E items _ hp
  generalize findClosestPowerOf2 items.length = p at hp h1 h2 h3
  have hg := getProof_absent E items p a hp.1 h2 h3 y hy
  have hroot := buildTree_root E items _ a h3
  have hnv := nodeVal_eq E (Spec.padTo PADDING_HASH (2 ^ p) items) p 0
  simp only [Nat.zero_mul, List.drop_zero] at hnv
  have hroot' : MerkleTree.getRoot ⟨a, p + 1, items.length⟩ =
      .ok (nodeVal E (Spec.padTo PADDING_HASH (2 ^ p) items) p 0) := by
    unfold MerkleTree.getRoot getUnchecked; rw [hroot, hnv]
  by_cases h0 : items = []
  · subst h0
    have hp0 : p = 0 := Nat.le_zero.mp (hp.2 0 (by decide))
    subst hp0
    rw [if_pos rfl] at hg
    exact ⟨_, _, _, h1, hroot', hg, rfl, rfl, fun _ => rfl, by simp, by simp⟩
  have hlen : items.length ≠ 0 := fun e => h0 (List.eq_nil_of_length_eq_zero e)
  rw [if_neg hlen] at hg
  have hlast : ∀ last, items.getLast? = some last → verifyProof E last
      (nodeVal E (Spec.padTo PADDING_HASH (2 ^ p) items) p 0)
      (siblings E (Spec.padTo PADDING_HASH (2 ^ p) items) p 0 (items.length - 1)) = .ok true := by
    intro x hx
    rw [List.getLast?_eq_getElem?] at hx
    have hil : items.length - 1 < items.length := by omega
    have hx0 : nodeVal E (Spec.padTo PADDING_HASH (2 ^ p) items) 0 (items.length - 1) = x := by
      simp only [nodeVal]
      rw [List.getD_eq_getElem?_getD, Spec.padTo, List.getElem?_append_left hil, hx]; rfl
    have hfold := siblings_fold E (Spec.padTo PADDING_HASH (2 ^ p) items) p 0 (items.length - 1)
    rw [Nat.div_eq_of_lt (by have := hp.1; omega), Nat.zero_add, hx0] at hfold
    cases hs : siblings E (Spec.padTo PADDING_HASH (2 ^ p) items) p 0 (items.length - 1) with
    | nil =>
      exfalso
      have hlen := siblings_length E (Spec.padTo PADDING_HASH (2 ^ p) items) p 0 (items.length - 1)
      rw [hs] at hlen
      have : p = 0 := by simpa using hlen.symm
      subst this
      have := hp.1
      simp only [Nat.pow_zero] at this
      omega
    | cons s0 rest =>
      rw [hs, List.foldl_cons] at hfold
      unfold verifyProof
      simp only [hfold, decide_true]
  refine ⟨_, _, _, h1, hroot', hg, ?_, by simp, fun e => absurd e h0, ?_, ?_⟩
  · simp [siblings_length]
  · intro last hl
    rw [List.dropLast_concat]; exact hlast last hl
  · intro x hx hv
    rw [List.dropLast_concat] at hv
    subst hx
    have hsib : siblings E (Spec.padTo PADDING_HASH (2 ^ p) [x]) p 0 ([x].length - 1) = [PADDING_HASH] := by
      have hp1 : p = 1 := isNextPower_unique hp ⟨by simp, fun q hq => by
        cases q with
        | zero => simp at hq
        | succ q => omega⟩
      subst hp1
      rfl
    have hx' := hlast x rfl
    rw [hsib] at hv hx'
    rcases C20_masked_bits_partial E x y _ PADDING_HASH hx' hv with h | h
    · rw [andHash_pad, andHash_pad] at h
      exact absurd (List.mem_singleton.mpr h.symm) hy
    · rw [andHash_pad, andHash_pad] at h; exact h

example : (BytesN.fill 32 3 : Hash) ∉ [BytesN.fill 32 0, BytesN.fill 32 1, (BytesN.fill 32 2 : Hash)] := by decide

/-- C83, what holds for trees of any size: if the proof returned for a hash that is not a leaf does verify for it, then
the hash agrees with the last leaf on all bits set in the proof's first entry, or SHA-256 collides on two strings met on
the way up, or two different digests met at the same level agree on all bits set in the proof's entry for that level.
Missing: these bits are not compared (`C83_refuted`). -/
theorem C83_levels_partial (E : Env) (items : List Hash) (y last : Hash) (hy : y ∉ items)
    (hl : items.getLast? = some last) :
    ∃ t root s rest, buildTree E items = .ok t ∧ t.getRoot = .ok root ∧ t.getProof y = .ok (s :: rest ++ [root]) ∧
      (verifyProof E y root (s :: rest) = .ok true →
        specMask last s = specMask y s ∨
        (∃ (before : List Hash) (t : Hash) (after : List Hash) (u v : Hash), s :: rest = before ++ t :: after ∧
          u = before.foldl (specParent E) last ∧ v = before.foldl (specParent E) y ∧
          specMask u t ≠ specMask v t ∧ E.sha256 (specMask u t) = E.sha256 (specMask v t)) ∨
        (∃ (before : List Hash) (t : Hash) (after : List Hash) (u v : Hash), s :: rest = before ++ t :: after ∧
          before ≠ [] ∧ u = before.foldl (specParent E) last ∧ v = before.foldl (specParent E) y ∧
          u ≠ v ∧ specMask u t = specMask v t)) := by
  obtain ⟨t, root, proof, h1, h2, h3, h4, h5, -, h6, -⟩ := C83_last_leaf_partial E items y hy
  have hd : 2 ≤ t.depth := by
    obtain ⟨a, g1, -, -⟩ := buildTree_spec E items _ (findClosestPowerOf2_spec items.length)
    rw [h1] at g1
    cases g1
    show 2 ≤ findClosestPowerOf2 items.length + 1
    rcases Nat.eq_zero_or_pos (findClosestPowerOf2 items.length) with e | e
    · have hp := (findClosestPowerOf2_spec items.length).1
      rw [e] at hp
      have : items = [] := List.eq_nil_of_length_eq_zero (by simpa using hp)
      rw [this] at hl
      cases hl
    · omega
  obtain ⟨init, rfl⟩ : ∃ init, proof = init ++ [root] := by
    rcases List.eq_nil_or_concat proof with e | ⟨i, z, e⟩
    · rw [e] at h5
      cases h5
    · rw [e, List.concat_eq_append] at h5 ⊢
      rw [List.getLast?_concat] at h5
      cases h5
      exact ⟨i, rfl⟩
  match init, h4, h3, h6 with
  | [], h4, _, _ => simp at h4; omega
  | s :: rest, _, h3, h6 =>
    have hv := h6 last hl
    rw [List.dropLast_concat] at hv
    exact ⟨t, root, s, rest, h1, h2, h3, fun hy' => C20_levels_partial E last y root s rest hv hy'⟩

/-- C83 is false of the code, whatever the hash function: with an all-zero leaf beside the last one, the proof
returned for any hash that is not a leaf verifies for it. -/
theorem C83_refuted :
    (∀ (E : Env) (x y : Hash), y ∉ [BytesN.fill 32 0, x] → ∃ t root proof, buildTree E [BytesN.fill 32 0, x] = .ok t ∧
      t.getRoot = .ok root ∧ t.getProof y = .ok proof ∧ verifyProof E y root proof.dropLast = .ok true) ∧
    ¬ C83_full := by
  have key : ∀ (E : Env) (x y : Hash), y ∉ [BytesN.fill 32 0, x] → ∃ t root proof,
      buildTree E [BytesN.fill 32 0, x] = .ok t ∧
      t.getRoot = .ok root ∧ t.getProof y = .ok proof ∧ verifyProof E y root proof.dropLast = .ok true := by
    intro E x y hy
    have hp := findClosestPowerOf2_spec [BytesN.fill 32 0, x].length
    obtain ⟨a, h1, h2, h3⟩ := buildTree_spec E [BytesN.fill 32 0, x] _ hp
    generalize findClosestPowerOf2 [BytesN.fill 32 0, x].length = p at hp h1 h2 h3
    have hp2 : p = 2 := isNextPower_unique hp ⟨by simp, fun q hq => by
      match q with
      | 0 => simp at hq
      | 1 => simp at hq
      | q + 2 => omega⟩
    subst hp2
    have hg := getProof_absent E _ 2 a hp.1 h2 h3 y hy
    obtain ⟨t, root, proof, g1, g2, g3, _, _, _, g4, _⟩ := C83_last_leaf_partial E _ y hy
    rw [h1] at g1
    cases g1
    rw [g3] at hg
    cases hg
    refine ⟨_, root, _, h1, g2, g3, ?_⟩
    have hv := g4 x rfl
    rw [if_neg (by simp), List.dropLast_concat] at hv ⊢
    rw [show siblings E (Spec.padTo PADDING_HASH (2 ^ 2) [BytesN.fill 32 0, x]) 2 0 ([BytesN.fill 32 0, x].length - 1) =
      [BytesN.fill 32 0, nodeVal E (Spec.padTo PADDING_HASH (2 ^ 2) [BytesN.fill 32 0, x]) 1 1] by
        simp [siblings, nodeVal, Spec.padTo]] at hv ⊢
    simp only [verifyProof, andHash_zero] at hv ⊢
    exact hv
  refine ⟨key, fun h => ?_⟩
  obtain ⟨t, root, proof, h1, h2, h3, h4⟩ := key idEnv (BytesN.fill 32 1) (BytesN.fill 32 7) (by decide)
  have := h idEnv _ t root (BytesN.fill 32 7) proof idEnv_noCollision h1 h2 (by simp) (by decide) h3
  rw [h4] at this
  simp at this

end BCT.Props
