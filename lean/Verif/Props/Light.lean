import Verif.Props.Real
import Verif.Props.Time
/-!
# C143: what a light client may believe
-/

namespace BCT.Props
open BCT

/-- Every bit of `x` is set in `y`. -/
def Covers (y x : Hash) : Prop := specMask y x = x.val

/-- C143 at full strength: a client that holds the root of a stored block and accepts a proof for a hash may conclude
that the block lists the hash, if SHA-256 makes no collisions. -/
def C143_full : Prop := ∀ (E : Env) (s : Tree) (q : U256) (b : TransactionBlock) (y : Hash) (proof : List Hash),
  NoCollision32 E → RunWith E EmitOnly s → s.main.getHeight.val + 1 < U256.size →
  s.main.findByHeight q = .ok (some (.transaction b)) → verifyProof E y b.merkleTreeRoot proof = .ok true →
  y ∈ b.transactions

theorem specMask_eq (a b : Hash) : specMask a b = (andHash a b).val := by
  unfold specMask andHash
  simp [List.zip, List.map_zipWith]

theorem covers_and {x y : Hash} (h : Covers y x) (s : Hash) : andHash y (andHash x s) = andHash x s := by
  have e : andHash y x = x := Subtype.ext (by rw [← specMask_eq]; exact h)
  have assoc : ∀ a b c : Bytes, List.zipWith (fun x y => x &&& y) a (List.zipWith (fun x y : UInt8 => x &&& y) b c) =
      List.zipWith (fun x y => x &&& y) (List.zipWith (fun x y => x &&& y) a b) c := by
    intro a
    induction a with
    | nil => intros; simp
    | cons a l ih =>
      intro b c
      cases b with
      | nil => simp
      | cons b m =>
        cases c with
        | nil => simp
        | cons c n => simp [ih, UInt8.and_assoc]
  have : andHash y (andHash x s) = andHash (andHash y x) s := Subtype.ext (assoc _ _ _)
  rw [this, e]

/-- A transaction block of the chain lists something, under its Merkle root. -/
theorem stored_txs {E : Env} {s : Tree} {q : U256} {b : TransactionBlock} (hr : RunWith E EmitOnly s)
    (hm : s.main.getHeight.val + 1 < U256.size) (hb : s.main.findByHeight q = .ok (some (.transaction b))) :
    b.transactions ≠ [] ∧ IsMerkleRoot E b.transactions b.merkleTreeRoot := by
  obtain ⟨bs, h1, h2, h3⟩ := emitOnly_linked hr hm
  rcases Nat.lt_or_ge q.val (genesis E :: bs).length with hq | hq
  · rw [emitted_find h1 h3 q hq] at hb
    have hb : (genesis E :: bs)[q.val] = .transaction b := by simpa using hb
    rcases hn : q.val with _ | n
    · simp only [hn] at hb
      cases hb
    · have hk := h2.get n (by omega)
      have hb' : (genesis E :: bs)[n + 1] = .transaction b := by simp only [hn] at hb; exact hb
      rw [hb'] at hk
      by_cases he : (Block.transaction b).info.height.val % BLOCKS_PER_EPOCH = 0
      · obtain ⟨x, hx⟩ := hk.epoch he
        cases hx
      · obtain ⟨x, hx, k1, k2, _⟩ := hk.other he
        cases hx
        exact ⟨k1, by rw [← merkleRoot_iff, merkleRoot_eq, k2]⟩
  · unfold MainChain.findByHeight MainChain.findRawByHeight at hb
    rw [h1.findRaw, List.getElem?_eq_none hq] at hb
    cases hb

/-- The proof `get_proof` makes for a member of a list verifies against the root of the list. -/
theorem member_proof {E : Env} {l : List Hash} {root x : Hash} (hl : IsMerkleRoot E l root) (hx : x ∈ l) :
    ∃ t proof, buildTree E l = .ok t ∧ t.getProof x = .ok (proof ++ [root]) ∧ verifyProof E x root proof = .ok true := by
  obtain ⟨t, r, proof, h1, h2, h3, _, h5, h6⟩ := C18_proof_complete E l x hx
  have hr : r = root := by
    have := (merkleRoot_iff E l root).mpr hl
    unfold merkleRoot at this
    rw [h1, Outcome.ok_bind, h2] at this
    exact Outcome.ok.inj this
  subst hr
  refine ⟨t, proof.dropLast, h1, ?_, h6⟩
  rw [h3]
  congr 1
  obtain ⟨ys, rfl⟩ := List.getLast?_eq_some_iff.mp h5
  simp

theorem checkPow_idEnv (first difficulty : Hash) (txs : List Hash) (pow : BytesN 32) :
    checkPow idEnv first difficulty txs pow.val = .ok true := by
  unfold checkPow
  rw [merkleRoot_eq, Outcome.ok_bind]
  have hd : idEnv.sha256 (first.val ++ (merkleRootT idEnv txs).val ++ pow.val) = BytesN.fill 32 0 := by
    unfold idEnv
    exact dif_neg (by simp [first.property, pow.property])
  show Outcome.ok (decide (_ ≤ countLeadingZeros (idEnv.sha256 (first.val ++ (merkleRootT idEnv txs).val ++ pow.val)).val)) = _
  rw [hd]
  have : countLeadingZeros (BytesN.fill 32 0).val = 256 := by decide +kernel
  rw [this]
  exact congrArg Outcome.ok (decide_eq_true (clz_le_256 _))

/-- The block a fresh node emits is read back at height 1. -/
theorem first_block {E : Env} {t : Tree} (hr : RunWith E EmitOnly t) (ht : t.main.getHeight.val = 1) {pow : BytesN 32}
    {founder : Address} {txs : List Hash} {ts : UInt64} {b : Block}
    (ho : (Tree.emitMain E pow founder txs ts t).out = .ok b) :
    ∃ s, RunWith E EmitOnly s ∧ s.main.getHeight.val + 1 < U256.size ∧
      s.main.findByHeight ⟨1, by decide⟩ = .ok (some b) := by
  have hm : t.main.getHeight.val + 1 < U256.size := by rw [ht]; decide
  obtain ⟨bs, k1, _, k3⟩ := emitOnly_linked hr hm
  obtain ⟨_, _, _, _, k4, _, k5, _⟩ := emitted_next k1 hm ho
  have hlen : bs.length = 0 := by
    have := k1.len
    have e3 : t.main.chain.height.val = 1 := ht
    rw [e3] at this
    simpa using this
  have hbs : bs = [] := List.length_eq_zero_iff.mp hlen
  subst hbs
  refine ⟨(Tree.emitMain E pow founder txs ts t).final, .call t (.emitMain pow founder txs ts) hr trivial, ?_, ?_⟩
  · have e4 : (Tree.emitMain E pow founder txs ts t).final.main.getHeight.val = 2 := k4.len.symm
    rw [e4]; decide
  · exact emitted_find (bs := [b]) k4 (by simpa using k5) ⟨1, by decide⟩ (by simp)

/-- C143 is false of the code, whatever the hash function and whatever the chain: a block that lists `x` has, for every
hash that covers the bits of `x`, a proof that verifies. The hash with all bits set is thus proved by every block. -/
theorem C143_refuted : (∀ (E : Env) (s : Tree) (q : U256) (b : TransactionBlock), RunWith E EmitOnly s →
      s.main.getHeight.val + 1 < U256.size → s.main.findByHeight q = .ok (some (.transaction b)) →
      (∀ x ∈ b.transactions, ∀ y, Covers y x → ∃ proof, verifyProof E y b.merkleTreeRoot proof = .ok true) ∧
      ∃ proof, verifyProof E (BytesN.fill 32 0xFF) b.merkleTreeRoot proof = .ok true) ∧ ¬ C143_full := by
  have key : ∀ (E : Env) (s : Tree) (q : U256) (b : TransactionBlock), RunWith E EmitOnly s →
      s.main.getHeight.val + 1 < U256.size → s.main.findByHeight q = .ok (some (.transaction b)) →
      ∀ x ∈ b.transactions, ∀ y, Covers y x → ∃ proof, verifyProof E y b.merkleTreeRoot proof = .ok true := by
    intro E s q b hr hm hb x hx y hy
    obtain ⟨t, proof, _, _, h⟩ := member_proof (stored_txs hr hm hb).2 hx
    cases proof with
    | nil => cases h
    | cons p rest =>
      refine ⟨andHash x p :: rest, ?_⟩
      show Outcome.ok (decide (_ = (rest.foldl (fun c p => E.sha256 (andHash c p).val)
        (E.sha256 (andHash y (andHash x p)).val)).val)) = _
      rw [covers_and hy]
      exact h
  have all : ∀ x : Hash, Covers (BytesN.fill 32 0xFF) x := by
    intro x
    show specMask _ _ = _
    rw [specMask_eq, andHash_comm]
    exact congrArg Subtype.val (andHash_pad x)
  refine ⟨fun E s q b hr hm hb => ⟨key E s q b hr hm hb, ?_⟩, fun hf => ?_⟩
  · obtain ⟨hne, _⟩ := stored_txs hr hm hb
    obtain ⟨x, hx⟩ := List.exists_mem_of_ne_nil _ hne
    exact key E s q b hr hm hb x hx _ (all x)
  · obtain ⟨t, _, h2, h3, ⟨b, _, h4, h5⟩, _⟩ := C37_fresh_node idEnv
    have hm : t.main.getHeight.val + 1 < U256.size := by rw [h3]; decide
    have hfresh : RunWith idEnv EmitOnly t := h2 ▸ .fresh
    obtain ⟨x, hx, e⟩ := C85_refuted.1 idEnv t _ (BytesN.fill 32 0) ROOT_PUBLIC_ADDRESS [BytesN.fill 32 5]
      1597924800 hfresh hm (by rw [h3]; decide) (by simp) h4 (by simp only [Block.info, h5]; decide)
      ((checkPow_iff ..).mp (checkPow_idEnv ..))
    obtain ⟨s, hr', hm', hfind⟩ := first_block hfresh h3 hx
    obtain ⟨proof, hp⟩ := key idEnv s _ x hr' hm' hfind (BytesN.fill 32 5) (by rw [e]; simp) _ (all _)
    have := hf idEnv _ _ x _ proof idEnv_noCollision hr' hm' hfind hp
    rw [e] at this
    revert this; decide

/-- C143 fails with SHA-256: the first block of a node lists one transaction, and another one is proved by it. -/
theorem C143_refuted_sha256 (c : Bool) : ∃ (s : Tree) (b : TransactionBlock) (proof : List Hash),
    RunWith (shaEnv c) EmitOnly s ∧ s.main.getHeight.val + 1 < U256.size ∧
    s.main.findByHeight ⟨1, by decide⟩ = .ok (some (.transaction b)) ∧
    b.transactions = [BytesN.fill 32 5] ∧ verifyProof (shaEnv c) (BytesN.fill 32 7) b.merkleTreeRoot proof = .ok true := by
  obtain ⟨t, g, h1, h2, h3, h4, h5, h6, h7⟩ := real_fresh c
  obtain ⟨b, k1, k2⟩ := C85_refuted.1 (shaEnv c) t _ (realPow 5) ROOT_PUBLIC_ADDRESS [BytesN.fill 32 5]
    1597925400 h2 (by rw [h3]; decide) (by rw [h3]; decide) (by simp) h4
    (by show g.defaultInfo.timestamp ≤ _; rw [h5]; decide) (by
      rw [h7, ← checkPow_iff]; exact (real_meets c).2)
  obtain ⟨s, hr, hm, hfind⟩ := first_block h2 h3 k1
  obtain ⟨proof, hp⟩ := (C143_refuted.1 (shaEnv c) s _ b hr hm hfind).1 (BytesN.fill 32 5) (by rw [k2]; simp)
    (BytesN.fill 32 7) (by unfold Covers; decide)
  exact ⟨s, b, proof, hr, hm, hfind, k2, hp⟩

/-- C143, what holds. (a) A client is never left without a proof: for every transaction a stored block lists, the tree
over the list has a proof that verifies against the stored root. (b) Likewise at the end of an epoch: for every account
with coins there is a proof, against the root of the epoch's block, of its address, coins and gas. (c) An accepted proof
does say something: the last step of it combines two hashes whose common bits are those of the two halves of the tree,
unless two strings are exhibited that collide. (d) For a block of one transaction and a proof of one step: the hash covers
the bits of the transaction. Missing: that the hash is in the list (`C143_refuted`). -/
theorem C143_light_partial (E : Env) :
    (∀ (s : Tree) (q : U256) (b : TransactionBlock) (x : Hash), RunWith E EmitOnly s →
      s.main.getHeight.val + 1 < U256.size → s.main.findByHeight q = .ok (some (.transaction b)) → x ∈ b.transactions →
      ∃ t proof, buildTree E b.transactions = .ok t ∧ t.getProof x = .ok (proof ++ [b.merkleTreeRoot]) ∧
        verifyProof E x b.merkleTreeRoot proof = .ok true) ∧
    (∀ (s : Tree) (pow : BytesN 32) (founder : Address) (txs : List Hash) (ts : UInt64) (b : SummarizeBlock)
      (f g : Spec.Accounts) (a : Address), Run E s → s.main.getHeight.val + 1 < U256.size → Shows s.summary f →
      Shows s.gas g → (Tree.emitMain E pow founder txs ts s).out = .ok (.summarize b) → f a.val ≠ 0 →
      ∃ (c : U256) (o : Option U256) (proof : List Hash), c.val = f a.val ∧ (o.map (·.val)).getD 0 = g a.val ∧
        verifyProof E (E.sha256 (accountLeaf a c o)) b.merkleTreeRoot proof = .ok true) ∧
    (∀ (s : Tree) (q : U256) (b : TransactionBlock) (y : Hash) (proof : List Hash), RunWith E EmitOnly s →
      s.main.getHeight.val + 1 < U256.size → s.main.findByHeight q = .ok (some (.transaction b)) →
      verifyProof E y b.merkleTreeRoot proof = .ok true →
      ∃ (p : Nat) (steps : List Hash) (last : Hash), Spec.IsNextPower b.transactions.length (p + 1) ∧
        proof = steps ++ [last] ∧
        (specMask (steps.foldl (specParent E) y) last =
            specMask (specNode E b.transactions p 0) (specNode E b.transactions p 1) ∨
          ∃ u v : Hash, u ≠ v ∧ E.sha256 u.val = E.sha256 v.val)) ∧
    (∀ (s : Tree) (q : U256) (b : TransactionBlock) (x y p : Hash), RunWith E EmitOnly s →
      s.main.getHeight.val + 1 < U256.size → s.main.findByHeight q = .ok (some (.transaction b)) → b.transactions = [x] →
      verifyProof E y b.merkleTreeRoot [p] = .ok true →
      Covers y x ∨ ∃ u v : Hash, u ≠ v ∧ E.sha256 u.val = E.sha256 v.val) := by
  have third : ∀ (s : Tree) (q : U256) (b : TransactionBlock) (y : Hash) (proof : List Hash), RunWith E EmitOnly s →
      s.main.getHeight.val + 1 < U256.size → s.main.findByHeight q = .ok (some (.transaction b)) →
      verifyProof E y b.merkleTreeRoot proof = .ok true →
      ∃ (p : Nat) (steps : List Hash) (last : Hash), Spec.IsNextPower b.transactions.length (p + 1) ∧
        proof = steps ++ [last] ∧
        (specMask (steps.foldl (specParent E) y) last =
            specMask (specNode E b.transactions p 0) (specNode E b.transactions p 1) ∨
          ∃ u v : Hash, u ≠ v ∧ E.sha256 u.val = E.sha256 v.val) := by
    intro s q b y proof hr hm hb hv
    obtain ⟨hne, hroot⟩ := stored_txs hr hm hb
    have hp := findClosestPowerOf2_spec b.transactions.length
    generalize findClosestPowerOf2 b.transactions.length = n at hp
    obtain ⟨p, rfl⟩ : ∃ p, n = p + 1 := by
      rcases n with _ | p
      · have h1 := hp.1
        have : b.transactions.length ≠ 0 := fun h => hne (List.length_eq_zero_iff.mp h)
        rw [Nat.pow_zero] at h1
        omega
      · exact ⟨p, rfl⟩
    have hn := root_node E b.transactions (p + 1) hp
    rw [(merkleRoot_iff ..).mpr hroot] at hn
    have hn : b.merkleTreeRoot = E.sha256 (specMask (specNode E b.transactions p 0) (specNode E b.transactions p 1)) := by
      simpa [specNode] using hn
    have hf : proof ≠ [] ∧ proof.foldl (specParent E) y = b.merkleTreeRoot := by
      cases proof with
      | nil => cases hv
      | cons p0 rest =>
        refine ⟨by simp, ?_⟩
        rw [specParent_eq]
        exact (Subtype.ext (of_decide_eq_true (Outcome.ok.inj hv))).symm
    obtain ⟨steps, last, rfl⟩ : ∃ steps last, proof = steps ++ [last] :=
      ⟨_, _, (List.dropLast_concat_getLast hf.1).symm⟩
    refine ⟨p, steps, last, hp, rfl, ?_⟩
    have h2 := hf.2
    rw [List.foldl_append, List.foldl_cons, List.foldl_nil, hn, specParent_eq] at h2
    rw [specMask_eq, specMask_eq, specParent_eq]
    rw [specMask_eq] at h2
    by_cases he : andHash (steps.foldl (nodeHash E) y) last =
        andHash (specNode E b.transactions p 0) (specNode E b.transactions p 1)
    · exact .inl (congrArg Subtype.val he)
    · exact .inr ⟨_, _, he, h2⟩
  refine ⟨fun s q b x hr hm hb hx => member_proof (stored_txs hr hm hb).2 hx, ?_, third, ?_⟩
  · intro s pow founder txs ts b f g a hr hm hf hg ho ha
    obtain ⟨c, o, h1, h2, h3⟩ := C42_leaves_partial.2 E s f g a hr hf hg ha
    obtain ⟨bs, h⟩ := run_holds hr hm
    rcases emitMain_cases h hm pow founder txs ts with ⟨out, k1, k2, _⟩ | ⟨l, r, b', s0, c', tr, _, _, _, _, _, _, k7, _, _, _, k11⟩
    · rw [k2] at ho; exact absurd ho (k1 _)
    · rw [k7] at ho
      simp only [Outcome.ok.injEq] at ho
      subst ho
      rcases k11 with ⟨_, _, hb, _⟩ | ⟨_, _, hb, _⟩
      · cases hb
      · have hb' : b.merkleTreeRoot = merkleRootT E (s.summaryLeaves.map E.sha256) := by
          unfold newSumBlock at hb; cases hb; rfl
        have hroot : IsMerkleRoot E (s.summaryLeaves.map E.sha256) b.merkleTreeRoot := by
          rw [← merkleRoot_iff, merkleRoot_eq, hb']
        obtain ⟨_, proof, _, _, hv⟩ := member_proof hroot (List.mem_map.mpr ⟨_, h3, rfl⟩)
        exact ⟨c, o, proof, h1, h2, hv⟩
  · intro s q b x y p hr hm hb hx hv
    obtain ⟨n, steps, last, h1, h2, h3⟩ := third s q b y [p] hr hm hb hv
    rcases h3 with h3 | h3
    · left
      have hs : steps = [] ∧ last = p := by
        cases steps with
        | nil => simpa using h2.symm
        | cons a l => simp at h2
      obtain ⟨rfl, rfl⟩ := hs
      rw [hx] at h1 h3
      have hn : n = 0 := by
        have h01 := findClosestPowerOf2_spec 1
        have : findClosestPowerOf2 1 = 1 := by simp [findClosestPowerOf2, closestPowerLoop]
        rw [this] at h01
        have := isNextPower_unique (show Spec.IsNextPower 1 (n + 1) from h1) h01
        omega
      subst hn
      have e : specMask (specNode E [x] 0 0) (specNode E [x] 0 1) = x.val := by
        show specMask x PADDING_HASH = _
        rw [specMask_eq, andHash_pad]
      rw [e] at h3
      have hxs : x = andHash y last := Subtype.ext (by rw [← specMask_eq]; exact h3.symm)
      show specMask y x = x.val
      rw [specMask_eq]
      have : andHash y (andHash y last) = andHash y last := covers_and (x := y) (by
        show specMask y y = y.val
        unfold specMask
        have : ∀ l : Bytes, (l.zip l).map (fun (x, y) => x &&& y) = l := by
          intro l
          induction l with
          | nil => rfl
          | cons a l ih => simp [ih]
        exact this _) last
      rw [← hxs] at this
      rw [this]
    · exact .inr h3

end BCT.Props
