import Verif.Props.Emit
import Verif.Props.Send
/-!
# C84 – C88: what fees, blocks and nonces stand for
-/

namespace BCT.Props
open BCT

/-! ## C84 -/

/-- C84 at full strength: besides the amount, the sender of a transaction pays the current fee. -/
def C84_full : Prop := ∀ (E : Env) (s : Tree) (tx : Transaction) (f f' : Spec.Accounts) (last : Block) (fee : U256),
  Run E s → Shows s.summary f → tx.sender ≠ tx.receiver → s.main.getLastBlock = .ok (some last) →
  recalculateFee last.info.difficulty = .ok fee → ((Op.sendTransaction tx).run E s).out = .ok () →
  Shows ((Op.sendTransaction tx).run E s).final.summary f' →
  f' tx.sender.val + tx.amount.val + fee.val = f tx.sender.val

theorem shows_unique {d : Db} {f f' : Spec.Accounts} (h : Shows d f) (h' : Shows d f') : f = f' := by
  funext k
  obtain ⟨a, h1, h2⟩ := h k
  obtain ⟨b, h3, h4⟩ := h' k
  rw [h1] at h3; cases h3; omega

/-- C84, what holds: the sender needs the fee on top of the amount, but the amount alone leaves their account, all of it
arrives at the receiver, and no other account changes. Missing: the fee is not taken (`C84_refuted`). -/
theorem C84_threshold_partial (E : Env) (s : Tree) (tx : Transaction) (f f' : Spec.Accounts) (last : Block)
    (fee : U256) (hr : Run E s) (hf : Shows s.summary f) (hne : tx.sender ≠ tx.receiver)
    (hl : s.main.getLastBlock = .ok (some last)) (hfee : recalculateFee last.info.difficulty = .ok fee)
    (ho : ((Op.sendTransaction tx).run E s).out = .ok ())
    (hf' : Shows ((Op.sendTransaction tx).run E s).final.summary f') :
    tx.amount.val + fee.val ≤ f tx.sender.val ∧ f' tx.sender.val + tx.amount.val = f tx.sender.val ∧
    f' tx.receiver.val = f tx.receiver.val + tx.amount.val ∧
    ∀ k, k ≠ tx.sender.val → k ≠ tx.receiver.val → f' k = f k := by
  have hi := run_storeInv hr
  have hg := shows_amt hi.gas.1
  obtain ⟨s', h1, _, _, h2, _⟩ := (C52_effect E s tx f _ hr hf hg).1 ho
  obtain ⟨⟨l, x, a1, a2, _, a4⟩, _⟩ := (C53_admission E s tx f _ hr hf hg).mp ho
  rw [hl] at a1; cases a1
  rw [hfee] at a2; cases a2
  rw [h1] at hf'
  rw [if_neg hne] at h2
  have e := shows_unique hf' h2
  subst e
  have hv : tx.sender.val ≠ tx.receiver.val := fun e => hne (Subtype.ext e)
  have e1 : ∀ (f : Spec.Accounts) k n q, Spec.Accounts.update f k n q = if q = k then n else f q := fun _ _ _ _ => rfl
  refine ⟨by omega, ?_, ?_, fun k k1 k2 => ?_⟩
  · rw [e1, if_neg hv, e1, if_pos rfl]; omega
  · rw [e1, if_pos rfl]
  · rw [e1, if_neg k2, e1, if_neg k1]

/-- C84 is false of the code, for every hash function: whenever the fee is not zero, no successful transaction between
two accounts pays it. -/
theorem C84_refuted : (∀ (E : Env) (s : Tree) (tx : Transaction) (f f' : Spec.Accounts) (last : Block) (fee : U256),
      Run E s → Shows s.summary f → tx.sender ≠ tx.receiver → s.main.getLastBlock = .ok (some last) →
      recalculateFee last.info.difficulty = .ok fee → fee.val ≠ 0 → ((Op.sendTransaction tx).run E s).out = .ok () →
      Shows ((Op.sendTransaction tx).run E s).final.summary f' →
      f' tx.sender.val + tx.amount.val + fee.val ≠ f tx.sender.val) ∧ ¬ C84_full := by
  have key : ∀ (E : Env) (s : Tree) (tx : Transaction) (f f' : Spec.Accounts) (last : Block) (fee : U256),
      Run E s → Shows s.summary f → tx.sender ≠ tx.receiver → s.main.getLastBlock = .ok (some last) →
      recalculateFee last.info.difficulty = .ok fee → fee.val ≠ 0 → ((Op.sendTransaction tx).run E s).out = .ok () →
      Shows ((Op.sendTransaction tx).run E s).final.summary f' →
      f' tx.sender.val + tx.amount.val + fee.val ≠ f tx.sender.val := by
    intro E s tx f f' last fee hr hf hne hl hfee hz ho hf'
    have := (C84_threshold_partial E s tx f f' last fee hr hf hne hl hfee ho hf').2.1
    omega
  refine ⟨key, fun hfull => ?_⟩
  obtain ⟨s, h1, h2, h3, _, l, h5, h6⟩ := funded zeroEnv U256.zero
  have ho := (C53_admission zeroEnv s exTx _ _ h1 h2 h3).mpr ⟨funded_affordable _ h5 h6 exTx rfl rfl (by decide), .inr (by
    rw [funded_receiver]; decide)⟩
  have hr' : Run zeroEnv ((Op.sendTransaction exTx).run zeroEnv s).final := .call _ _ h1 trivial
  have hs' := shows_amt (run_storeInv hr').summary.1
  exact key zeroEnv s exTx _ _ l _ h1 h2 exTx_ne h5 h6 (by decide) ho hs' (hfull zeroEnv s exTx _ _ l _ h1 h2 exTx_ne h5 h6 ho hs')

/-! ## C85 -/

/-- C85 at full strength: an emitted block lists transactions of the store, each once. -/
def C85_full : Prop := ∀ (E : Env) (s : Tree) (pow : BytesN 32) (founder : Address) (txs : List Hash) (ts : UInt64)
  (b : TransactionBlock), Run E s → s.main.getHeight.val + 1 < U256.size →
  (Tree.emitMain E pow founder txs ts s).out = .ok (.transaction b) →
  b.transactions.Nodup ∧ ∀ h ∈ b.transactions, s.main.transactionExists h = true

/-- C85, what holds: the block lists exactly what the caller gave, in that order, under its Merkle root, and the
transaction store is left as it was. So a caller that gives stored transactions, each once, gets a block of stored
transactions, each once. Missing: nothing else is looked at (`C85_refuted`). -/
theorem C85_as_given_partial (E : Env) (s : Tree) (pow : BytesN 32) (founder : Address) (txs : List Hash) (ts : UInt64)
    (b : TransactionBlock) (hr : Run E s) (hm : s.main.getHeight.val + 1 < U256.size)
    (ho : (Tree.emitMain E pow founder txs ts s).out = .ok (.transaction b)) :
    b.transactions = txs ∧ IsMerkleRoot E txs b.merkleTreeRoot ∧
    (Tree.emitMain E pow founder txs ts s).final.main.transactions = s.main.transactions := by
  obtain ⟨bs, h⟩ := run_holds hr hm
  rcases emitMain_cases h hm pow founder txs ts with ⟨out, h1, h2, _⟩ | ⟨l, r, b', s0, c, tr, _, _, _, _, _, _, k7, _, _, _, k11⟩
  · rw [h2] at ho; exact absurd ho (h1 _)
  · rw [k7] at ho ⊢
    simp only [Outcome.ok.injEq] at ho
    rcases k11 with ⟨_, _, hb, hs0⟩ | ⟨_, _, hb, _⟩
    · rw [hb] at ho
      cases ho
      subst hs0
      refine ⟨rfl, ?_, rfl⟩
      rw [← merkleRoot_iff, merkleRoot_eq]
    · rw [hb] at ho; cases ho

/-- C85 is false of the code: whatever list is accepted, its length and its contents do not matter as long as the nonce
fits; and a fresh node, which knows no transactions, emits a block that lists one of them twice. -/
theorem C85_refuted : (∀ (E : Env) (s : Tree) (prev : Block) (pow : BytesN 32) (founder : Address) (txs : List Hash)
      (ts : UInt64), RunWith E EmitOnly s → s.main.getHeight.val + 1 < U256.size →
      s.main.getHeight.val % 1000000 ≠ 0 → txs ≠ [] → s.main.getLastBlock = .ok (some prev) →
      prev.info.timestamp ≤ ts → MeetsPow E (E.sha256 prev.dump) prev.info.difficulty txs pow.val →
      ∃ b, (Tree.emitMain E pow founder txs ts s).out = .ok (.transaction b) ∧ b.transactions = txs) ∧ ¬ C85_full := by
  have key : ∀ (E : Env) (s : Tree) (prev : Block) (pow : BytesN 32) (founder : Address) (txs : List Hash)
      (ts : UInt64), RunWith E EmitOnly s → s.main.getHeight.val + 1 < U256.size →
      s.main.getHeight.val % 1000000 ≠ 0 → txs ≠ [] → s.main.getLastBlock = .ok (some prev) →
      prev.info.timestamp ≤ ts → MeetsPow E (E.sha256 prev.dump) prev.info.difficulty txs pow.val →
      ∃ b, (Tree.emitMain E pow founder txs ts s).out = .ok (.transaction b) ∧ b.transactions = txs := by
    intro E s prev pow founder txs ts hr hm he hne hp ht hpow
    obtain ⟨b, hb, _⟩ := ((C40_exact_partial E s prev pow founder txs ts hr hm hp (.inl ht)).2 hpow).2.2 (by
      constructor
      · exact fun h => absurd h he
      · exact fun h => absurd h hne)
    have hrun := runWith_run hr
    obtain ⟨bs, h⟩ := run_holds hrun hm
    rcases emitMain_cases h hm pow founder txs ts with ⟨out, h1, h2, _⟩ | ⟨l, r, b', s0, c, tr, _, _, _, _, _, _, k7, _, _, _, k11⟩
    · rw [h2] at hb; exact absurd hb (h1 _)
    · rw [k7] at hb ⊢
      rcases k11 with ⟨_, _, hb', _⟩ | ⟨_, hx, _⟩
      · rw [hb']; exact ⟨_, rfl, rfl⟩
      · exact absurd hx hne
  refine ⟨key, fun hf => ?_⟩
  obtain ⟨t, _, h2, h3, ⟨b, _, h4, h5⟩, _⟩ := C37_fresh_node zeroEnv
  have hm : t.main.getHeight.val + 1 < U256.size := by rw [h3]; decide
  obtain ⟨x, hx, e⟩ := key zeroEnv t _ (BytesN.fill 32 0) ROOT_PUBLIC_ADDRESS [BytesN.fill 32 5, BytesN.fill 32 5]
    1597924800 (h2 ▸ .fresh) hm (by rw [h3]; decide) (by simp) h4 (by simp only [Block.info, h5]; decide)
    ((checkPow_iff ..).mp (checkPow_zero ..))
  have := (hf zeroEnv t _ _ _ _ x (h2 ▸ .fresh) hm hx).1
  rw [e] at this
  simp at this

/-! ## C86 -/

/-- C86. As long as the node runs, whatever is called, a transaction that is in the store stays in it with the same
bytes, or two byte strings with the same SHA-256 digest are known. -/
theorem C86_never_lost (E : Env) (s t : Tree) (hr : Run E s) (hl : Later E s t) (h : Hash) (raw : Bytes)
    (hs : s.main.getTransactionRaw h = some raw) :
    t.main.getTransactionRaw h = some raw ∨
      ∃ raw', t.main.getTransactionRaw h = some raw' ∧ raw' ≠ raw ∧ E.sha256 raw' = E.sha256 raw := by
  have ht : Run E t := by
    clear hs
    induction hl with
    | refl => exact hr
    | call s' op _ ih => exact .call _ op ih trivial
  have hg := later_txsGrow hl h.val (by
    have : s.main.transactions.get h.val = some raw := hs
    rw [this]; rfl)
  obtain ⟨raw', hraw'⟩ := Option.isSome_iff_exists.mp hg
  have h' : t.main.getTransactionRaw h = some raw' := hraw'
  by_cases e : raw' = raw
  · left; rw [h', e]
  · right
    exact ⟨raw', h', e, by rw [(C46_keyed E s hr h raw hs).1, (C46_keyed E t ht h raw' h').1]⟩

/-- A transaction is stored, and later calls exist. -/
example (E : Env) : ∃ s t raw, Run E s ∧ Later E s t ∧ s.main.getTransactionRaw (E.sha256 exTx.dump) = some raw ∧
    t.main.getTransactionRaw (E.sha256 exTx.dump) = some raw := by
  refine ⟨_, _, exTx.dump, .call _ (.addTransactions [exTx]) .fresh trivial, .call _ .flush (.refl), ?_, ?_⟩
  · rw [(openTree_fresh E).2]
    show Db.get (Db.insert _ _ _) _ = _
    rw [Db.get_insert, if_pos rfl]
  · rw [(openTree_fresh E).2]
    show Db.get _ _ = _
    show Db.get (Db.insert _ _ _) _ = _
    rw [Db.get_insert, if_pos rfl]

/-! ## C87 -/

/-- C87 at full strength: a nonce found for one founder, one timestamp and one list of transactions is good for these
alone. -/
def C87_full : Prop := ∀ (E : Env) (s : Tree) (pow : BytesN 32) (f f' : Address) (txs txs' : List Hash)
  (ts ts' : UInt64) (b b' : Block), NoCollision32 E → Run E s → s.main.getHeight.val + 1 < U256.size →
  (Tree.emitMain E pow f txs ts s).out = .ok b → (Tree.emitMain E pow f' txs' ts' s).out = .ok b' →
  f = f' ∧ ts = ts' ∧ txs = txs'

theorem emitted_info {E : Env} {s : Tree} {pow : BytesN 32} {founder : Address} {txs : List Hash} {ts : UInt64}
    {b : Block} (hr : Run E s) (hm : s.main.getHeight.val + 1 < U256.size)
    (ho : (Tree.emitMain E pow founder txs ts s).out = .ok b) :
    ∃ last, s.main.getLastBlock = .ok (some last) ∧ NextInfo E last b.info ∧
      MeetsPow E (E.sha256 last.dump) last.info.difficulty txs pow.val ∧
      b.info.timestamp = ts ∧ b.info.pow = pow ∧ b.info.founder = founder ∧
      ((txs ≠ [] ∧ ∃ x, b = .transaction x ∧ x.transactions = txs ∧ IsMerkleRoot E txs x.merkleTreeRoot) ∨
       (txs = [] ∧ ∃ x, b = .summarize x)) := by
  obtain ⟨bs, h⟩ := run_holds hr hm
  rcases emitMain_cases h hm pow founder txs ts with ⟨out, h1, h2, _⟩ | ⟨l, r, b', s0, c, tr, k1, _, k3, k4, k5, _, k7, _, _, _, k11⟩
  · rw [h2] at ho; exact absurd ho (h1 _)
  · rw [k7] at ho
    simp only [Outcome.ok.injEq] at ho
    subst ho
    obtain ⟨last, j1, j2, j3, _, j5, j6, j7⟩ := emitChecks_ok k3
    rw [k1] at j1
    cases j1
    refine ⟨l, k1, by rw [k5]; exact j2, (checkPow_iff ..).mp j3, by rw [k5]; exact j5, by rw [k5]; exact j6,
      by rw [k5]; exact j7, ?_⟩
    rcases k11 with ⟨_, k, hb, _⟩ | ⟨_, k, hb, _⟩
    · exact .inl ⟨k, _, hb, rfl, by rw [← merkleRoot_iff, merkleRoot_eq]⟩
    · exact .inr ⟨k, _, hb⟩

/-- C87, what holds: what is hashed is the previous hash, the Merkle root of the transactions and the nonce, each of 32
bytes, so they are determined by it. A transaction block carries all three; a summarize block was made for the root of
no transactions. Missing: founder, timestamp and balances are not hashed (`C87_refuted`). -/
theorem C87_covered_partial (E : Env) (s : Tree) (pow : BytesN 32) (founder : Address) (txs : List Hash) (ts : UInt64)
    (b : Block) (hr : Run E s) (hm : s.main.getHeight.val + 1 < U256.size)
    (ho : (Tree.emitMain E pow founder txs ts s).out = .ok b) :
    (∃ (last : Block) (root : Hash) (kd kr : Nat), s.main.getLastBlock = .ok (some last) ∧ IsMerkleRoot E txs root ∧
      Spec.IsBitLength (Spec.value last.info.difficulty.val) kd ∧
      Spec.IsBitLength (Spec.value (E.sha256 (b.info.previousHash.val ++ root.val ++ b.info.pow.val)).val) kr ∧ kr ≤ kd ∧
      (∀ x, b = .transaction x → root = x.merkleTreeRoot) ∧ (∀ x, b = .summarize x → txs = [])) ∧
    ∀ p p' root root' n n' : Hash, p.val ++ root.val ++ n.val = p'.val ++ root'.val ++ n'.val →
      p = p' ∧ root = root' ∧ n = n' := by
  refine ⟨?_, fun p p' root root' n n' h => ?_⟩
  · obtain ⟨last, h1, h2, ⟨q, kd, kr, m1, m2, m3, m4⟩, _, h5, _, h7⟩ := emitted_info hr hm ho
    refine ⟨last, _, kd, kr, h1, ⟨q, m1, rfl⟩, m2, ?_, m4, fun x hx => ?_, fun x hx => ?_⟩
    · rw [h2.link, h5]; exact m3
    · rcases h7 with ⟨_, y, e, _, q', n1, n2⟩ | ⟨_, y, e⟩
      · rw [hx] at e; cases e
        rw [n2, isNextPower_unique n1 m1]
      · rw [hx] at e; cases e
    · rcases h7 with ⟨_, y, e, _⟩ | ⟨h, _⟩
      · rw [hx] at e; cases e
      · exact h
  · obtain ⟨h1, h2⟩ := List.append_inj' h (by rw [n.property, n'.property])
    obtain ⟨h3, h4⟩ := List.append_inj' h1 (by rw [root.property, root'.property])
    exact ⟨Subtype.ext h3, Subtype.ext h4, Subtype.ext h2⟩

theorem meetsPow_id (first difficulty : Hash) (txs : List Hash) (pow : Hash) :
    MeetsPow idEnv first difficulty txs pow.val := by
  rw [← checkPow_iff]
  unfold checkPow
  rw [merkleRoot_eq, Outcome.ok_bind]
  have : countLeadingZeros (idEnv.sha256 (first.val ++ (merkleRootT idEnv txs).val ++ pow.val)).val = 256 := by
    have : idEnv.sha256 (first.val ++ (merkleRootT idEnv txs).val ++ pow.val) = BytesN.fill 32 0 := by
      unfold idEnv
      simp only
      rw [dif_neg (by simp only [List.length_append, first.property, pow.property]; omega)]
    rw [this]
    decide +kernel
  show Outcome.ok (decide (_ ≤ countLeadingZeros (idEnv.sha256 (first.val ++ (merkleRootT idEnv txs).val ++ pow.val)).val)) = _
  rw [this]
  simp [clz_le_256]

/-- C87 is false of the code, for every hash function: who has seen a nonce for the next block can use it for
themselves, with any timestamp not before the last block's. -/
theorem C87_refuted : (∀ (E : Env) (s : Tree) (last : Block) (pow : BytesN 32) (f : Address) (txs : List Hash)
      (ts : UInt64) (b : Block), RunWith E EmitOnly s → s.main.getHeight.val + 1 < U256.size →
      s.main.getLastBlock = .ok (some last) → (Tree.emitMain E pow f txs ts s).out = .ok b →
      ∀ (f' : Address) (ts' : UInt64), last.info.timestamp ≤ ts' → ∃ b', (Tree.emitMain E pow f' txs ts' s).out = .ok b' ∧
        b'.info.founder = f' ∧ b'.info.timestamp = ts' ∧ b'.info.pow = pow) ∧ ¬ C87_full := by
  have key : ∀ (E : Env) (s : Tree) (last : Block) (pow : BytesN 32) (f : Address) (txs : List Hash)
      (ts : UInt64) (b : Block), RunWith E EmitOnly s → s.main.getHeight.val + 1 < U256.size →
      s.main.getLastBlock = .ok (some last) → (Tree.emitMain E pow f txs ts s).out = .ok b →
      ∀ (f' : Address) (ts' : UInt64), last.info.timestamp ≤ ts' → ∃ b', (Tree.emitMain E pow f' txs ts' s).out = .ok b' ∧
        b'.info.founder = f' ∧ b'.info.timestamp = ts' ∧ b'.info.pow = pow := by
    intro E s last pow f txs ts b hr hm hl ho f' ts' ht
    have hrun := runWith_run hr
    obtain ⟨l, h1, _, h3, _, _, _, h7⟩ := emitted_info hrun hm ho
    rw [hl] at h1; cases h1
    have hep : s.main.getHeight.val % 1000000 = 0 ↔ txs = [] := by
      obtain ⟨bs, h⟩ := run_holds hrun hm
      rcases emitMain_cases h hm pow f txs ts with ⟨out, h1, h2, _⟩ | ⟨_, r, _, _, _, _, _, _, _, _, _, k6, _, _, _, _, k11⟩
      · rw [h2] at ho; exact absurd ho (h1 _)
      · rw [k6] at k11
        rcases k11 with ⟨e, k, _⟩ | ⟨e, k, _⟩
        · exact ⟨fun h => absurd h e, fun h => absurd h k⟩
        · exact ⟨fun _ => k, fun _ => e⟩
    obtain ⟨b', hb', _⟩ := ((C40_exact_partial E s _ pow f' txs ts' hr hm hl (.inl ht)).2 h3).2.2 hep
    obtain ⟨_, _, _, _, j1, j2, j3, _⟩ := emitted_info hrun hm hb'
    exact ⟨b', hb', j3, j1, j2⟩
  refine ⟨key, fun hf => ?_⟩
  obtain ⟨t, _, h2, h3, ⟨b, _, h4, h5⟩, _⟩ := C37_fresh_node idEnv
  have hr : RunWith idEnv EmitOnly t := h2 ▸ .fresh
  have hm : t.main.getHeight.val + 1 < U256.size := by rw [h3]; decide
  have hle : (Block.summarize b).info.timestamp ≤ 1597924800 := by simp only [Block.info, h5]; decide
  obtain ⟨x, hx, _⟩ := ((C40_exact_partial idEnv t _ (BytesN.fill 32 0) (BytesN.fill 33 1) [BytesN.fill 32 5]
    1597924800 hr hm h4 (.inl hle)).2 (meetsPow_id ..)).2.2 (by rw [h3]; simp)
  obtain ⟨y, hy, _⟩ := key idEnv t _ _ _ _ _ x hr hm h4 hx (BytesN.fill 33 2) 1597924800 hle
  have := (hf idEnv t _ _ _ _ _ _ _ x y idEnv_noCollision (runWith_run hr) hm hx hy).1
  revert this
  decide

/-! ## C88 -/

/-- C88 at full strength: a nonce that has made one owner's block makes no other owner's. -/
def C88_full : Prop := ∀ (E : Env) (s : Tree) (pow : BytesN 32) (f f' : Address) (ts ts' : UInt64) (b b' : Block),
  NoCollision32 E → Run E s → f ≠ f' → (Tree.emitDerivative E pow f ts s).out = .ok b →
  (Tree.emitDerivative E pow f' ts' (Tree.emitDerivative E pow f ts s).final).out ≠ .ok b'

/-- The first block for an owner, from the main chain alone. -/
def firstBlock (E : Env) (m : MainChain) (last : Block) (pow : BytesN 32) (o : Address) (ts : UInt64) :
    Outcome DerivativeBlock := do
  let found ← m.findByHash (last.hash E)
  match found with
  | none => Outcome.err .chainFindByHashE
  | some block => do
    let good ← checkPow E (block.hash E) BEGINNING_DIFFICULTY [] pow.val
    if !good then .err .treeWrongPow
    else do
      let difficulty ← recalculateDifficulty E block.info.timestamp ts BEGINNING_DIFFICULTY
      .ok ⟨{ timestamp := ts, pow, previousHash := block.hash E, height := U256.zero, difficulty, founder := o }⟩

theorem firstBlock_ok {E : Env} {m : MainChain} {last : Block} {pow : BytesN 32} {o : Address} {ts : UInt64}
    {d : DerivativeBlock} (h : firstBlock E m last pow o ts = .ok d) :
    d.defaultInfo.height = U256.zero ∧ ∃ d' : Address → DerivativeBlock,
      ∀ o', firstBlock E m last pow o' ts = .ok (d' o') := by
  unfold firstBlock at h ⊢
  cases hf : m.findByHash (last.hash E) with
  | err e => simp [hf] at h
  | panic e => simp [hf] at h
  | ub => simp [hf] at h
  | ok x =>
    cases x with
    | none => simp [hf] at h
    | some block =>
      simp only [hf, Outcome.ok_bind] at h ⊢
      cases hc : checkPow E (block.hash E) BEGINNING_DIFFICULTY [] pow.val with
      | err e => simp [hc] at h
      | panic e => simp [hc] at h
      | ub => simp [hc] at h
      | ok g =>
        cases g with
        | false => simp [hc] at h
        | true =>
          simp only [hc, Outcome.ok_bind, Bool.not_true, Bool.false_eq_true, if_false] at h ⊢
          cases hr : recalculateDifficulty E block.info.timestamp ts BEGINNING_DIFFICULTY with
          | err e => simp [hr] at h
          | panic e => simp [hr] at h
          | ub => simp [hr] at h
          | ok dd =>
            simp only [hr, Outcome.ok_bind, Outcome.ok.injEq] at h ⊢
            subst h
            exact ⟨rfl, _, fun o' => rfl⟩

theorem emitDerivative_first {E : Env} {s : Tree} {o : Address} {last : Block} (hn : s.derivMem o = none)
    (hf : s.derivFiles (hexEncode o.val) = DerivFiles.fresh) (hl : s.main.getLastBlock = .ok (some last))
    (pow : BytesN 32) (ts : UInt64) : (Tree.emitDerivative E pow o ts s).out =
      (firstBlock E s.main last pow o ts >>= fun d => .ok (.derivative d)) := by
  rw [emitDerivative_checks]
  have hopen : Tree.getDerivativeChain E o s = ⟨.ok (), Tree.putHandle o
      ⟨⟨Db.open' KV.empty, Db.open' KV.empty, U256.zero, BEGINNING_DIFFICULTY, none⟩, last.hash E⟩ s, [Tree.putHandle o
      ⟨⟨Db.open' KV.empty, Db.open' KV.empty, U256.zero, BEGINNING_DIFFICULTY, none⟩, last.hash E⟩ s]⟩ := by
    rcases Tree.getDeriv_cases E o s with ⟨h, _⟩ | ⟨_, ⟨out, ho, h⟩ | ⟨b, c, hb, hc, h⟩⟩
    · rw [hn] at h; cases h
    · exfalso
      unfold Tree.getDerivativeChain at h
      rw [Act.get_bind] at h
      simp only [hn, Option.isSome_none, Bool.false_eq_true, if_false, hl, hf] at h
      rw [Act.lift_ok_bind] at h
      simp only [Outcome.ofOption_some, Act.lift_ok_bind, DerivativeChain.new_fresh] at h
      exact ho () (congrArg Res.out h).symm
    · rw [hl] at hb; cases hb
      rw [hf, DerivativeChain.new_fresh] at hc
      cases hc; exact h
  rw [Act.bind_ok hopen, Act.get_bind]
  obtain ⟨t, ht⟩ : ∃ t, t = Tree.putHandle o
      ⟨⟨Db.open' KV.empty, Db.open' KV.empty, U256.zero, BEGINNING_DIFFICULTY, none⟩, last.hash E⟩ s := ⟨_, rfl⟩
  have hh : t.handle o = ⟨⟨Db.open' KV.empty, Db.open' KV.empty, U256.zero, BEGINNING_DIFFICULTY, none⟩, last.hash E⟩ := by
    rw [ht, Tree.handle_put_self]
  have hmain : t.main = s.main := by rw [ht]; rfl
  rw [← ht]
  have hk : derivChecks E t pow o ts = firstBlock E s.main last pow o ts := by
    unfold derivChecks firstBlock
    rw [hh, hmain]
    have : DerivativeChain.getLastBlock ⟨⟨Db.open' KV.empty, Db.open' KV.empty, U256.zero, BEGINNING_DIFFICULTY, none⟩,
      last.hash E⟩ = .ok none := rfl
    rw [this]
    simp only [Outcome.ok_bind]
    cases s.main.findByHash (last.hash E) with
    | err e => rfl
    | panic e => rfl
    | ub => rfl
    | ok x => cases x <;> rfl
  rw [hk]
  cases hb : firstBlock E s.main last pow o ts with
  | err e => rfl
  | panic e => rfl
  | ub => rfl
  | ok d =>
    have hz : d.defaultInfo.height = (t.handle o).chain.height := by
      rw [hh]
      exact (firstBlock_ok hb).1
    have hlt : (t.handle o).chain.height.val + 1 < U256.size := by
      rw [hh]
      show U256.zero.val + 1 < U256.size
      decide
    have hadd : ∃ tr, Tree.onDeriv o (DerivativeChain.addBlock E d) t = ⟨.ok (),
        Tree.putHandle o { t.handle o with
          chain := (t.handle o).chain.put3 E d.dump ⟨(t.handle o).chain.height.val + 1, hlt⟩ } t, tr⟩ := by
      unfold Tree.onDeriv DerivativeChain.addBlock DerivativeChain.onChain
      rw [Act.zoom_run, Act.zoom_run, hz, Chain.addBlock_right hlt]
      exact ⟨_, rfl⟩
    obtain ⟨tr, hadd⟩ := hadd
    rw [Act.lift_ok_bind, Act.bind_ok hadd]
    rfl

/-- Emitting for one owner opens no other owner's chain. -/
theorem emitDerivative_mem (E : Env) (s : Tree) (p : BytesN 32) (f : Address) (ts : UInt64) (o : Address) (ho : o ≠ f) :
    (Tree.emitDerivative E p f ts s).final.derivMem o = s.derivMem o := by
  have P : Act.PreOrd (fun a b : Tree => b.derivMem o = a.derivMem o) := ⟨fun _ => rfl, fun h1 h2 => h2.trans h1⟩
  have C := Act.relF_closed P
  have hput : ∀ (c : DerivativeChain) (s : Tree), (Tree.putHandle f c s).derivMem o = s.derivMem o := by
    intro c s
    unfold Tree.putHandle
    simp [ho]
  rw [emitDerivative_checks]
  have hx : Act.RelF (fun a b : Tree => b.derivMem o = a.derivMem o) (Tree.getDerivativeChain E f) := by
    intro s
    rcases Tree.getDeriv_cases E f s with ⟨_, h⟩ | ⟨hm, ⟨out, _, h⟩ | ⟨b, c, _, hn, h⟩⟩
    · rw [h]
    · rw [h]
    · rw [h]; exact hput c s
  refine C.bind hx (fun _ => C.bind C.get fun t => C.bind (C.lift _) fun b => C.bind ?_ fun _ => C.pure _) s
  intro s
  exact hput _ s

/-- C88, what holds: along one main chain, and along one derivative chain, the proofs of work of two different blocks
are for different bytes, unless two stored blocks have the same hash. Missing: different chains (`C88_refuted`). -/
theorem C88_one_chain_partial (E : Env) (s : Tree) (hm : s.main.getHeight.val + 1 < U256.size) :
    (RunWith E EmitOnly s → ∀ (q q' : U256) (a b : Block), 0 < q.val → q.val < q'.val →
      q'.val < s.main.getHeight.val → s.main.findByHeight q = .ok (some a) → s.main.findByHeight q' = .ok (some b) →
      a.info.previousHash = b.info.previousHash → ∃ (p p' : U256) (c d : Block), p ≠ p' ∧
        s.main.findByHeight p = .ok (some c) ∧ s.main.findByHeight p' = .ok (some d) ∧ c.dump ≠ d.dump ∧
        E.sha256 c.dump = E.sha256 d.dump) ∧
    (RunWith E DerivEmitOnly s → ∀ (o : Address), (s.handle o).chain.height.val + 1 < U256.size →
      ∀ (q q' : U256) (a b : DerivativeBlock), q.val < q'.val → q'.val < (s.handle o).chain.height.val →
      (s.handle o).findByHeight q = .ok (some a) → (s.handle o).findByHeight q' = .ok (some b) →
      a.defaultInfo.previousHash = b.defaultInfo.previousHash → ∃ (p' : U256) (c : Block) (d : DerivativeBlock),
        ((∃ p, s.main.findByHeight p = .ok (some c)) ∨
          ∃ p x, c = .derivative x ∧ (s.handle o).findByHeight p = .ok (some x)) ∧
        (s.handle o).findByHeight p' = .ok (some d) ∧ c.dump ≠ d.dump ∧ E.sha256 c.dump = E.sha256 d.dump) := by
  have pred : ∀ q : U256, 0 < q.val → ∃ p : U256, q.val = p.val + 1 := fun q h =>
    ⟨⟨q.val - 1, by have := q.lt; omega⟩, by simp only; omega⟩
  refine ⟨fun hr q q' a b h0 hlt hh ha hb he => ?_, fun hr o ho q q' a b hlt hh ha hb he => ?_⟩
  · obtain ⟨p, hp⟩ := pred q h0
    obtain ⟨p', hp'⟩ := pred q' (by omega)
    obtain ⟨c, x, c1, c2, c3, c4, _⟩ := C38_hash_linked E s hr hm p q hp (by omega)
    obtain ⟨d, y, d1, d2, d3, d4, _⟩ := C38_hash_linked E s hr hm p' q' hp' hh
    rw [ha] at c2; cases c2
    rw [hb] at d2; cases d2
    have hne : p ≠ p' := fun e => by rw [e] at hp; omega
    refine ⟨p, p', c, d, hne, c1, d1, fun e => hne ?_, by rw [← c3, ← d3, he]⟩
    rw [← c4, ← d4, Block.dump_inj e]
  · have hL := C44_anchored_and_linked E s hr hm o ho
    obtain ⟨p', hp'⟩ := pred q' (by omega)
    obtain ⟨d, y, d1, d2, d3, d4, _⟩ := hL.2 p' q' hp' hh
    rw [hb] at d2; cases d2
    by_cases h0 : q.val = 0
    · obtain ⟨p, c, x, c1, c2, c3, _⟩ := hL.1 (by omega)
      have : q = U256.zero := U256.ext h0
      subst this
      rw [ha] at c2; cases c2
      refine ⟨p', c, d, .inl ⟨p, c1⟩, d1, fun e => ?_, by rw [← c3, ← d3, he]⟩
      have e' : c = .derivative d := Block.dump_inj e
      rw [e'] at c1
      obtain ⟨bs, h⟩ := run_holds (runWith_run hr) hm
      unfold MainChain.findByHeight MainChain.findRawByHeight at c1
      rw [h.findRaw] at c1
      cases hg : (genesis E :: bs)[p.val]? with
      | none => rw [hg] at c1; simp [MainChain.decode] at c1
      | some g =>
        rw [hg] at c1
        simp only [Option.map_some] at c1
        cases g with
        | derivative x =>
          obtain ⟨e', he'⟩ := C11_main_block_read_back_partial.2.1 x
          simp [MainChain.decode, Block.dump, he'] at c1
        | transaction x =>
          obtain ⟨hi, hgi⟩ := List.getElem?_eq_some_iff.mp hg
          have hz : p.val ≠ 0 := fun h0 => by simp only [h0] at hgi; cases hgi
          have := h.heights p.val hi
          rw [hgi] at this
          rw [decode_main (.transaction x) trivial (.inl (by rw [this]; exact hz))] at c1
          cases c1
        | summarize x =>
          rw [decode_main (.summarize x) trivial (.inr ⟨x, rfl⟩)] at c1
          cases c1
    · obtain ⟨p, hp⟩ := pred q (by omega)
      obtain ⟨c, x, c1, c2, c3, c4, _⟩ := hL.2 p q hp (by omega)
      rw [ha] at c2; cases c2
      have hne : p ≠ p' := fun e => by rw [e] at hp; omega
      refine ⟨p', .derivative c, d, .inr ⟨p, c, rfl, c1⟩, d1, fun e => hne ?_, by
        show E.sha256 c.dump = _
        rw [← c3, ← d3, he]⟩
      rw [← c4, ← d4, DerivativeBlock.dump_inj e]

/-- Chains with two blocks exist; where every digest is the same, the conclusion is the collision. -/
example : RunWith zeroEnv DerivEmitOnly derivHistory ∧ derivHistory.main.getHeight.val + 1 < U256.size ∧
    (derivHistory.handle (BytesN.fill 33 4)).chain.height.val = 2 ∧ ∃ a b,
    (derivHistory.handle (BytesN.fill 33 4)).findByHeight U256.zero = .ok (some a) ∧
    (derivHistory.handle (BytesN.fill 33 4)).findByHeight U256.one = .ok (some b) ∧
    a.defaultInfo.previousHash = b.defaultInfo.previousHash := by
  have hr : RunWith zeroEnv DerivEmitOnly derivHistory := .call _ _ (.call _ _ .fresh trivial) trivial
  have hm : derivHistory.main.getHeight.val + 1 < U256.size := by decide +kernel
  have h2 : (derivHistory.handle (BytesN.fill 33 4)).chain.height.val = 2 := by decide +kernel
  obtain ⟨_, h⟩ := C44_anchored_and_linked zeroEnv derivHistory hr hm (BytesN.fill 33 4) (by rw [h2]; decide)
  obtain ⟨_, _, d, _, hd, hl, _⟩ := (C44_anchored_and_linked zeroEnv derivHistory hr hm (BytesN.fill 33 4)
    (by rw [h2]; decide)).1 (by rw [h2]; decide)
  obtain ⟨a, b, h3, h4, h5, _⟩ := h U256.zero U256.one rfl (by rw [h2]; decide)
  refine ⟨hr, hm, h2, a, b, h3, h4, ?_⟩
  rw [hd] at h3; cases h3
  rw [hl, h5]; rfl

/-- C88 is false of the code, for every hash function: as long as no block is added to the main chain, a nonce that has
started one owner's chain starts every other owner's. -/
theorem C88_refuted : (∀ (E : Env) (s : Tree) (pow : BytesN 32) (f f' : Address) (ts : UInt64) (b last : Block),
      Run E s → f ≠ f' → s.main.getLastBlock = .ok (some last) → s.derivMem f = none → s.derivMem f' = none →
      (Tree.emitDerivative E pow f ts s).out = .ok b →
      ∃ b', (Tree.emitDerivative E pow f' ts (Tree.emitDerivative E pow f ts s).final).out = .ok b') ∧ ¬ C88_full := by
  have key : ∀ (E : Env) (s : Tree) (pow : BytesN 32) (f f' : Address) (ts : UInt64) (b last : Block),
      Run E s → f ≠ f' → s.main.getLastBlock = .ok (some last) → s.derivMem f = none → s.derivMem f' = none →
      (Tree.emitDerivative E pow f ts s).out = .ok b →
      ∃ b', (Tree.emitDerivative E pow f' ts (Tree.emitDerivative E pow f ts s).final).out = .ok b' := by
    intro E s pow f f' ts b last hr hne hl h1 h2 ho
    have hc := run_derivClean hr
    rw [emitDerivative_first h1 (hc f h1) hl] at ho
    have hr' : Run E (Tree.emitDerivative E pow f ts s).final := by
      have : Run E ((Op.emitDerivative pow f ts).run E s).final := .call _ _ hr trivial
      rwa [show ((Op.emitDerivative pow f ts).run E s).final = (Tree.emitDerivative E pow f ts s).final from
        rfl] at this
    have hm' := (emitDerivative_frame E s pow f ts).1
    have h2' : (Tree.emitDerivative E pow f ts s).final.derivMem f' = none := by
      rw [emitDerivative_mem E s pow f ts f' (Ne.symm hne), h2]
    rw [emitDerivative_first h2' (run_derivClean hr' f' h2') (by rw [hm']; exact hl), hm']
    cases hb : firstBlock E s.main last pow f ts with
    | err e => rw [hb] at ho; cases ho
    | panic e => rw [hb] at ho; cases ho
    | ub => rw [hb] at ho; cases ho
    | ok d =>
      obtain ⟨_, d', hd'⟩ := firstBlock_ok hb
      exact ⟨.derivative (d' f'), by rw [hd' f']; rfl⟩
  refine ⟨key, fun hf => ?_⟩
  obtain ⟨t, _, h2, h3, ⟨b, _, h4, h5⟩, _⟩ := C37_fresh_node idEnv
  have h6 : ∀ o, t.derivMem o = none := fun o => by rw [← h2, (openTree_fresh idEnv).2]; rfl
  have hr : Run idEnv t := h2 ▸ .fresh
  have ho : ∃ x, (Tree.emitDerivative idEnv (BytesN.fill 32 0) (BytesN.fill 33 1) 1597924800 t).out = .ok x := by
    have : (match (Tree.emitDerivative idEnv (BytesN.fill 32 0) (BytesN.fill 33 1) 1597924800 t).out with
      | .ok _ => true | _ => false) = true := by
      rw [← h2, (openTree_fresh idEnv).2]; decide +kernel
    split at this
    · exact ⟨_, by assumption⟩
    · cases this
  obtain ⟨x, hx⟩ := ho
  obtain ⟨y, hy⟩ := key idEnv t _ _ (BytesN.fill 33 2) _ x _ hr (by decide) h4 (h6 _) (h6 _) hx
  exact hf idEnv t _ _ _ _ _ x y idEnv_noCollision hr (by decide) hx hy

end BCT.Props
