import Verif.Lemmas.Faults
import Verif.Props.Crash
import Verif.Props.Trust
/-!
# C89 – C93: calls that are cut short by an I/O error or by dropping their future
-/

namespace BCT.Props
open BCT

/-! ## C89 -/

/-- C89. However many calls are cut short and however often the node crashes, every balance of an open node can be read
and every stored transaction can be found under its hash and parsed. -/
theorem C89_readable (E : Env) (s : Tree) (h : FaultyLife E (.idle s)) :
    (∃ f, Shows s.summary f) ∧ (∃ g, Shows s.gas g) ∧
    (∀ k raw, s.main.transactions.get k = some raw → k = (E.sha256 raw).val ∧ ∃ t : Transaction, raw = t.dump) ∧
    ∀ x, s.main.getTransaction E x = .ok none ∨ ∃ t, s.main.getTransaction E x = .ok (some t) := by
  have hi : StoreInv E s := faultyLife_storeInv h
  refine ⟨⟨_, shows_amt hi.summary.1⟩, ⟨_, shows_amt hi.gas.1⟩, hi.txs.1, fun x => ?_⟩
  cases hx : s.main.getTransactionRaw x with
  | none => left; unfold MainChain.getTransaction; rw [hx]
  | some raw =>
    obtain ⟨_, t, rfl⟩ := hi.txs.1 _ _ hx
    exact .inr ⟨_, getTransaction_dump hx⟩

theorem faultyLater_txsGrow {E : Env} {s t : Tree} (h : FaultyLater E s t) : TxsGrow s t := by
  induction h with
  | refl => exact fun _ h => h
  | call s' op _ ih =>
    exact fun k h => (Op.sat (txsGrow_prims E) (Act.rel_closed txsGrow_preord) op op.adds_true s').1 k (ih k h)
  | cut s' t op _ ht ih =>
    exact fun k h => (Op.sat (txsGrow_prims E) (Act.rel_closed txsGrow_preord) op op.adds_true s').2 t ht k (ih k h)

/-- C89. Calls that are cut short never remove a transaction or change its bytes. -/
theorem C89_never_lost (E : Env) (s t : Tree) (hs : FaultyLife E (.idle s)) (hl : FaultyLater E s t) (h : Hash)
    (raw : Bytes) (hr : s.main.getTransactionRaw h = some raw) :
    t.main.getTransactionRaw h = some raw ∨
      ∃ raw', t.main.getTransactionRaw h = some raw' ∧ raw' ≠ raw ∧ E.sha256 raw' = E.sha256 raw := by
  have hg := faultyLater_txsGrow hl h.val (by
    have : s.main.transactions.get h.val = some raw := hr
    rw [this]; rfl)
  obtain ⟨raw', hraw'⟩ := Option.isSome_iff_exists.mp hg
  have h' : t.main.getTransactionRaw h = some raw' := hraw'
  by_cases e : raw' = raw
  · exact .inl (e ▸ h')
  · have e1 := ((C89_readable E s hs).2.2.1 _ _ hr).1
    have e2 := ((C89_readable E t (faultyLater_life hs hl)).2.2.1 _ _ h').1
    exact .inr ⟨raw', h', e, Subtype.ext (e2.symm.trans e1)⟩

/-! ## C90 -/

/-- Nothing that `send_transaction` writes differs. -/
def SameStores (s t : Tree) : Prop :=
  (∀ f, Shows s.summary f → Shows t.summary f) ∧ (∀ g, Shows s.gas g → Shows t.gas g) ∧
  ∀ h, t.main.getTransactionRaw h = s.main.getTransactionRaw h

/-- C90 at full strength: wherever `send_transaction` is cut short, it has had either no effect or its whole effect. -/
def C90_full : Prop := ∀ (E : Env) (s t : Tree) (tx : Transaction), FaultyRun E s →
  t ∈ ((Op.sendTransaction tx).run E s).trace →
  SameStores s t ∨ SameStores ((Op.sendTransaction tx).run E s).final t

/-- C90, what holds: wherever it is cut short, the transaction is stored; the coins are moved entirely or not at all;
the gas is charged entirely or not at all, and not before the coins are moved. Nothing else changes and no coin is lost.
Missing: these three steps can be separated (`C90_refuted`). -/
theorem C90_steps_partial (E : Env) (s t : Tree) (tx : Transaction) (f g : Spec.Accounts) (hr : FaultyRun E s)
    (hf : Shows s.summary f) (hg : Shows s.gas g) (ht : t ∈ ((Op.sendTransaction tx).run E s).trace) :
    t.main.getTransactionRaw (E.sha256 tx.dump) = some tx.dump ∧
    (∀ h, h ≠ E.sha256 tx.dump → t.main.getTransactionRaw h = s.main.getTransactionRaw h) ∧
    (Shows t.summary f ∧ Shows t.gas g ∨
     Shows t.summary (coinsAfter f tx) ∧
       (Shows t.gas g ∨ Shows t.gas (g.update tx.sender.val (g tx.sender.val - 625000000000 * tx.getDumpSize)))) ∧
    t.main.chain = s.main.chain ∧ t.oldSummary = s.oldSummary ∧ t.oldGas = s.oldGas ∧
    ∀ f' n, Shows t.summary f' → Spec.Total f n → Spec.Total f' n := by
  have hi : StoreInv E s := faultyLife_storeInv (faultyRun_life hr)
  have hi' : StoreInv E t := (Op.storeInv E _ s).2 t ht hi
  have hsup : ∀ f' n, Shows t.summary f' → Spec.Total f n → Spec.Total f' n := fun f' n hf' hn => by
    rw [total_iff hi'.summary.1 hf', transfer_supply_inv (op := .sendTransaction tx) hi trivial t (.inr ht)]
    exact (total_iff hi.summary.1 hf).mp hn
  have raws : ∀ u : Tree, u.main = (s.withTx E tx).main →
      u.main.getTransactionRaw (E.sha256 tx.dump) = some tx.dump ∧
      ∀ h, h ≠ E.sha256 tx.dump → u.main.getTransactionRaw h = s.main.getTransactionRaw h := by
    intro u hu
    rw [hu]
    refine ⟨by simp [MainChain.getTransactionRaw, Tree.withTx], fun q hq => ?_⟩
    unfold MainChain.getTransactionRaw
    simp only [Tree.withTx]
    rw [Db.get_insert, if_neg (fun e => hq (Subtype.ext e).symm)]
  rw [send_op] at ht
  rcases sendTransaction_cases E s tx hi.summary.1 hi.gas.1 with ⟨l, fee, h, ha, h1, h2, h3⟩ | ⟨_, _, _, _, _, e⟩ | ⟨_, o, ho, e⟩
  · obtain ⟨_, _, _, _, _, h4⟩ := (affordable_iff (tx := tx) hf hg).mpr ⟨l, fee, ha⟩
    have hp : Shows (paid s.summary tx h) (coinsAfter f tx) := shows_paid hi.summary.1 hf tx h (by omega)
    have hc := shows_charged hi.gas.1 hg tx
    rw [h3] at ht
    split at ht
    · simp only [List.mem_cons, List.not_mem_nil, or_false] at ht
      rcases ht with rfl | rfl
      · exact ⟨(raws _ rfl).1, (raws _ rfl).2, .inl ⟨hf, hg⟩, rfl, rfl, rfl, hsup⟩
      · exact ⟨(raws _ rfl).1, (raws _ rfl).2, .inr ⟨hp, .inr hc⟩, rfl, rfl, rfl, hsup⟩
    · simp only [List.mem_cons, List.not_mem_nil, or_false] at ht
      rcases ht with rfl | rfl | rfl
      · exact ⟨(raws _ rfl).1, (raws _ rfl).2, .inl ⟨hf, hg⟩, rfl, rfl, rfl, hsup⟩
      · exact ⟨(raws _ rfl).1, (raws _ rfl).2, .inr ⟨hp, .inl hg⟩, rfl, rfl, rfl, hsup⟩
      · exact ⟨(raws _ rfl).1, (raws _ rfl).2, .inr ⟨hp, .inr hc⟩, rfl, rfl, rfl, hsup⟩
  · rw [e] at ht
    simp only [List.mem_cons, List.not_mem_nil, or_false] at ht
    subst ht
    exact ⟨(raws _ rfl).1, (raws _ rfl).2, .inl ⟨hf, hg⟩, rfl, rfl, rfl, hsup⟩
  · rw [e] at ht; simp at ht

/-- C90 is false of the code, for every hash function: a successful transfer between two accounts passes through a state
in which the coins are moved and the gas is not yet charged. -/
theorem C90_refuted :
    (∀ (E : Env) (s : Tree) (tx : Transaction) (f g : Spec.Accounts), FaultyRun E s → Shows s.summary f →
      Shows s.gas g → tx.sender ≠ tx.receiver → ((Op.sendTransaction tx).run E s).out = .ok () →
      ∃ t ∈ ((Op.sendTransaction tx).run E s).trace, Shows t.summary (coinsAfter f tx) ∧ Shows t.gas g) ∧
    ¬ C90_full := by
  have key : ∀ (E : Env) (s : Tree) (tx : Transaction) (f g : Spec.Accounts), FaultyRun E s → Shows s.summary f →
      Shows s.gas g → tx.sender ≠ tx.receiver → ((Op.sendTransaction tx).run E s).out = .ok () →
      ∃ t ∈ ((Op.sendTransaction tx).run E s).trace, Shows t.summary (coinsAfter f tx) ∧ Shows t.gas g := by
    intro E s tx f g hr hf hg hne ho
    have hi : StoreInv E s := faultyLife_storeInv (faultyRun_life hr)
    rw [send_op] at ho ⊢
    rcases sendTransaction_cases E s tx hi.summary.1 hi.gas.1 with ⟨l, fee, h, ha, h1, h2, h3⟩ | ⟨_, _, _, _, _, e⟩ | ⟨_, o, ho', e⟩
    · obtain ⟨_, _, _, _, _, h4⟩ := (affordable_iff (tx := tx) hf hg).mpr ⟨l, fee, ha⟩
      rw [h3, if_neg hne]
      refine ⟨_, List.mem_cons_of_mem _ List.mem_cons_self, ?_, hg⟩
      exact shows_paid hi.summary.1 hf tx h (by omega)
    · rw [e] at ho; cases ho
    · rw [e] at ho; exact absurd ho (ho' ())
  refine ⟨key, fun h => ?_⟩
  obtain ⟨s, h1, h2, h3, h4, l, h5, h6⟩ := funded idEnv U256.zero
  have ok1 : ((Op.sendTransaction exTx).run idEnv s).out = .ok () :=
    (C53_admission idEnv s exTx _ _ h1 h2 h3).mpr ⟨funded_affordable _ h5 h6 exTx rfl rfl (by decide), .inr (by
      rw [funded_receiver]; decide)⟩
  obtain ⟨t, ht, c, g⟩ := key idEnv s exTx _ _ (run_faultyRun h1) h2 h3 exTx_ne ok1
  obtain ⟨s', e', _, _, c', g', _, hcost, _⟩ := (C52_effect idEnv s exTx _ _ h1 h2 h3).1 ok1
  rcases h idEnv s t exTx (run_faultyRun h1) ht with h | h
  · have := shows_unique (h.1 _ h2) c
    have := congrFun this exTx.receiver.val
    unfold coinsAfter at this
    rw [if_neg exTx_ne] at this
    unfold Spec.Accounts.update at this
    rw [if_pos rfl, funded_receiver] at this
    revert this; decide
  · rw [e'] at h
    have := shows_unique (h.2.1 _ g') g
    have := congrFun this exTx.sender.val
    unfold Spec.Accounts.update at this
    rw [if_pos rfl, funded_gas] at this
    revert this; decide

/-- A cut transfer: the hypotheses of C89 and C90 are met by a node whose last call was cut short. -/
example (E : Env) : ∃ s t, Run E s ∧ t ∈ ((Op.sendTransaction exTx).run E s).trace ∧ FaultyRun E t ∧
    FaultyLife E (.idle t) := by
  obtain ⟨s, h1, h2, h3, h4, l, h5, h6⟩ := funded E U256.zero
  obtain ⟨t, ht, _⟩ := C90_refuted.1 E s exTx _ _ (run_faultyRun h1) h2 h3 exTx_ne
    ((C53_admission E s exTx _ _ h1 h2 h3).mpr ⟨funded_affordable _ h5 h6 exTx rfl rfl (by decide), .inr (by
      rw [funded_receiver]; decide)⟩)
  have : FaultyRun E t := .cut s t _ (run_faultyRun h1) ht
  exact ⟨s, t, h1, ht, this, faultyRun_life this⟩

/-! ## C91 -/

/-- C91 at full strength: an `add_block` that is cut short before the chain has grown leaves no trace. -/
def C91_full : Prop := ∀ (E : Env) (s t : Tree) (b : Block), FaultyRun E s → t ∈ ((Op.addBlock b).run E s).trace →
  t.main.getHeight = s.main.getHeight →
  (∀ q, t.main.findRawByHeight q = s.main.findRawByHeight q) ∧ ∀ h, t.main.findRawByHash h = s.main.findRawByHash h

theorem Keeps.findRaw {c : Chain} {bs : List Block} (h : c.Keeps bs) (q : U256) (hq : q.val < c.height.val) :
    c.findRawByHeight q = some (bs[q.val]'(by rw [h.len]; exact hq)).dump := by
  unfold Chain.findRawByHeight
  rw [if_neg (by omega)]
  exact h.stored q.val (by rw [h.len]; exact hq)

/-- The three states `add_block` passes through. -/
theorem addBlock_trace (E : Env) (s : Tree) (b : Block) (hb : b.info.height = s.main.getHeight)
    (hm : s.main.getHeight.val + 1 < 2 ^ 256) :
    ((Op.addBlock b).run E s).out = .ok () ∧
    ((Op.addBlock b).run E s).final =
      { s with main := { s.main with chain := s.main.chain.put3 E b.dump ⟨s.main.chain.height.val + 1, hm⟩ } } ∧
    ((Op.addBlock b).run E s).trace =
      [{ s with main := { s.main with chain := s.main.chain.put1 b.dump } },
       { s with main := { s.main with chain := s.main.chain.put2 E b.dump } },
       { s with main := { s.main with chain := s.main.chain.put3 E b.dump ⟨s.main.chain.height.val + 1, hm⟩ } }] := by
  have hb' : b.info.height = s.main.chain.height := hb
  have e := Chain.addBlock_right (E := E) (dump := b.dump) (s := s.main.chain) hm
  rw [addBlock_op]
  unfold MainChain.addBlock MainChain.onChain
  rw [Act.zoom_run, hb', e]
  exact ⟨rfl, rfl, rfl⟩

/-- C91, what holds: the blocks below the height are unchanged, so are balances and transactions, and adding a block of
the same height again succeeds and replaces what was left behind. Missing: the block can already be found
(`C91_refuted`). -/
theorem C91_retry_partial (E : Env) (s t : Tree) (b b' : Block) (hr : FaultyRun E s)
    (ht : t ∈ ((Op.addBlock b).run E s).trace) (hh : t.main.getHeight = s.main.getHeight)
    (hm : s.main.getHeight.val + 1 < 2 ^ 256) (hb' : b'.info.height = s.main.getHeight) :
    (∀ q : U256, q.val < s.main.getHeight.val → t.main.findRawByHeight q = s.main.findRawByHeight q) ∧
    (∀ h, t.main.getTransactionRaw h = s.main.getTransactionRaw h) ∧ t.summary = s.summary ∧ t.gas = s.gas ∧
    ((Op.addBlock b').run E t).out = .ok () ∧
    ((Op.addBlock b').run E t).final.main.findRawByHeight s.main.getHeight = some b'.dump ∧
    ((Op.addBlock b').run E t).final.main.findRawByHash (b'.hash E) = .ok (some b'.dump) ∧
    ∀ q : U256, q.val < s.main.getHeight.val →
      ((Op.addBlock b').run E t).final.main.findRawByHeight q = s.main.findRawByHeight q := by
  obtain ⟨bs, hk⟩ := faultyRun_keeps hr
  have low : ∀ u : Tree, FaultyLater E s u → ∀ q : U256, q.val < s.main.getHeight.val →
      u.main.findRawByHeight q = s.main.findRawByHeight q := by
    intro u hu q hq
    obtain ⟨new, hn⟩ := faultyLater_extends hu bs hk
    have hq' : q.val < s.main.chain.height.val := hq
    have hl := hn.len
    rw [List.length_append, hk.len] at hl
    unfold MainChain.findRawByHeight
    rw [Keeps.findRaw hn q (by omega), Keeps.findRaw hk q hq', List.getElem_append_left]
  have hcut : FaultyLater E s t := .cut s t _ .refl ht
  have hfr : t.main.transactions = s.main.transactions ∧ t.summary = s.summary ∧ t.gas = s.gas := by
    rw [addBlock_op] at ht
    obtain ⟨m, hm', rfl⟩ := List.mem_map.mp ht
    unfold MainChain.addBlock MainChain.onChain at hm'
    rw [Act.zoom_run] at hm'
    obtain ⟨c, _, rfl⟩ := List.mem_map.mp hm'
    exact ⟨rfl, rfl, rfl⟩
  have hmt : t.main.getHeight.val + 1 < 2 ^ 256 := by rw [hh]; exact hm
  obtain ⟨h1, h2, _⟩ := addBlock_trace E t b' (hb'.trans hh.symm) hmt
  refine ⟨low t hcut, fun h => ?_, hfr.2.1, hfr.2.2, h1, ?_, ?_, low _ (.call t _ hcut)⟩
  · unfold MainChain.getTransactionRaw; rw [hfr.1]
  · rw [h2, ← hh]
    simp [MainChain.findRawByHeight, Chain.findRawByHeight, Chain.put3, MainChain.getHeight]
  · rw [h2]
    unfold MainChain.findRawByHash Chain.findRawByHash
    have e : (t.main.chain.put3 E b'.dump ⟨t.main.chain.height.val + 1, hmt⟩).heightReference.get (b'.hash E).val =
        some t.main.chain.height.toBE.val := by
      simp [Chain.put3, Block.hash]
    simp only [e, fromBE_toBE, Outcome.ok_bind]
    simp [Chain.findRawByHeight, Chain.put3]

/-- C91 is false of the code, for every hash function: cut short after its first effect, `add_block` has not raised the
height, but the block is found at that height. -/
theorem C91_refuted :
    (∀ (E : Env) (s : Tree) (b : Block), FaultyRun E s → b.info.height = s.main.getHeight →
      s.main.getHeight.val + 1 < 2 ^ 256 →
      ∃ t ∈ ((Op.addBlock b).run E s).trace, t.main.getHeight = s.main.getHeight ∧
        t.main.findRawByHeight s.main.getHeight = some b.dump) ∧
    ¬ C91_full := by
  have key : ∀ (E : Env) (s : Tree) (b : Block), FaultyRun E s → b.info.height = s.main.getHeight →
      s.main.getHeight.val + 1 < 2 ^ 256 →
      ∃ t ∈ ((Op.addBlock b).run E s).trace, t.main.getHeight = s.main.getHeight ∧
        t.main.findRawByHeight s.main.getHeight = some b.dump := by
    intro E s b _ hb hm
    obtain ⟨_, _, h3⟩ := addBlock_trace E s b hb hm
    rw [h3]
    refine ⟨_, List.mem_cons_self, rfl, ?_⟩
    simp [MainChain.findRawByHeight, Chain.findRawByHeight, Chain.put1, MainChain.getHeight]
  refine ⟨key, fun h => ?_⟩
  have hh : (openTree idEnv Disk.empty).final.main.getHeight = U256.one := by rw [(openTree_fresh idEnv).2]; rfl
  obtain ⟨t, ht, h1, h2⟩ := key idEnv _ nextBlock .refl (by rw [hh]; rfl) (by rw [hh]; decide)
  have h3 := (h idEnv _ t nextBlock .refl ht h1).1 (openTree idEnv Disk.empty).final.main.getHeight
  rw [h2] at h3
  have := (C32_contiguous idEnv _ .fresh (by rw [hh]; decide) (openTree idEnv Disk.empty).final.main.getHeight).1
  rw [← h3] at this
  exact absurd (this.mp rfl) (Nat.lt_irrefl _)

/-! ## C92 -/

/-- C92. Whatever calls are cut short, an open node holds a block of the right height at every height below its own,
and the last block can be read. -/
theorem C92_intact (E : Env) (s : Tree) (hr : FaultyRun E s) :
    (∀ q : U256, q.val < s.main.getHeight.val → ∃ b : Block, s.main.findRawByHeight q = some b.dump ∧ b.info.height = q) ∧
    (∀ q : U256, s.main.getHeight.val < q.val → s.main.findRawByHeight q = none) ∧
    ∃ b : Block, s.main.getLastRawBlock = .ok (some b.dump) ∧ b.info.height.val + 1 = s.main.getHeight.val := by
  obtain ⟨new, hn⟩ := faultyLater_extends hr _ (fresh_holds E).keeps
  have hlow : ∀ q : U256, q.val < s.main.getHeight.val →
      ∃ b : Block, s.main.findRawByHeight q = some b.dump ∧ b.info.height = q := fun q hq =>
    ⟨_, Keeps.findRaw hn q hq, U256.ext (hn.heights q.val (by rw [hn.len]; exact hq))⟩
  refine ⟨hlow, fun q hq => ?_, ?_⟩
  · unfold MainChain.findRawByHeight Chain.findRawByHeight
    exact if_pos hq
  · have hpos : 1 ≤ s.main.chain.height.val := by
      have := hn.len
      simp at this
      omega
    have hsub : s.main.chain.height.sub U256.one = .ok ⟨s.main.chain.height.val - 1, Nat.lt_of_le_of_lt (Nat.sub_le _ _) s.main.chain.height.lt⟩ := by
      unfold U256.sub
      rw [if_pos (by simpa [U256.one] using hpos)]
      rfl
    obtain ⟨b, h1, h2⟩ := hlow ⟨s.main.chain.height.val - 1, Nat.lt_of_le_of_lt (Nat.sub_le _ _) s.main.chain.height.lt⟩
      (by show _ - 1 < s.main.chain.height.val; omega)
    refine ⟨b, ?_, ?_⟩
    · unfold MainChain.getLastRawBlock
      rw [hsub, Outcome.ok_bind, h1]
    · rw [h2]; show s.main.chain.height.val - 1 + 1 = s.main.chain.height.val; omega

/-- C92. Whatever calls are completed or cut short later, the chain does not shrink and the blocks below its height stay
what they are. -/
theorem C92_never_lost (E : Env) (s t : Tree) (hr : FaultyRun E s) (hl : FaultyLater E s t) :
    s.main.getHeight.val ≤ t.main.getHeight.val ∧
    ∀ q : U256, q.val < s.main.getHeight.val → t.main.findRawByHeight q = s.main.findRawByHeight q := by
  obtain ⟨bs, hk⟩ := faultyRun_keeps hr
  obtain ⟨new, hn⟩ := faultyLater_extends hl bs hk
  have hlen := hn.len
  rw [List.length_append, hk.len] at hlen
  refine ⟨?_, fun q hq => ?_⟩
  · show s.main.chain.height.val ≤ t.main.chain.height.val
    omega
  · have hq' : q.val < s.main.chain.height.val := hq
    unfold MainChain.findRawByHeight
    rw [Keeps.findRaw hn q (by omega), Keeps.findRaw hk q hq', List.getElem_append_left]

/-! ## C93 -/

/-- C93 at full strength: a block found by hash has that hash. -/
def C93_full : Prop := ∀ (E : Env) (s : Tree) (h : Hash) (raw : Bytes), FaultyRun E s →
  s.main.findRawByHash h = .ok (some raw) → E.sha256 raw = h

/-- C93, what holds: looking up a hash never fails, and an accepted block is found under its hash, unless in one of the
states the node passed through another byte string with the same digest was stored. Missing: hashes of blocks whose
addition was cut short (`C93_refuted`). -/
theorem C93_accepted_partial (E : Env) (seen : List Tree) (s : Tree) (hs : FaultyHistory E seen s) :
    (∀ h, ∃ r, s.main.findRawByHash h = .ok r) ∧
    ∀ (q : U256) (raw : Bytes), q.val < s.main.getHeight.val → s.main.findRawByHeight q = some raw →
      s.main.findRawByHash (E.sha256 raw) = .ok (some raw) ∨
      ∃ u ∈ seen, ∃ k raw', u.main.chain.blocks.get k = some raw' ∧ raw' ≠ raw ∧ E.sha256 raw' = E.sha256 raw := by
  obtain ⟨bs, hk, href⟩ := faultyHistory_kept hs
  have hget : ∀ (h : Hash) (i : Nat) (hi : i < U256.size), s.main.chain.heightReference.get h.val = some (beBytes 32 i) →
      s.main.findRawByHash h = .ok (s.main.findRawByHeight ⟨i, hi⟩) := by
    intro h i hi e
    unfold MainChain.findRawByHash Chain.findRawByHash
    rw [e]
    have := fromBE_toBE ⟨i, hi⟩
    simp only
    rw [show beBytes 32 i = (U256.toBE ⟨i, hi⟩).val from rfl, this, Outcome.ok_bind]
    rfl
  refine ⟨fun h => ?_, fun q raw hq hraw => ?_⟩
  · cases e : s.main.chain.heightReference.get h.val with
    | none => exact ⟨none, by unfold MainChain.findRawByHash Chain.findRawByHash; rw [e]⟩
    | some v =>
      obtain ⟨i, hi, rfl⟩ := hk.refs _ _ e
      exact ⟨_, hget h i (Nat.lt_of_le_of_lt hi s.main.chain.height.lt) e⟩
  · have hq' : q.val < s.main.chain.height.val := hq
    have hlt : q.val < bs.length := by rw [hk.len]; exact hq'
    have e := Keeps.findRaw hk q hq'
    have e' : s.main.findRawByHeight q = some bs[q.val].dump := e
    rw [e'] at hraw
    cases hraw
    rcases href q.val hlt with h | ⟨u, hu, k, raw', h1, h2, h3⟩
    · exact .inl ((hget (bs[q.val].hash E) q.val q.lt h).trans (congrArg _ e'))
    · exact .inr ⟨u, hu, k, raw', h1, h2, h3⟩

/-- C93 is false of the code, for every hash function: the addition of a block is cut short after its second effect, another
block of the same height is added, and the first block's hash now leads to the second block. -/
theorem C93_refuted :
    (∀ (E : Env) (s : Tree) (a b : Block), FaultyRun E s → a.info.height = s.main.getHeight →
      b.info.height = s.main.getHeight → s.main.getHeight.val + 1 < 2 ^ 256 → a.hash E ≠ b.hash E →
      ∃ t ∈ ((Op.addBlock a).run E s).trace, ((Op.addBlock b).run E t).out = .ok () ∧
        ((Op.addBlock b).run E t).final.main.findRawByHash (a.hash E) = .ok (some b.dump)) ∧
    ¬ C93_full := by
  have key : ∀ (E : Env) (s : Tree) (a b : Block), FaultyRun E s → a.info.height = s.main.getHeight →
      b.info.height = s.main.getHeight → s.main.getHeight.val + 1 < 2 ^ 256 → a.hash E ≠ b.hash E →
      ∃ t ∈ ((Op.addBlock a).run E s).trace, ((Op.addBlock b).run E t).out = .ok () ∧
        ((Op.addBlock b).run E t).final.main.findRawByHash (a.hash E) = .ok (some b.dump) := by
    intro E s a b _ ha hb hm hne
    obtain ⟨_, _, h3⟩ := addBlock_trace E s a ha hm
    rw [h3]
    refine ⟨_, List.mem_cons_of_mem _ List.mem_cons_self, ?_⟩
    obtain ⟨t, ht⟩ : ∃ t : Tree, t = { s with main := { s.main with chain := s.main.chain.put2 E a.dump } } := ⟨_, rfl⟩
    rw [← ht]
    have hth : t.main.chain.height = s.main.chain.height := by rw [ht]; rfl
    have hmt : t.main.getHeight.val + 1 < 2 ^ 256 := by
      show t.main.chain.height.val + 1 < _
      rw [hth]; exact hm
    obtain ⟨h1, h2, _⟩ := addBlock_trace E t b (hb.trans hth.symm) hmt
    refine ⟨h1, ?_⟩
    rw [h2]
    have e0 : t.main.chain.heightReference.get (a.hash E).val = some t.main.chain.height.toBE.val := by
      rw [ht]; simp [Chain.put2, Block.hash]
    have e : (t.main.chain.put3 E b.dump ⟨t.main.chain.height.val + 1, hmt⟩).heightReference.get (a.hash E).val =
        some t.main.chain.height.toBE.val := by
      have hne' : (E.sha256 b.dump).val ≠ (a.hash E).val := fun e => hne (Subtype.ext e).symm
      simp [Chain.put3, hne', e0]
    unfold MainChain.findRawByHash Chain.findRawByHash
    simp only [e, fromBE_toBE, Outcome.ok_bind]
    simp [Chain.findRawByHeight, Chain.put3]
  refine ⟨key, fun h => ?_⟩
  have hh : (openTree threeEnv Disk.empty).final.main.getHeight = U256.one := by rw [(openTree_fresh threeEnv).2]; rfl
  have hne : nextBlock.hash threeEnv ≠ nextBlock'.hash threeEnv := by decide +kernel
  obtain ⟨t, ht, _, h2⟩ := key threeEnv _ nextBlock nextBlock' .refl (by rw [hh]; rfl) (by rw [hh]; rfl)
    (by rw [hh]; decide) hne
  exact hne (h threeEnv _ _ _ (.call t _ (.cut _ t _ .refl ht)) h2).symm

/-- A history with a cut: the block of `C91_refuted` is stored above the height, the chain below is intact. -/
example (E : Env) : ∃ seen s, FaultyHistory E seen s ∧ s.main.getHeight.val = 1 ∧ s.main.findRawByHeight U256.one = some nextBlock.dump := by
  have hh : (openTree E Disk.empty).final.main.getHeight = U256.one := by rw [(openTree_fresh E).2]; rfl
  obtain ⟨t, ht, h1, h2⟩ := C91_refuted.1 E _ nextBlock .refl (by rw [hh]; rfl) (by rw [hh]; decide)
  obtain ⟨seen, hs⟩ := faultyRun_history (E := E) (s := t) (.cut _ t _ .refl ht)
  rw [hh] at h1 h2
  exact ⟨seen, t, hs, by rw [h1]; rfl, h2⟩

end BCT.Props
