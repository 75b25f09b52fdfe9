import Verif.Lemmas.Deriv
import Verif.Props.Blocks
import Verif.Props.Tx
import Verif.Props.Validate
/-!
# C31 – C37: the chains of a running node (chain.rs)

`Run E s`: the node can be in state `s` after some calls, starting on an empty directory, without having been
stopped. The height is a 256-bit number and `add_block` panics when it would overflow; statements about
histories therefore exclude the largest height.
-/

namespace BCT.Props
open BCT

/-! ## C31 -/

/-- C31. `add_block` of the main chain: accepted exactly when the height is right; then only the new
entries appear. Otherwise it has no effect at all (no intermediate state either). -/
theorem C31_add_block (E : Env) (m : MainChain) (b : Block) (hm : m.chain.height.val + 1 < U256.size) :
    ((MainChain.addBlock E b m).out = .ok () ↔ b.info.height = m.chain.height) ∧
    (b.info.height = m.chain.height →
      ∃ m', (MainChain.addBlock E b m).final = m' ∧ m'.chain.height.val = m.chain.height.val + 1 ∧
        (∀ q : U256, m'.chain.blocks.get q.toBE.val =
          if q = b.info.height then some b.dump else m.chain.blocks.get q.toBE.val) ∧
        (∀ h : Hash, m'.chain.heightReference.get h.val =
          if h = b.hash E then some b.info.height.toBE.val else m.chain.heightReference.get h.val) ∧
        m'.transactions = m.transactions ∧ m'.chain.difficulty = m.chain.difficulty ∧
        m'.chain.config = m.chain.config) ∧
    (b.info.height ≠ m.chain.height →
      MainChain.addBlock E b m = ⟨.err .chainAddingBlock, m, []⟩) := by
  unfold MainChain.addBlock MainChain.onChain
  rw [Act.zoom_run]
  by_cases hb : b.info.height = m.chain.height
  · simp only [hb]
    rw [Chain.addBlock_right hm]
    refine ⟨by simp, fun _ => ⟨_, rfl, rfl, fun q => ?_, fun h => ?_, rfl, rfl, rfl⟩, by simp⟩
    · simp only [Chain.put3, Db.get_insert]
      by_cases hq : q = m.chain.height
      · simp [hq]
      · rw [if_neg hq, if_neg]
        intro he; exact hq (toBE_inj he).symm
    · simp only [Chain.put3, Db.get_insert]
      rw [← show Block.hash E b = E.sha256 b.dump from rfl]
      by_cases hq : h = b.hash E
      · simp [hq]
      · rw [if_neg hq, if_neg]
        intro he; exact hq (Subtype.ext he).symm
  · rw [Chain.addBlock_wrong hb]
    exact ⟨by simp [hb], fun h => absurd h hb, fun _ => rfl⟩

/-- C31 for derivative chains. -/
theorem C31_add_block_derivative (E : Env) (c : DerivativeChain) (b : DerivativeBlock)
    (hm : c.chain.height.val + 1 < U256.size) :
    ((DerivativeChain.addBlock E b c).out = .ok () ↔ b.defaultInfo.height = c.chain.height) ∧
    (b.defaultInfo.height = c.chain.height →
      ∃ c', (DerivativeChain.addBlock E b c).final = c' ∧ c'.chain.height.val = c.chain.height.val + 1 ∧
        (∀ q : U256, c'.chain.blocks.get q.toBE.val =
          if q = b.defaultInfo.height then some b.dump else c.chain.blocks.get q.toBE.val) ∧
        (∀ h : Hash, c'.chain.heightReference.get h.val =
          if h = b.hash E then some b.defaultInfo.height.toBE.val else c.chain.heightReference.get h.val) ∧
        c'.genesisHash = c.genesisHash ∧ c'.chain.difficulty = c.chain.difficulty ∧
        c'.chain.config = c.chain.config) ∧
    (b.defaultInfo.height ≠ c.chain.height →
      DerivativeChain.addBlock E b c = ⟨.err .chainAddingBlock, c, []⟩) := by
  unfold DerivativeChain.addBlock DerivativeChain.onChain
  rw [Act.zoom_run]
  by_cases hb : b.defaultInfo.height = c.chain.height
  · simp only [hb]
    rw [Chain.addBlock_right hm]
    refine ⟨by simp, fun _ => ⟨_, rfl, rfl, fun q => ?_, fun h => ?_, rfl, rfl, rfl⟩, by simp⟩
    · simp only [Chain.put3, Db.get_insert]
      by_cases hq : q = c.chain.height
      · simp [hq]
      · rw [if_neg hq, if_neg]
        intro he; exact hq (toBE_inj he).symm
    · simp only [Chain.put3, Db.get_insert]
      rw [← show DerivativeBlock.hash E b = E.sha256 b.dump from rfl]
      by_cases hq : h = b.hash E
      · simp [hq]
      · rw [if_neg hq, if_neg]
        intro he; exact hq (Subtype.ext he).symm
  · rw [Chain.addBlock_wrong hb]
    exact ⟨by simp [hb], fun h => absurd h hb, fun _ => rfl⟩

/-- The only exception to C31: at the largest height the block is written and the call panics. -/
theorem C31_at_the_top (E : Env) (m : MainChain) (b : Block) (hm : ¬ m.chain.height.val + 1 < U256.size)
    (hb : b.info.height = m.chain.height) :
    (MainChain.addBlock E b m).out = .panic .overflow ∧
    (MainChain.addBlock E b m).final.chain.height = m.chain.height ∧
    (MainChain.addBlock E b m).final.findRawByHeight b.info.height = some b.dump := by
  unfold MainChain.addBlock MainChain.onChain
  rw [Act.zoom_run]
  simp only [hb]
  rw [Chain.addBlock_max hm]
  refine ⟨rfl, rfl, ?_⟩
  simp [MainChain.findRawByHeight, Chain.findRawByHeight, Chain.put2, Db.get_insert]

/-- A block that a fresh node accepts. -/
def nextBlock : Block := .transaction { exTxBlock with defaultInfo := { exInfo with height := U256.one } }

example (E : Env) : nextBlock.info.height = (openTree E Disk.empty).final.main.chain.height := by
  rw [(openTree_fresh E).2]; rfl

/-! ## C32 -/

/-- C32. Exactly the heights below the chain height are stored, each with a block of that height. -/
theorem C32_contiguous (E : Env) (s : Tree) (hr : Run E s) (hm : s.main.getHeight.val + 1 < U256.size) (q : U256) :
    ((s.main.findRawByHeight q).isSome ↔ q.val < s.main.getHeight.val) ∧
    (∀ raw, s.main.findRawByHeight q = some raw → ∃ b : Block, raw = b.dump ∧ b.info.height = q) := by
  obtain ⟨bs, h⟩ := run_holds hr hm
  unfold MainChain.findRawByHeight MainChain.getHeight
  rw [h.findRaw]
  have hl := h.len
  refine ⟨by simp [← hl], fun raw hraw => ?_⟩
  obtain ⟨b, hb, rfl⟩ := Option.map_eq_some_iff.mp hraw
  obtain ⟨hi, rfl⟩ := List.getElem?_eq_some_iff.mp hb
  exact ⟨_, rfl, U256.ext (h.heights q.val hi)⟩

/-- C32 for the derivative chain of any owner. -/
theorem C32_contiguous_derivative (E : Env) (s : Tree) (hr : Run E s) (o : Address)
    (hm : (s.handle o).chain.height.val + 1 < U256.size) (q : U256) :
    (((s.handle o).chain.findRawByHeight q).isSome ↔ q.val < (s.handle o).chain.height.val) ∧
    (∀ raw, (s.handle o).chain.findRawByHeight q = some raw →
      ∃ b : DerivativeBlock, raw = b.dump ∧ b.defaultInfo.height = q) := by
  obtain ⟨ds, h⟩ := run_derivHolds hr o hm
  rw [h.findRaw]
  have hl := h.len
  refine ⟨by simp at hl; simp [← hl], fun raw hraw => ?_⟩
  obtain ⟨b, hb, rfl⟩ := Option.map_eq_some_iff.mp hraw
  obtain ⟨hi, rfl⟩ := List.getElem?_eq_some_iff.mp hb
  have := h.heights q.val hi
  simp only [List.getElem_map] at this ⊢
  exact ⟨_, rfl, U256.ext this⟩

/-- Running `add_block` on the node. -/
theorem addBlock_op (E : Env) (s : Tree) (b : Block) :
    (Op.addBlock b).run E s =
      ⟨(MainChain.addBlock E b s.main).out, { s with main := (MainChain.addBlock E b s.main).final },
        (MainChain.addBlock E b s.main).trace.map (fun m => { s with main := m })⟩ := rfl

/-- A history that meets the hypotheses and in which two blocks are stored. -/
theorem exHistory (E : Env) : Run E ((Op.addBlock nextBlock).run E (openTree E Disk.empty).final).final ∧
    ((Op.addBlock nextBlock).run E (openTree E Disk.empty).final).final.main.getHeight.val = 2 := by
  refine ⟨.call _ _ .fresh trivial, ?_⟩
  have h1 : (openTree E Disk.empty).final.main.chain.height = U256.one := by rw [(openTree_fresh E).2]; rfl
  have := (C31_add_block E (openTree E Disk.empty).final.main nextBlock
    (by rw [h1]; decide)).2.1 (by rw [h1]; rfl)
  obtain ⟨m', h2, h3, _⟩ := this
  rw [addBlock_op]
  simp only [MainChain.getHeight]
  rw [h2, h3, h1]; rfl

/-! ## C33 -/

/-- C33. A stored block stays, whatever calls follow. -/
theorem C33_never_lost (E : Env) (s t : Tree) (hr : Run E s) (hl : Later E s t)
    (hm : t.main.getHeight.val + 1 < U256.size) (q : U256) (raw : Bytes)
    (h : s.main.findRawByHeight q = some raw) :
    t.main.findRawByHeight q = some raw ∧ t.main.findByHeight q = s.main.findByHeight q := by
  have hg := later_grows hl
  have hm' : t.main.chain.height.val + 1 < U256.size := hm
  obtain ⟨bs, hb⟩ := run_holds hr (by have := hg.1; omega)
  obtain ⟨new, hb', _⟩ := hg.2 hm _ hb
  have : t.main.findRawByHeight q = some raw := by
    unfold MainChain.findRawByHeight at *
    rw [hb.findRaw] at h
    rw [hb'.findRaw]
    obtain ⟨b, hq, rfl⟩ := Option.map_eq_some_iff.mp h
    obtain ⟨hi, _⟩ := List.getElem?_eq_some_iff.mp hq
    rw [List.getElem?_append_left hi, hq]; rfl
  refine ⟨this, ?_⟩
  unfold MainChain.findByHeight
  rw [this, h]

/-- C33 for derivative chains. -/
theorem C33_never_lost_derivative (E : Env) (s t : Tree) (hr : Run E s) (hl : Later E s t) (o : Address)
    (hm : (t.handle o).chain.height.val + 1 < U256.size) (q : U256) (raw : Bytes)
    (h : (s.handle o).chain.findRawByHeight q = some raw) :
    (t.handle o).chain.findRawByHeight q = some raw ∧ (t.handle o).findByHeight q = (s.handle o).findByHeight q := by
  have hg := ((later_derivGrows hl) (run_derivClean hr)).2 o
  obtain ⟨bs, hb⟩ := run_derivHolds hr o (by have := hg.1; omega)
  obtain ⟨new, hb', _⟩ := hg.2 hm _ hb
  have : (t.handle o).chain.findRawByHeight q = some raw := by
    rw [hb.findRaw] at h
    rw [hb'.findRaw]
    obtain ⟨b, hq, rfl⟩ := Option.map_eq_some_iff.mp h
    obtain ⟨hi, _⟩ := List.getElem?_eq_some_iff.mp hq
    rw [List.getElem?_append_left hi, hq]; rfl
  refine ⟨this, ?_⟩
  unfold DerivativeChain.findByHeight
  rw [this, h]

/-- C33. An accepted block is returned by height from then on. -/
theorem C33_accepted_stays (E : Env) (s t : Tree) (b : Block) (hr : Run E s)
    (hok : ((Op.addBlock b).run E s).out = .ok ()) (hl : Later E ((Op.addBlock b).run E s).final t)
    (hm : t.main.getHeight.val + 1 < U256.size) : t.main.findRawByHeight b.info.height = some b.dump := by
  have hg := (later_grows hl).1
  have hg0 := (Op.sat (mainGrows_prims E (fun _ => True)) (Act.relF_closed (mainGrows_preord E _))
    (Op.addBlock b) trivial s).1
  have hm' : t.main.chain.height.val + 1 < U256.size := hm
  have hs : s.main.chain.height.val + 1 < U256.size := by omega
  refine (C33_never_lost E _ t (.call s _ hr trivial) hl hm b.info.height b.dump ?_).1
  rw [addBlock_op] at hok ⊢
  have hb := (C31_add_block E s.main b hs).1.mp hok
  obtain ⟨m', h1, h2, h3, _⟩ := (C31_add_block E s.main b hs).2.1 hb
  simp only [h1, MainChain.findRawByHeight, Chain.findRawByHeight, h2]
  rw [if_neg (by rw [hb]; omega), h3, if_pos rfl]

example (E : Env) : ((Op.addBlock nextBlock).run E (openTree E Disk.empty).final).out = .ok () := by
  have h1 : (openTree E Disk.empty).final.main.chain.height = U256.one := by rw [(openTree_fresh E).2]; rfl
  rw [addBlock_op]
  exact (C31_add_block E _ nextBlock (by rw [h1]; decide)).1.mpr (by rw [h1]; rfl)

/-! ## C34 -/

/-- C34. A lookup by hash never fails, returns only bytes with that hash, and misses nothing that is stored;
if it returns something else than the stored block asked for, the two are a collision of the hash function. -/
theorem C34_find_by_hash (E : Env) (s : Tree) (hr : Run E s) (hm : s.main.getHeight.val + 1 < U256.size) (h : Hash) :
    (∃ r, s.main.findRawByHash h = .ok r) ∧
    (∀ raw, s.main.findRawByHash h = .ok (some raw) →
      E.sha256 raw = h ∧ ∃ q, s.main.findRawByHeight q = some raw) ∧
    (∀ q raw, s.main.findRawByHeight q = some raw → E.sha256 raw = h →
      s.main.findRawByHash h = .ok (some raw) ∨
      ∃ raw', s.main.findRawByHash h = .ok (some raw') ∧ raw' ≠ raw ∧ E.sha256 raw' = E.sha256 raw) := by
  obtain ⟨bs, hb⟩ := run_holds hr hm
  have hlt : ∀ i, i < (genesis E :: bs).length → i < U256.size := fun i hi => by
    rw [hb.len] at hi; have := s.main.chain.height.lt; omega
  unfold MainChain.findRawByHash MainChain.findRawByHeight
  rcases hb.findByHash h with ⟨i, hi, h1, h2⟩ | ⟨h1, h2⟩
  · refine ⟨⟨_, h2⟩, fun raw hraw => ?_, fun q raw hq hraw => ?_⟩
    · rw [h2] at hraw; cases hraw
      refine ⟨h1, ⟨i, hlt i hi⟩, ?_⟩
      rw [hb.findRaw]
      simp only [List.getElem?_eq_getElem hi]; rfl
    · rw [h2]
      by_cases he : (genesis E :: bs)[i].dump = raw
      · left; rw [he]
      · right; exact ⟨_, rfl, he, by rw [hraw]; exact h1⟩
  · refine ⟨⟨_, h2⟩, fun raw hraw => ?_, fun q raw hq hraw => ?_⟩
    · rw [h2] at hraw; cases hraw
    · exfalso
      rw [hb.findRaw] at hq
      obtain ⟨b, hbq, rfl⟩ := Option.map_eq_some_iff.mp hq
      exact h1 b (List.mem_of_getElem? hbq) hraw

/-- C34 for derivative chains. -/
theorem C34_find_by_hash_derivative (E : Env) (s : Tree) (hr : Run E s) (o : Address)
    (hm : (s.handle o).chain.height.val + 1 < U256.size) (h : Hash) :
    (∃ r, (s.handle o).chain.findRawByHash h = .ok r) ∧
    (∀ raw, (s.handle o).chain.findRawByHash h = .ok (some raw) →
      E.sha256 raw = h ∧ ∃ q, (s.handle o).chain.findRawByHeight q = some raw) ∧
    (∀ q raw, (s.handle o).chain.findRawByHeight q = some raw → E.sha256 raw = h →
      (s.handle o).chain.findRawByHash h = .ok (some raw) ∨
      ∃ raw', (s.handle o).chain.findRawByHash h = .ok (some raw') ∧ raw' ≠ raw ∧ E.sha256 raw' = E.sha256 raw) := by
  obtain ⟨ds, hb⟩ := run_derivHolds hr o hm
  have hlt : ∀ i, i < (ds.map Block.derivative).length → i < U256.size := fun i hi => by
    rw [hb.len] at hi; have := (s.handle o).chain.height.lt; omega
  rcases hb.findByHash h with ⟨i, hi, h1, h2⟩ | ⟨h1, h2⟩
  · refine ⟨⟨_, h2⟩, fun raw hraw => ?_, fun q raw hq hraw => ?_⟩
    · rw [h2] at hraw; cases hraw
      refine ⟨h1, ⟨i, hlt i hi⟩, ?_⟩
      rw [hb.findRaw]
      simp only [List.getElem?_eq_getElem hi]; rfl
    · rw [h2]
      by_cases he : (ds.map Block.derivative)[i].dump = raw
      · left; rw [he]
      · right; exact ⟨_, rfl, he, by rw [hraw]; exact h1⟩
  · refine ⟨⟨_, h2⟩, fun raw hraw => ?_, fun q raw hq hraw => ?_⟩
    · rw [h2] at hraw; cases hraw
    · exfalso
      rw [hb.findRaw] at hq
      obtain ⟨b, hbq, rfl⟩ := Option.map_eq_some_iff.mp hq
      exact h1 b (List.mem_of_getElem? hbq) hraw

/-! ## C35 -/

/-- The chain height of a running node is positive. -/
theorem run_height_pos {E : Env} {A : Op → Prop} {s : Tree} (hr : RunWith E A s) : 1 ≤ s.main.chain.height.val := by
  induction hr with
  | fresh => rw [(openTree_fresh E).2]; exact Nat.le_refl 1
  | call s op _ _ ih =>
    have := (Op.sat (mainGrows_prims E (fun _ => True)) (Act.relF_closed (mainGrows_preord E _)) op op.adds_true s).1
    omega

theorem decode_main (b : Block) (hb : b.IsMain) (hh : b.info.height.val ≠ 0 ∨ ∃ t, b = .summarize t) :
    MainChain.decode (some b.dump) = .ok (some b) := by
  unfold MainChain.decode
  have : deserializeMainChainBlock b.dump = .ok b := by
    apply C11_main_block_read_back_partial.1
    · rintro d rfl; exact hb
    · rintro t rfl
      rcases hh with h | ⟨t', h⟩
      · exact h
      · cases h
  simp [this]

theorem lastIndex {h : U256} (hp : 1 ≤ h.val) : h.sub U256.one = .ok ⟨h.val - 1, by have := h.lt; omega⟩ := by
  unfold U256.sub
  rw [if_pos (by exact hp)]
  rfl

/-- C35. Right after a block was accepted it is the last block. -/
theorem C35_last_is_newest (E : Env) (s : Tree) (b : Block) (hr : Run E s)
    (hm : s.main.getHeight.val + 1 < U256.size) (hok : ((Op.addBlock b).run E s).out = .ok ()) :
    ((Op.addBlock b).run E s).final.main.getLastRawBlock = .ok (some b.dump) ∧
    (b.IsMain → ((Op.addBlock b).run E s).final.main.getLastBlock = .ok (some b)) := by
  have hp := run_height_pos hr
  rw [addBlock_op] at hok ⊢
  have hb := (C31_add_block E s.main b hm).1.mp hok
  obtain ⟨m', h1, h2, h3, _⟩ := (C31_add_block E s.main b hm).2.1 hb
  have hraw : m'.getLastRawBlock = .ok (some b.dump) := by
    unfold MainChain.getLastRawBlock
    rw [lastIndex (by omega)]
    have he : (⟨m'.chain.height.val - 1, by have := m'.chain.height.lt; omega⟩ : U256) = b.info.height :=
      U256.ext (by simp [h2, hb])
    simp only [Outcome.ok_bind, he, MainChain.findRawByHeight, Chain.findRawByHeight]
    rw [if_neg (by rw [hb, h2]; omega), h3, if_pos rfl]
  simp only [h1]
  refine ⟨hraw, fun hmain => ?_⟩
  unfold MainChain.getLastBlock
  rw [hraw, Outcome.ok_bind]
  exact decode_main b hmain (.inl (by rw [hb]; omega))

/-- C35. It stays the last block until another one is accepted: whatever is called, as long as the height is the same. -/
theorem C35_last_stays (E : Env) (s t : Tree) (hr : Run E s) (hl : Later E s t)
    (hm : s.main.getHeight.val + 1 < U256.size) (hh : t.main.getHeight = s.main.getHeight) :
    t.main.getLastRawBlock = s.main.getLastRawBlock ∧ t.main.getLastBlock = s.main.getLastBlock := by
  have hp : 1 ≤ s.main.getHeight.val := run_height_pos hr
  have hlt := s.main.getHeight.lt
  have hraw : t.main.getLastRawBlock = s.main.getLastRawBlock := by
    obtain ⟨raw, hraw⟩ := Option.isSome_iff_exists.mp ((C32_contiguous E s hr hm ⟨s.main.getHeight.val - 1, by omega⟩).1.mpr
      (by show s.main.getHeight.val - 1 < _; omega))
    have ht := (C33_never_lost E s t hr hl (by rw [hh]; exact hm) _ raw hraw).1
    unfold MainChain.getLastRawBlock
    rw [show t.main.chain.height = s.main.chain.height from hh, lastIndex (show 1 ≤ s.main.chain.height.val from hp)]
    simp only [Outcome.ok_bind]
    exact congrArg _ (ht.trans hraw.symm)
  refine ⟨hraw, ?_⟩
  unfold MainChain.getLastBlock
  rw [hraw]

/-- Calls that offer only blocks of the two main-chain kinds to the main chain. -/
def MainOnly : Op → Prop
  | .addBlock b => b.IsMain
  | .addNewBlock b _ => b.IsMain
  | _ => True

theorem MainOnly.adds {op : Op} (h : MainOnly op) : op.Adds Block.IsMain := by
  cases op <;> first | exact h | trivial | (intro b hb; exact hb)

theorem mainOnly_blocks {E : Env} {s : Tree} (hr : RunWith E MainOnly s)
    (hm : s.main.chain.height.val + 1 < U256.size) :
    ∃ bs, Chain.Holds E s.main.chain (genesis E :: bs) ∧ ∀ b ∈ bs, b.IsMain :=
  runWith_holds hr (fun _ h => h.adds) hm

/-- On such a chain every block is decoded. -/
theorem mainOnly_decode {E : Env} {s : Tree} {bs : List Block}
    (h : Chain.Holds E s.main.chain (genesis E :: bs)) (hb : ∀ b ∈ bs, b.IsMain) (i : Nat)
    (hi : i < (genesis E :: bs).length) :
    MainChain.decode (some (genesis E :: bs)[i].dump) = .ok (some (genesis E :: bs)[i]) := by
  cases i with
  | zero => exact decode_main _ trivial (.inr ⟨_, rfl⟩)
  | succ j =>
    have hj : j < bs.length := by simpa using hi
    refine decode_main _ (hb _ (List.getElem_mem hj)) (.inl ?_)
    rw [h.heights (j + 1) hi]; omega

/-- C35. As long as only main-chain blocks are offered, `get_last_block` always returns the block of the
greatest height. -/
theorem C35_last_never_fails (E : Env) (s : Tree) (hr : RunWith E MainOnly s)
    (hm : s.main.getHeight.val + 1 < U256.size) :
    ∃ b : Block, s.main.getLastBlock = .ok (some b) ∧ b.info.height.val + 1 = s.main.getHeight.val ∧
      s.main.findRawByHeight b.info.height = some b.dump := by
  obtain ⟨bs, h, hb⟩ := mainOnly_blocks hr hm
  have hp := run_height_pos hr
  have hl := h.len
  have hi : s.main.chain.height.val - 1 < (genesis E :: bs).length := by omega
  have hh := h.heights _ hi
  refine ⟨(genesis E :: bs)[s.main.chain.height.val - 1], ?_, ?_, ?_⟩
  · unfold MainChain.getLastBlock MainChain.getLastRawBlock MainChain.findRawByHeight
    rw [lastIndex hp]
    simp only [Outcome.ok_bind]
    rw [h.findRaw, List.getElem?_eq_getElem hi]
    exact mainOnly_decode h hb _ hi
  · unfold MainChain.getHeight; omega
  · unfold MainChain.findRawByHeight
    rw [h.findRaw, hh, List.getElem?_eq_getElem hi]; rfl

theorem decode_deriv (b : DerivativeBlock) : DerivativeChain.decode (some b.dump) = .ok (some b) := by
  have hd := C09_sum_deriv_roundtrip.2 b
  have hs : sliceFrom b.dump 1 = .ok (b.dump.drop 1) := sliceFrom_ok _ _ (by rw [DerivativeBlock.dump_eq]; simp)
  simp only [DerivativeChain.decode, hs, hd, Outcome.ok_bind, Outcome.mapErr_ok]

/-- C35 for derivative chains: no block at height zero, otherwise the block of the greatest height. -/
theorem C35_last_derivative (E : Env) (s : Tree) (hr : Run E s) (o : Address)
    (hm : (s.handle o).chain.height.val + 1 < U256.size) :
    ((s.handle o).chain.height.val = 0 ∧ (s.handle o).getLastBlock = .ok none) ∨
    ∃ b : DerivativeBlock, (s.handle o).getLastBlock = .ok (some b) ∧
      b.defaultInfo.height.val + 1 = (s.handle o).chain.height.val ∧
      (s.handle o).chain.findRawByHeight b.defaultInfo.height = some b.dump := by
  by_cases hp : (s.handle o).chain.height.val = 0
  · left
    refine ⟨hp, ?_⟩
    unfold DerivativeChain.getLastBlock DerivativeChain.getLastRawBlock
    rw [if_pos hp]; rfl
  · right
    obtain ⟨ds, h⟩ := run_derivHolds hr o hm
    have hl := h.len
    have hi : (s.handle o).chain.height.val - 1 < (ds.map Block.derivative).length := by omega
    have hi' : (s.handle o).chain.height.val - 1 < ds.length := by simpa using hi
    have hh := h.heights _ hi
    simp only [List.getElem_map] at hh
    refine ⟨ds[(s.handle o).chain.height.val - 1], ?_, ?_, ?_⟩
    · unfold DerivativeChain.getLastBlock DerivativeChain.getLastRawBlock
      rw [if_neg hp, lastIndex (by omega)]
      simp only [Outcome.ok_bind]
      rw [h.findRaw, List.getElem?_eq_getElem hi]
      simp only [List.getElem_map, Option.map_some, Block.dump]
      exact decode_deriv _
    · change (Block.derivative _).info.height.val + 1 = _; rw [hh]; omega
    · change (s.handle o).chain.findRawByHeight (Block.derivative _).info.height = _
      rw [h.findRaw, hh, List.getElem?_eq_getElem hi]
      simp [Block.dump]

example : MainOnly (.addBlock nextBlock) ∧ MainOnly .flush := ⟨trivial, trivial⟩

/-! ## C36 -/

/-- C36 at full strength. -/
def C36_full : Prop := ∀ (E : Env) (s : Tree) (b : Block), Run E s → s.main.getHeight.val + 1 < U256.size →
  ((Op.addBlock b).run E s).out = .ok () →
  ((Op.addBlock b).run E s).final.main.findByHeight b.info.height = .ok (some b)

/-- C36 for blocks of the main-chain kinds (missing: derivative blocks, for which it fails). -/
theorem C36_read_back_partial (E : Env) (s : Tree) (b : Block) (hr : Run E s)
    (hm : s.main.getHeight.val + 1 < U256.size) (hok : ((Op.addBlock b).run E s).out = .ok ()) (hb : b.IsMain) :
    ((Op.addBlock b).run E s).final.main.findByHeight b.info.height = .ok (some b) := by
  have hp := run_height_pos hr
  rw [addBlock_op] at hok ⊢
  have he := (C31_add_block E s.main b hm).1.mp hok
  obtain ⟨m', h1, h2, h3, _⟩ := (C31_add_block E s.main b hm).2.1 he
  simp only [h1, MainChain.findByHeight, MainChain.findRawByHeight, Chain.findRawByHeight]
  rw [if_neg (by rw [he, h2]; omega), h3, if_pos rfl]
  exact decode_main b hb (.inl (by rw [he]; omega))

/-- Every derivative block of the right height is accepted onto the main chain and cannot be read back; from
then on the last block cannot be read. -/
theorem C36_refuted :
    (∀ (E : Env) (s : Tree) (d : DerivativeBlock), Run E s → s.main.getHeight.val + 1 < U256.size →
      d.defaultInfo.height = s.main.getHeight →
      ((Op.addBlock (.derivative d)).run E s).out = .ok () ∧
      (∃ e, ((Op.addBlock (.derivative d)).run E s).final.main.findByHeight d.defaultInfo.height = .err e) ∧
      ∃ e, ((Op.addBlock (.derivative d)).run E s).final.main.getLastBlock = .err e) ∧ ¬ C36_full := by
  have key : ∀ (E : Env) (s : Tree) (d : DerivativeBlock), Run E s → s.main.getHeight.val + 1 < U256.size →
      d.defaultInfo.height = s.main.getHeight →
      ((Op.addBlock (.derivative d)).run E s).out = .ok () ∧
      (∃ e, ((Op.addBlock (.derivative d)).run E s).final.main.findByHeight d.defaultInfo.height = .err e) ∧
      ∃ e, ((Op.addBlock (.derivative d)).run E s).final.main.getLastBlock = .err e := by
    intro E s d hr hm hd
    have hok : ((Op.addBlock (.derivative d)).run E s).out = .ok () :=
      (C31_add_block E s.main (.derivative d) hm).1.mpr hd
    have hdec : ∃ e, MainChain.decode (some d.dump) = .err e := by
      obtain ⟨e, he⟩ := C11_main_block_read_back_partial.2.1 d
      exact ⟨.chainFindByHeight, by simp [MainChain.decode, he]⟩
    refine ⟨hok, ?_, ?_⟩
    · rw [addBlock_op]
      obtain ⟨m', h1, h2, h3, _⟩ := (C31_add_block E s.main (.derivative d) hm).2.1 hd
      have h3' := h3 d.defaultInfo.height
      rw [if_pos (show d.defaultInfo.height = (Block.derivative d).info.height from rfl)] at h3'
      simp only [h1, MainChain.findByHeight, MainChain.findRawByHeight, Chain.findRawByHeight]
      rw [if_neg (by rw [hd, h2, MainChain.getHeight]; omega), h3']
      exact hdec
    · unfold MainChain.getLastBlock
      rw [(C35_last_is_newest E s (.derivative d) hr hm hok).1, Outcome.ok_bind]
      exact hdec
  refine ⟨key, fun hf => ?_⟩
  let d : DerivativeBlock := ⟨{ exInfo with height := U256.one }⟩
  have h1 : (openTree zeroEnv Disk.empty).final.main.getHeight = U256.one := by rw [(openTree_fresh zeroEnv).2]; rfl
  have hm : (openTree zeroEnv Disk.empty).final.main.getHeight.val + 1 < U256.size := by rw [h1]; decide
  obtain ⟨a, ⟨e, b⟩, _⟩ := key zeroEnv _ d .fresh hm (by rw [h1])
  have := hf zeroEnv _ (.derivative d) .fresh hm a
  have b' : ((Op.addBlock (.derivative d)).run zeroEnv (openTree zeroEnv Disk.empty).final).final.main.findByHeight
      (Block.derivative d).info.height = .err e := b
  rw [this] at b'
  cases b'

/-! ## C37 -/

/-- C37. The state of a node on an empty directory. -/
theorem C37_fresh_node (E : Env) :
    ∃ t : Tree, (openTree E Disk.empty).out = .ok () ∧ (openTree E Disk.empty).final = t ∧
      t.main.getHeight.val = 1 ∧
      (∃ b : SummarizeBlock, t.main.findByHeight U256.zero = .ok (some (.summarize b)) ∧
        t.main.getLastBlock = .ok (some (.summarize b)) ∧
        b.defaultInfo = { timestamp := 1597924800, pow := ⟨List.replicate 32 0, rfl⟩,
                          previousHash := ⟨List.replicate 32 0, rfl⟩, height := ⟨0, by decide⟩,
                          difficulty := ⟨0x7F :: List.replicate 31 0xFF, rfl⟩, founder := ROOT_PUBLIC_ADDRESS }) ∧
      (∀ q : U256, q.val ≠ 0 → t.main.findRawByHeight q = none) ∧
      (∀ h : Hash, t.main.getTransactionRaw h = none) ∧
      (∃ a, t.getAmount ROOT_PUBLIC_ADDRESS = .ok a ∧ a.val = 50010000000000000000000000) ∧
      (∀ o : Address, o ≠ ROOT_PUBLIC_ADDRESS → t.getAmount o = .ok U256.zero) ∧
      (∀ o : Address, t.getGas o = .ok U256.zero) := by
  obtain ⟨h1, h2⟩ := openTree_fresh E
  have hb := bootChain_holds E BEGINNING_DIFFICULTY none
  have hlast : MainChain.decode (some (genesis E).dump) = .ok (some (genesis E)) :=
    decode_main _ trivial (.inr ⟨_, rfl⟩)
  have hg : ∀ k, (Db.open' KV.empty).get k = none := fun k => by rw [Db.get_open, KV.get_empty]
  refine ⟨_, h1, h2, rfl, ⟨⟨MainChain.genesisInfo, merkleRootT E [E.sha256 MainChain.initialAmount]⟩, ?_, ?_, rfl⟩,
    ?_, ?_, ?_, ?_, ?_⟩
  · unfold MainChain.findByHeight MainChain.findRawByHeight
    rw [hb.findRaw]
    exact hlast
  · unfold MainChain.getLastBlock MainChain.getLastRawBlock MainChain.findRawByHeight
    rw [lastIndex (Nat.le_refl 1)]
    simp only [Outcome.ok_bind]
    rw [hb.findRaw]
    exact hlast
  · intro q hq
    unfold MainChain.findRawByHeight
    rw [hb.findRaw]
    rw [List.getElem?_eq_none (by simp; omega)]; rfl
  · intro h; exact hg _
  · refine ⟨COINS_PER_CYCLE, ?_, by decide⟩
    unfold Tree.getAmount
    simp only [Db.get_insert, if_true]
    exact Ledger.balance_encode _
  · intro o ho
    unfold Tree.getAmount
    simp only [Db.get_insert]
    rw [if_neg (fun e => ho (Subtype.ext e).symm), hg]; rfl
  · intro o
    unfold Tree.getGas
    simp only [Disk.boot, Disk.empty]
    rw [hg]; rfl

end BCT.Props
