import Verif.Props.Life
/-!
# C61 – C66: what survives crashes (chain.rs, blockchaintree.rs)
-/

namespace BCT.Props
open BCT

/-! ## C61 -/

/-- C61 at full strength. -/
def C61_full : Prop := ∀ (E : Env) (s : Tree) (b : Block), Life E (.idle s) →
  ((Op.addBlock b).run E s).out = .ok () →
  ∀ u, Later E ((Op.addBlock b).run E s).final u → (openTree E u.close).out = .ok () →
    (openTree E u.close).final.main.findRawByHeight b.info.height = some b.dump

/-- The first `H` blocks of `m0` are on disk, and the config file knows. -/
structure Pinned (m0 : KV) (H : Nat) (c : Chain) : Prop where
  config : ∃ h d, MainChain.readConfig c.config = .ok (h, d) ∧ H ≤ h.val
  height : H ≤ c.height.val
  agree : ∀ m, m = c.blocks.cur ∨ m ∈ c.blocks.recov → ∀ q : U256, q.val < H → m.get q.toBE.val = m0.get q.toBE.val

theorem Pinned.insert {m0 : KV} {H : Nat} {c : Chain} (h : Pinned m0 H c) (v : Bytes) :
    ∀ m, m = (c.blocks.insert c.height.toBE.val v).cur ∨ m ∈ (c.blocks.insert c.height.toBE.val v).recov →
      ∀ q : U256, q.val < H → m.get q.toBE.val = m0.get q.toBE.val := by
  intro m hm q hq
  have hne : q.toBE.val ≠ c.height.toBE.val := fun e => by
    have h1 : q.val = c.height.val := by rw [toBE_inj e]
    have := h.height
    omega
  have key : (c.blocks.cur.insert c.height.toBE.val v).get q.toBE.val = m0.get q.toBE.val := by
    rw [KV.get_insert, if_neg (Ne.symm hne)]
    exact h.agree _ (.inl rfl) q hq
  rcases hm with rfl | hm
  · exact key
  · rcases List.mem_cons.mp hm with rfl | hm
    · exact key
    · exact h.agree m (.inr hm) q hq

theorem pinned_addBlock {m0 : KV} {H : Nat} (E : Env) (b : Block) :
    Act.Rel (fun s t : MainChain => Pinned m0 H s.chain → Pinned m0 H t.chain) (MainChain.addBlock E b) :=
  MainChain.addBlock_rel (R := fun s t => Pinned m0 H s → Pinned m0 H t)
    (Chain.addBlock_rel E (fun _ h => h) _ _
      (fun _ _ h => ⟨h.config, h.height, h.insert _⟩)
      (fun _ _ h => ⟨h.config, h.height, h.insert _⟩)
      (fun _ _ _ h => ⟨h.config, Nat.le_succ_of_le h.height, h.insert _⟩)) fun _ _ h => h

theorem pinned_flush {m0 : KV} {H : Nat} :
    Act.RelF (fun s t : MainChain => Pinned m0 H s.chain → Pinned m0 H t.chain) MainChain.flush := by
  intro m h
  rw [MainChain.flush_run]
  refine ⟨⟨_, _, MainChain.readConfig_written _ _, h.height⟩, h.height, fun x hx => h.agree x (.inl ?_)⟩
  rcases hx with hx | hx
  · exact hx
  · exact Db.flush_recov hx

theorem pinned_op {m0 : KV} {H : Nat} (E : Env) (op : Op) (s : Tree) (h : Pinned m0 H s.main.chain) :
    Pinned m0 H (op.run E s).final.main.chain :=
  Op.sat (main_prims (A := fun _ => True) (R := fun s t => Pinned m0 H s.chain → Pinned m0 H t.chain) (Act.inv_preord _)
    (fun b _ => (pinned_addBlock E b).relF) (fun _ => Act.relF_step fun _ h => h) pinned_flush)
    (Act.relF_closed ⟨fun _ h => h, fun h1 h2 h => h2 (h1 h)⟩) op op.adds_true s h

theorem pinned_calm {m0 : KV} {H : Nat} (E : Env) (op : Op) (s t : Tree) (hop : ¬ op.Flushes)
    (ht : t ∈ (op.run E s).trace) (h : Pinned m0 H s.main.chain) : Pinned m0 H t.main.chain :=
  (Op.calm_rel (A := fun _ => True) (R := fun s t => Pinned m0 H s.chain → Pinned m0 H t.chain) (Act.inv_preord _)
    (fun b _ => pinned_addBlock E b) (fun _ => Act.rel_step fun _ h => h) op op.adds_true hop s).2 t ht h

theorem Pinned.reopen {m0 : KV} {H : Nat} {E : Env} {u : Tree} {d : Disk} (h : Pinned m0 H u.main.chain) (hc : Crash u d)
    (hH : 1 ≤ H) : (openTree E d).out = .ok () ∧ H ≤ (openTree E d).final.main.getHeight.val ∧
      ∀ q : U256, q.val < H → (openTree E d).final.main.findRawByHeight q = m0.get q.toBE.val := by
  obtain ⟨h', df, hr, hle⟩ := h.config
  rw [← hc.config] at hr
  obtain ⟨ho, hf⟩ := openTree_pos (E := E) hr (by omega)
  refine ⟨ho, by rw [hf]; exact hle, fun q hq => ?_⟩
  rw [hf]
  unfold MainChain.findRawByHeight Chain.findRawByHeight
  rw [if_neg]
  · exact h.agree _ (.inr hc.blocks) q hq
  · show ¬ h'.val < q.val
    omega

/-- C61 for blocks accepted before a flush: whatever is called after the flush, and however the node then stops (a clean
shutdown, or a crash between calls or within any call that does not itself write the config file), the node opens again
and every block below the flushed height is returned unchanged. (Missing: blocks accepted after the last flush, which
are lost even by a clean shutdown.) -/
theorem C61_flushed_blocks_partial (E : Env) (s u : Tree) (d : Disk) (hl : Life E (.idle s))
    (hu : Later E (Op.flush.run E s).final u ∨
      ∃ (u' : Tree) (op : Op), Later E (Op.flush.run E s).final u' ∧ ¬ op.Flushes ∧ u ∈ (op.run E u').trace) (hc : Crash u d) :
    (openTree E d).out = .ok () ∧ s.main.getHeight.val ≤ (openTree E d).final.main.getHeight.val ∧
    ∀ q : U256, q.val < s.main.getHeight.val →
      (openTree E d).final.main.findRawByHeight q = s.main.findRawByHeight q := by
  have h0 : Pinned s.main.chain.blocks.cur s.main.chain.height.val (Op.flush.run E s).final.main.chain := by
    rw [(flush_op E s).2]
    refine ⟨⟨_, _, MainChain.readConfig_written _ _, Nat.le_refl _⟩, Nat.le_refl _, fun m hm q _ => ?_⟩
    rcases hm with rfl | hm
    · rfl
    · rw [Db.flush_recov hm]
  have hL : ∀ u, Later E (Op.flush.run E s).final u →
      Pinned s.main.chain.blocks.cur s.main.chain.height.val u.main.chain := by
    intro u hu
    induction hu with
    | refl => exact h0
    | call s' op _ ih => exact pinned_op E op s' ih
  have hp : Pinned s.main.chain.blocks.cur s.main.chain.height.val u.main.chain := by
    rcases hu with hu | ⟨u', op, hu', hop, ht⟩
    · exact hL u hu
    · exact pinned_calm E op u' u hop ht (hL u' hu')
  obtain ⟨h1, h2, h3⟩ := hp.reopen (E := E) hc (life_height_pos hl)
  refine ⟨h1, h2, fun q hq => (h3 q hq).trans ?_⟩
  unfold MainChain.findRawByHeight Chain.findRawByHeight
  have : ¬ s.main.chain.height.val < q.val := by
    show ¬ s.main.getHeight.val < q.val
    omega
  rw [if_neg this]
  rfl

/-- What an accepted block does to the parts of the node that matter here. -/
theorem add_ok (E : Env) (s : Tree) (b : Block) (hb : b.info.height = s.main.chain.height)
    (hm : s.main.chain.height.val + 1 < U256.size) :
    ((Op.addBlock b).run E s).out = .ok () ∧
    ((Op.addBlock b).run E s).final =
      { s with main := { s.main with chain := s.main.chain.put3 E b.dump ⟨s.main.chain.height.val + 1, hm⟩ } } := by
  rw [addBlock_op]
  unfold MainChain.addBlock MainChain.onChain
  rw [Act.zoom_run, hb, Chain.addBlock_right hm]
  exact ⟨rfl, rfl⟩

/-- A block of height 2. -/
def thirdBlock : Block := .transaction { exTxBlock with defaultInfo := { exInfo with height := ⟨2, by decide⟩ } }

/-- Two blocks are accepted, the node is shut down cleanly and opened again: the second of them is gone. -/
theorem C61_refuted :
    (∀ E : Env, ∃ s, Life E (.idle s) ∧ ((Op.addBlock thirdBlock).run E s).out = .ok () ∧
      (openTree E ((Op.addBlock thirdBlock).run E s).final.close).out = .ok () ∧
      (openTree E ((Op.addBlock thirdBlock).run E s).final.close).final.main.getHeight.val = 1 ∧
      (openTree E ((Op.addBlock thirdBlock).run E s).final.close).final.main.findRawByHeight thirdBlock.info.height = none) ∧
    ¬ C61_full := by
  have key : ∀ E : Env, ∃ s, Life E (.idle s) ∧ ((Op.addBlock thirdBlock).run E s).out = .ok () ∧
      (openTree E ((Op.addBlock thirdBlock).run E s).final.close).out = .ok () ∧
      (openTree E ((Op.addBlock thirdBlock).run E s).final.close).final.main.getHeight.val = 1 ∧
      (openTree E ((Op.addBlock thirdBlock).run E s).final.close).final.main.findRawByHeight thirdBlock.info.height = none := by
    intro E
    have e0 : (openTree E Disk.empty).final.main.chain.height = U256.one := by rw [(openTree_fresh E).2]; rfl
    obtain ⟨_, f1⟩ := add_ok E (openTree E Disk.empty).final nextBlock (by rw [e0]; rfl) (by rw [e0]; decide)
    obtain ⟨s, hs⟩ : ∃ s, s = ((Op.addBlock nextBlock).run E (openTree E Disk.empty).final).final := ⟨_, rfl⟩
    have hl : Life E (.idle s) := by rw [hs]; exact .call _ _ (life_fresh E)
    rw [← hs] at f1
    have e1 : s.main.chain.height.val = 2 := by rw [f1]; simp only [Chain.put3, e0]; rfl
    have c1 : s.main.chain.config = none := by rw [f1]; simp only [Chain.put3]; rw [(openTree_fresh E).2]; rfl
    obtain ⟨o2, f2⟩ := add_ok E s thirdBlock (U256.ext e1.symm) (by rw [e1]; decide)
    have c2 : MainChain.readConfig ((Op.addBlock thirdBlock).run E s).final.close.config =
        .ok (U256.zero, BEGINNING_DIFFICULTY) := by
      rw [f2]
      show MainChain.readConfig s.main.chain.config = _
      rw [c1]; rfl
    obtain ⟨o3, f3⟩ := openTree_zero (E := E) c2
    refine ⟨s, hl, o2, o3, by rw [f3]; rfl, ?_⟩
    rw [f3]
    unfold MainChain.findRawByHeight Chain.findRawByHeight
    rw [if_pos]
    show (1 : Nat) < 2
    decide
  refine ⟨key, fun hf => ?_⟩
  obtain ⟨s, hl, h1, h2, _, h3⟩ := key zeroEnv
  have := hf zeroEnv s thirdBlock hl h1 _ .refl h2
  rw [h3] at this
  cases this

/-- The hypotheses of `C61_flushed_blocks_partial` are met with a block accepted before the flush and one after it, lost
in the crash. -/
example : ∃ s u d, Life zeroEnv (.idle s) ∧ s.main.getHeight.val = 2 ∧ Later zeroEnv (Op.flush.run zeroEnv s).final u ∧
    u.main.getHeight.val = 3 ∧ Crash u d ∧ d.blocks ≠ u.main.chain.blocks.cur := by
  obtain ⟨hr, e1⟩ := exHistory zeroEnv
  obtain ⟨s, hs⟩ : ∃ s, s = ((Op.addBlock nextBlock).run zeroEnv (openTree zeroEnv Disk.empty).final).final := ⟨_, rfl⟩
  rw [← hs] at hr e1
  have hl := run_life hr
  have hlt : Life zeroEnv (.idle (Op.flush.run zeroEnv s).final) := .call s .flush hl
  have hrt : Run zeroEnv (Op.flush.run zeroEnv s).final := .call s .flush hr trivial
  have e2 : (Op.flush.run zeroEnv s).final.main.chain.height.val = 2 := by rw [(flush_op zeroEnv s).2]; exact e1
  obtain ⟨t, ht⟩ : ∃ t, t = (Op.flush.run zeroEnv s).final := ⟨_, rfl⟩
  rw [← ht] at hlt hrt e2
  obtain ⟨_, f2⟩ := add_ok zeroEnv t thirdBlock (U256.ext e2.symm) (by rw [e2]; decide)
  have hc := close_is_crash zeroEnv _ (.call _ (.addBlock thirdBlock) hlt)
  have hb : t.main.chain.blocks.get t.main.chain.height.toBE.val = none := by
    have := (C32_contiguous zeroEnv t hrt (by show t.main.chain.height.val + 1 < _; rw [e2]; decide) t.main.chain.height).1
    unfold MainChain.findRawByHeight Chain.findRawByHeight MainChain.getHeight at this
    rw [if_neg (Nat.lt_irrefl _)] at this
    cases hg : t.main.chain.blocks.get t.main.chain.height.toBE.val with
    | none => rfl
    | some v => rw [hg] at this; exact absurd (this.mp rfl) (Nat.lt_irrefl _)
  refine ⟨s, _, { ((Op.addBlock thirdBlock).run zeroEnv t).final.close with
    blocks := t.main.chain.blocks.cur }, hl, e1, ht ▸ .call _ (.addBlock thirdBlock) .refl,
    by rw [f2]; simp only [MainChain.getHeight, Chain.put3, e2], ⟨?_, hc.2, hc.3, hc.4, hc.5, hc.6, hc.7, hc.8, hc.9⟩, ?_⟩
  · rw [f2]
    exact List.mem_cons_of_mem _ (life_sound hlt).blocks
  · intro he
    rw [f2] at he
    have h3 : t.main.chain.blocks.cur.get t.main.chain.height.toBE.val = some thirdBlock.dump := by
      simp only at he
      rw [he]
      show (KV.insert _ _ _).get _ = _
      rw [KV.get_insert, if_pos rfl]
    rw [show t.main.chain.blocks.cur.get _ = none from hb] at h3
    cases h3

/-! ## C62 -/

/-- C62 at full strength. -/
def C62_full : Prop := ∀ (E : Env) (s : Tree) (h : Hash) (raw : Bytes), Life E (.idle s) →
  s.main.findRawByHash h = .ok (some raw) → E.sha256 raw = h

/-- A node that is always flushed before it goes down (in whatever way). -/
inductive FlushedLife (E : Env) : Tree → Prop where
  | fresh : FlushedLife E (openTree E Disk.empty).final
  | call (s : Tree) (op : Op) : FlushedLife E s → FlushedLife E (op.run E s).final
  | restart (s : Tree) (d : Disk) : FlushedLife E s → Crash (Op.flush.run E s).final d →
      FlushedLife E (openTree E d).final

theorem flushedLife_life {E : Env} {s : Tree} (h : FlushedLife E s) : Life E (.idle s) := by
  induction h with
  | fresh => exact life_fresh E
  | call s op _ ih => exact .call s op ih
  | restart s d _ hc ih =>
    exact .opened d (.crashIdle _ d (.call s .flush ih) hc) (C58_flushed_restart_partial E s d ih hc).2.1

theorem flushedLife_boot {E : Env} {s : Tree} (h : FlushedLife E s) (hm : s.main.chain.height.val + 1 < U256.size) :
    ∃ bs, Chain.Holds E s.main.chain (genesis E :: bs) := by
  induction h with
  | fresh => exact ⟨_, by rw [(openTree_fresh E).2]; exact bootChain_holds E _ _⟩
  | call s op _ ih =>
    obtain ⟨bs, hb⟩ := ih (Nat.lt_of_le_of_lt (Nat.succ_le_succ (op_height_mono E op s)) hm)
    obtain ⟨new, hn, _⟩ := (later_grows (.call s op .refl)).2 hm _ hb
    exact ⟨bs ++ new, hn⟩
  | restart s d hs hc ih =>
    have hl := flushedLife_life hs
    rw [(flush_op E s).2] at hc
    have hp := life_height_pos hl
    have hrc : MainChain.readConfig d.config = .ok (s.main.chain.height, s.main.chain.difficulty) := by
      rw [hc.config]; exact MainChain.readConfig_written _ _
    obtain ⟨_, hf⟩ := openTree_pos (E := E) hrc (by omega)
    rw [hf] at hm ⊢
    obtain ⟨bs, hb⟩ := ih hm
    exact ⟨bs, hb.same ⟨Db.flush_recov hc.blocks, Db.flush_recov hc.heightReference, rfl⟩⟩

theorem flushedLife_holds {E : Env} {s : Tree} (h : FlushedLife E s) (hm : s.main.chain.height.val + 1 < U256.size) :
    ∃ bs, Chain.Holds E s.main.chain bs :=
  let ⟨_, hb⟩ := flushedLife_boot h hm
  ⟨_, hb⟩

/-- C62 for nodes always flushed before going down: a lookup by hash never fails and returns only bytes with that hash.
(Missing: nodes stopped without a flush, whose lookups may answer with another block.) -/
theorem C62_truthful_partial (E : Env) (s : Tree) (h : Hash) (hs : FlushedLife E s)
    (hm : s.main.getHeight.val + 1 < U256.size) :
    s.main.findRawByHash h = .ok none ∨
    ∃ raw q, s.main.findRawByHash h = .ok (some raw) ∧ E.sha256 raw = h ∧ s.main.findRawByHeight q = some raw := by
  obtain ⟨bs, hb⟩ := flushedLife_holds hs hm
  unfold MainChain.findRawByHash MainChain.findRawByHeight
  rcases hb.findByHash h with ⟨i, hi, h1, h2⟩ | ⟨_, h2⟩
  · have hlt : i < U256.size := by rw [hb.len] at hi; have := s.main.chain.height.lt; omega
    refine .inr ⟨_, ⟨i, hlt⟩, h2, h1, ?_⟩
    rw [hb.findRaw]
    simp only [List.getElem?_eq_getElem hi]; rfl
  · exact .inl h2

/-- Two blocks that a fresh node accepts. -/
def nextBlock' : Block :=
  .transaction { exTxBlock with defaultInfo := { exInfo with height := U256.one, timestamp := exInfo.timestamp + 1 } }

/-- A hash function that tells `nextBlock`, `nextBlock'` and everything else apart. -/
def threeEnv : Env :=
  { zeroEnv with
    sha256 := fun x => if x = nextBlock.dump then BytesN.fill 32 1 else if x = nextBlock'.dump then BytesN.fill 32 2
      else BytesN.fill 32 0 }

/-- One block is accepted at height 1 and the node is shut down cleanly, without flush. Opened again, it accepts another
block at height 1, and answers a lookup of the first block's hash with the second block. -/
theorem C62_refuted :
    (∀ (E : Env) (a b : Block), a.info.height = U256.one → b.info.height = U256.one → a.hash E ≠ b.hash E →
      a.hash E ≠ (genesis E).hash E →
      ∃ s, Life E (.idle s) ∧ s.main.findRawByHash (a.hash E) = .ok (some b.dump) ∧ E.sha256 b.dump ≠ a.hash E) ∧
    ¬ C62_full := by
  have key : ∀ (E : Env) (a b : Block), a.info.height = U256.one → b.info.height = U256.one → a.hash E ≠ b.hash E →
      a.hash E ≠ (genesis E).hash E →
      ∃ s, Life E (.idle s) ∧ s.main.findRawByHash (a.hash E) = .ok (some b.dump) ∧ E.sha256 b.dump ≠ a.hash E := by
    intro E a b ha hb hab hag
    have e0 : (openTree E Disk.empty).final.main.chain.height = U256.one := by rw [(openTree_fresh E).2]; rfl
    obtain ⟨_, f1⟩ := add_ok E (openTree E Disk.empty).final a (by rw [e0]; exact ha) (by rw [e0]; decide)
    obtain ⟨s, hs⟩ : ∃ s, s = ((Op.addBlock a).run E (openTree E Disk.empty).final).final := ⟨_, rfl⟩
    have hl : Life E (.idle s) := by rw [hs]; exact .call _ _ (life_fresh E)
    rw [← hs] at f1
    have c1 : MainChain.readConfig s.close.config = .ok (U256.zero, BEGINNING_DIFFICULTY) := by
      show MainChain.readConfig s.main.chain.config = _
      rw [f1]; simp only [Chain.put3]; rw [(openTree_fresh E).2]; rfl
    obtain ⟨o3, f3⟩ := openTree_zero (E := E) c1
    obtain ⟨t, ht⟩ : ∃ t, t = (openTree E s.close).final := ⟨_, rfl⟩
    have hlt : Life E (.idle t) := by
      rw [ht]; exact .opened _ (.crashIdle s _ hl (close_is_crash E s hl)) o3
    rw [← ht] at f3
    have e1 : t.main.chain.height = U256.one := by rw [f3]; rfl
    have r1 : t.main.chain.heightReference.get (a.hash E).val = some U256.one.toBE.val := by
      rw [f3]
      show ((Db.open' s.main.chain.heightReference.cur).insert _ _).get _ = _
      rw [Db.get_insert, if_neg (fun e => hag (Subtype.ext e).symm), Db.get_open, f1]
      show (Db.insert _ _ _).get _ = _
      rw [Db.get_insert, if_pos (by rfl), e0]
    obtain ⟨_, f4⟩ := add_ok E t b (by rw [e1]; exact hb) (by rw [e1]; decide)
    refine ⟨_, .call t (.addBlock b) hlt, ?_, fun e => hab e.symm⟩
    rw [f4]
    unfold MainChain.findRawByHash Chain.findRawByHash
    have r2 : (t.main.chain.put3 E b.dump ⟨t.main.chain.height.val + 1, by rw [e1]; decide⟩).heightReference.get (a.hash E).val =
        some U256.one.toBE.val := by
      show (Db.insert _ _ _).get _ = _
      rw [Db.get_insert, ← show Block.hash E b = E.sha256 b.dump from rfl, if_neg (fun e => hab (Subtype.ext e).symm), r1]
    simp only [r2, fromBE_toBE, Outcome.ok_bind]
    unfold Chain.findRawByHeight
    rw [if_neg (by simp only [Chain.put3, e1]; decide)]
    show Outcome.ok ((Db.insert _ _ _).get _) = _
    rw [Db.get_insert, if_pos (by rw [e1])]
  refine ⟨key, fun hf => ?_⟩
  have g : (genesis threeEnv).dump ≠ nextBlock.dump ∧ (genesis threeEnv).dump ≠ nextBlock'.dump ∧
      nextBlock'.dump ≠ nextBlock.dump := by
    refine ⟨fun e => ?_, fun e => ?_, fun e => ?_⟩
    · cases Block.dump_inj e
    · cases Block.dump_inj e
    · have := congrArg (fun b : Block => b.info.timestamp) (Block.dump_inj e)
      revert this
      decide
  obtain ⟨s, hl, h1, h2⟩ := key threeEnv nextBlock nextBlock' rfl rfl
    (by simp only [Block.hash, threeEnv]; rw [if_pos trivial, if_neg g.2.2, if_pos trivial]; decide)
    (by
      have : (genesis threeEnv).hash threeEnv = BytesN.fill 32 0 := by
        show threeEnv.sha256 _ = _
        obtain ⟨d, hd⟩ : ∃ d, d = (genesis threeEnv).dump := ⟨_, rfl⟩
        rw [← hd] at g ⊢
        simp only [threeEnv]
        rw [if_neg g.1, if_neg g.2.1]
      rw [this]
      simp only [Block.hash, threeEnv]; rw [if_pos trivial]; decide)
  exact h2 (hf threeEnv s _ _ hl h1)

/-- A node flushed, crashed and restarted with a block beyond the genesis block. -/
example : ∃ s, FlushedLife zeroEnv s ∧ s.main.getHeight.val = 2 ∧ ∃ raw, s.main.findRawByHash (nextBlock.hash zeroEnv) = .ok (some raw) := by
  obtain ⟨hr, e1⟩ := exHistory zeroEnv
  obtain ⟨s, hs⟩ : ∃ s, s = ((Op.addBlock nextBlock).run zeroEnv (openTree zeroEnv Disk.empty).final).final := ⟨_, rfl⟩
  have hf : FlushedLife zeroEnv s := by rw [hs]; exact .call _ _ .fresh
  rw [← hs] at e1 hr
  have hc := close_is_crash zeroEnv _ (.call _ .flush (run_life hr))
  obtain ⟨_, _, ha, _⟩ := C58_flushed_restart_partial zeroEnv s _ (run_life hr) hc
  refine ⟨_, .restart s _ hf hc, by rw [ha.height]; exact e1, ?_⟩
  rw [ha.rawByHash]
  obtain ⟨h1, h2⟩ := C32_contiguous zeroEnv s hr (by rw [e1]; decide) U256.one
  obtain ⟨raw, hraw⟩ := Option.isSome_iff_exists.mp (h1.mpr (by rw [e1]; decide))
  rcases (C34_find_by_hash zeroEnv s hr (by rw [e1]; decide) (nextBlock.hash zeroEnv)).2.2 _ raw hraw rfl with h | ⟨raw', h, _⟩
  · exact ⟨_, h⟩
  · exact ⟨_, h⟩

/-! ## C63 -/

/-- From `s` the calls `ops` are made one after the other, and the node is stopped in state `t`, after the last of them or
in the middle of it. -/
inductive Stops (E : Env) : Tree → List Op → Tree → Prop where
  | idle (s : Tree) : Stops E s [] s
  | within (s : Tree) (op : Op) (t : Tree) : t ∈ (op.run E s).trace → Stops E s [op] t
  | after (s : Tree) (op : Op) (ops : List Op) (t : Tree) : Stops E (op.run E s).final ops t → Stops E s (op :: ops) t

theorem stops_life {E : Env} {s t : Tree} {ops : List Op} (h : Stops E s ops t) (hl : Life E (.idle s)) :
    Life E (.idle t) ∨ Life E (.busy t) := by
  induction h with
  | idle s => exact .inl hl
  | within s op t ht => exact .inr (.running s t op hl ht)
  | after s op ops t _ ih => exact ih (.call s op hl)

theorem stops_recov {p : Tree → Db} {E : Env} (hp : ∀ op s, OnceAt p (Op.run E op) s) {s t : Tree} {ops : List Op}
    (h : Stops E s ops t) {m : KV} (hm : m ∈ (p t).recov) :
    m ∈ (p s).recov ∨ ∃ k, k ≤ ops.length ∧ m = (p (runAll E s (ops.take k))).cur := by
  induction h with
  | idle s => exact .inl hm
  | within s op t ht =>
    rcases (hp op s t (.inr ht)).2 m hm with h | h | h
    · exact .inl h
    · exact .inr ⟨0, Nat.zero_le _, h⟩
    · exact .inr ⟨1, Nat.le_refl _, h⟩
  | after s op ops t _ ih =>
    rcases ih hm with h | ⟨k, hk, h⟩
    · rcases (hp op s _ (.inl rfl)).2 m h with h | h | h
      · exact .inl h
      · exact .inr ⟨0, Nat.zero_le _, h⟩
      · exact .inr ⟨1, Nat.succ_le_succ (Nat.zero_le _), h⟩
    · exact .inr ⟨k + 1, Nat.succ_le_succ hk, h⟩

/-- C63. From a flush on any calls are made, and the node is stopped at any point, in the middle of a call included. What
is found on disk afterwards is the coin ledger as it was after the first `k` of these calls had been made completely, for
some `k`; and the gas ledger as it was after the first `j` of them. No call is ever half applied to a ledger. -/
theorem C63_prefix_since_flush (E : Env) (s t : Tree) (ops : List Op) (d : Disk)
    (hs : Stops E (Op.flush.run E s).final ops t) (hc : Crash t d) :
    (∃ k, k ≤ ops.length ∧ d.summary = (runAll E s (.flush :: ops.take k)).summary.cur) ∧
    ∃ j, j ≤ ops.length ∧ d.gas = (runAll E s (.flush :: ops.take j)).gas.cur := by
  refine ⟨?_, ?_⟩
  · rcases stops_recov (p := Tree.summary) (fun op s => op.once_summary s) hs hc.summary with h | h
    · rw [(flush_op E s).2] at h
      refine ⟨0, Nat.zero_le _, ?_⟩
      show d.summary = (Op.flush.run E s).final.summary.cur
      rw [(flush_op E s).2]
      exact Db.flush_recov h
    · exact h
  · rcases stops_recov (p := Tree.gas) (fun op s => op.once_gas s) hs hc.gas with h | h
    · rw [(flush_op E s).2] at h
      refine ⟨0, Nat.zero_le _, ?_⟩
      show d.gas = (Op.flush.run E s).final.gas.cur
      rw [(flush_op E s).2]
      exact Db.flush_recov h
    · exact h

/-- C63 for a node that was never flushed since it was opened on the directory `d0`: the ledger found is the one of `d0`
or, again, the ledger after some of the calls. -/
theorem C63_prefix_since_open (E : Env) (d0 : Disk) (t : Tree) (ops : List Op) (d : Disk)
    (ho : (openTree E d0).out = .ok ()) (hs : Stops E (openTree E d0).final ops t) (hc : Crash t d) :
    (d.summary = d0.summary ∨ ∃ k, k ≤ ops.length ∧ d.summary = (runAll E (openTree E d0).final (ops.take k)).summary.cur) ∧
    (d.gas = d0.gas ∨ ∃ j, j ≤ ops.length ∧ d.gas = (runAll E (openTree E d0).final (ops.take j)).gas.cur) := by
  obtain ⟨h1, h2⟩ := opened_ledgers ho
  refine ⟨?_, ?_⟩
  · rcases stops_recov (p := Tree.summary) (fun op s => op.once_summary s) hs hc.summary with h | h
    · rw [h1] at h
      unfold seedSummary at h
      split at h
      · rcases List.mem_cons.mp h with h | h
        · refine .inr ⟨0, Nat.zero_le _, ?_⟩
          show _ = (openTree E d0).final.summary.cur
          rw [h1, h]
          unfold seedSummary
          rw [if_pos (by assumption)]
          rfl
        · exact .inl (List.mem_singleton.mp h)
      · exact .inl (List.mem_singleton.mp h)
    · exact .inr h
  · rcases stops_recov (p := Tree.gas) (fun op s => op.once_gas s) hs hc.gas with h | h
    · rw [h2] at h
      exact .inl (List.mem_singleton.mp h)
    · exact .inr h

/-- C63 for a crash while the node is being opened: the coin ledger is untouched, or the root account has just been given
the initial coins; the gas ledger is untouched. -/
theorem C63_while_opening (E : Env) (d0 d : Disk) (t : Tree) (ht : t ∈ (openTree E d0).trace) (hc : Crash t d) :
    (d.summary = d0.summary ∨ d.summary = d0.summary.insert ROOT_PUBLIC_ADDRESS.val (Ledger.encode COINS_PER_CYCLE)) ∧
    d.gas = d0.gas := by
  have new : ∀ m tr, MainChain.new E d0.boot.main = ⟨.ok (), m, tr⟩ →
      t.gas = d0.boot.gas ∧ (t.summary = d0.boot.summary ∨ t.summary = seedSummary U256.one d0.boot.summary) := by
    intro m tr h
    rw [openTree_of_new h] at ht
    rcases List.mem_cons.mp ht with rfl | ht
    · exact ⟨rfl, .inl rfl⟩
    · rcases List.mem_append.mp ht with ht | ht
      · obtain ⟨x, _, rfl⟩ := List.mem_map.mp ht
        exact ⟨rfl, .inl rfl⟩
      · split at ht
        · rename_i h1
          rw [List.mem_singleton.mp ht, h1]
          exact ⟨rfl, .inr rfl⟩
        · cases ht
  have key : t.gas = d0.boot.gas ∧ (t.summary = d0.boot.summary ∨ t.summary = seedSummary U256.one d0.boot.summary) := by
    rcases openTree_cases d0 with h | ⟨h, df, hr, hp⟩ | ⟨df, hr⟩
    · rw [openTree_torn h] at ht
      rw [List.mem_singleton.mp ht]
      exact ⟨rfl, .inl rfl⟩
    · exact new _ _ (MainChain.new_pos E d0.boot.main h df hr hp)
    · exact new _ _ (MainChain.new_zero E d0.boot.main df hr)
  have h1 := hc.summary
  have h2 := hc.gas
  rw [key.1] at h2
  refine ⟨?_, List.mem_singleton.mp h2⟩
  rcases key.2 with e | e
  · rw [e] at h1; exact .inl (List.mem_singleton.mp h1)
  · rw [e] at h1
    unfold seedSummary at h1
    rw [if_pos rfl] at h1
    rcases List.mem_cons.mp h1 with h1 | h1
    · exact .inr h1
    · exact .inl (List.mem_singleton.mp h1)

/-- C63. Consequence: if only transfers are made after a flush, then after a crash at any point the sum of all coins is
what it was. -/
theorem C63_coins_survive (E : Env) (s t : Tree) (ops : List Op) (d : Disk) (f : Spec.Accounts) (n : Nat)
    (hl : Life E (.idle s)) (hs : Stops E (Op.flush.run E s).final ops t) (hc : Crash t d)
    (hops : ∀ op ∈ ops, IsTransfer op) (hf : Shows s.summary f) (hn : Spec.Total f n) :
    ∃ f', Shows (Db.open' d.summary) f' ∧ Spec.Total f' n := by
  obtain ⟨k, _, hk⟩ := (C63_prefix_since_flush E s t ops d hs hc).1
  have hi : StoreInv E s := life_storeInv hl
  have key : ∀ (l : List Op) (s : Tree), StoreInv E s → (∀ op ∈ l, IsTransfer op) →
      StoreInv E (runAll E s l) ∧ (runAll E s l).summary.cur.supply = s.summary.cur.supply := by
    intro l
    induction l with
    | nil => exact fun s hs _ => ⟨hs, rfl⟩
    | cons op l ih =>
      intro s hs hl
      obtain ⟨h1, h2⟩ := ih (op.run E s).final ((Op.storeInv E op s).1 hs) fun o ho => hl o (List.mem_cons_of_mem _ ho)
      exact ⟨h1, h2.trans (transfer_supply_inv hs (hl op List.mem_cons_self) _ (.inl rfl))⟩
  obtain ⟨h1, h2⟩ := key (ops.take k) (Op.flush.run E s).final ((Op.storeInv E .flush s).1 hi)
    fun o ho => hops o (List.mem_of_mem_take ho)
  have h1' : (Db.open' d.summary).cur.Dec := by
    rw [hk]; exact h1.summary.1
  refine ⟨_, shows_amt h1', ?_⟩
  have := supply_total h1' (shows_amt h1')
  rw [(total_iff hi.summary.1 hf).mp hn]
  rw [show (Db.open' d.summary).cur.supply = s.summary.cur.supply by
    rw [hk]
    refine Eq.trans h2 ?_
    rw [(flush_op E s).2]; rfl] at this
  exact this

/-- A stop after a transfer that has moved coins: all hypotheses are met. -/
example (E : Env) : ∃ t d f, Stops E (Op.flush.run E (openTree E Disk.empty).final).final
    [.sendAmount ROOT_PUBLIC_ADDRESS.val exA U256.one] t ∧ Crash t d ∧ Shows t.summary f ∧ f exA = 1 := by
  have hr : Run E (Op.flush.run E (openTree E Disk.empty).final).final := .call _ _ .fresh trivial
  have hs : Shows (Op.flush.run E (openTree E Disk.empty).final).final.summary
      (Spec.Accounts.update (fun _ => 0) ROOT_PUBLIC_ADDRESS.val 50010000000000000000000000) := by
    rw [(flush_op E _).2]; exact (C47_start E).1
  have h := (C47_coin_call E _ (.sendAmount ROOT_PUBLIC_ADDRESS.val exA U256.one) _ _ hr rfl hs).1
  refine ⟨_, _, _, .after _ _ _ _ (.idle _), close_is_crash E _ (.call _ _ (run_life hr)), h, ?_⟩
  decide +kernel

/-! ## C64 -/

/-- C64 at full strength. -/
def C64_full : Prop := ∀ (E : Env) (d : Disk), Life E (.down d) → (openTree E d).out = .ok ()

/-- Whatever the state of the node, there is a point during `flush` at which a crash, whatever else it does, leaves a
directory that cannot be opened; and trying to open it does not repair it. -/
theorem C64_refuted :
    (∀ (E : Env) (s : Tree), Life E (.idle s) → ∃ t ∈ (Op.flush.run E s).trace, ∀ d, Crash t d →
      (openTree E d).out = .err .chainInit ∧
      ∀ t' d', t' ∈ (openTree E d).trace → Crash t' d' → (openTree E d').out = .err .chainInit) ∧
    ¬ C64_full := by
  have torn : ∀ E d, d.config = some [] → openTree E d = ⟨.err .chainInit, d.boot, [d.boot]⟩ := by
    intro E d h
    exact openTree_torn (by rw [h]; rfl)
  have key : ∀ (E : Env) (s : Tree), Life E (.idle s) → ∃ t ∈ (Op.flush.run E s).trace, ∀ d, Crash t d →
      (openTree E d).out = .err .chainInit ∧
      ∀ t' d', t' ∈ (openTree E d).trace → Crash t' d' → (openTree E d').out = .err .chainInit := by
    intro E s _
    obtain ⟨tr, h1, h2, _⟩ := s.flush_run
    refine ⟨_, by rw [show Op.flush.run E s = Tree.flush s from rfl, h1]; exact h2, fun d hd => ?_⟩
    have hc : d.config = some [] := hd.config
    refine ⟨by rw [torn E d hc], fun t' d' ht' hd' => ?_⟩
    rw [torn E d hc] at ht'
    rw [List.mem_singleton.mp ht'] at hd'
    rw [torn E d' (hd'.config.trans hc)]
  refine ⟨key, fun hf => ?_⟩
  obtain ⟨t, ht, h⟩ := key zeroEnv _ (life_fresh zeroEnv)
  have hb : Life zeroEnv (.busy t) := .running _ t .flush (life_fresh zeroEnv) ht
  have hc := (life_sound hb).close
  have h1 := hf zeroEnv _ (.crashBusy t _ hb hc)
  rw [(h _ hc).1] at h1
  cases h1

/-- Opening a directory succeeds exactly if the config file is missing or at least 64 bytes long. -/
theorem C64_opens_iff_partial (E : Env) (d : Disk) :
    (openTree E d).out = .ok () ↔ ∀ f, d.config = some f → 64 ≤ f.length := openTree_ok_iff E d

/-- The life of a node that makes only allowed calls and is never stopped in the middle of a call that writes the config
file: it may be stopped between calls, while being opened, and in the middle of any other call. -/
inductive CalmLife (E : Env) (allowed : Op → Prop) : Moment → Prop where
  | start : CalmLife E allowed (.down Disk.empty)
  | opening (d : Disk) (t : Tree) : CalmLife E allowed (.down d) → t ∈ (openTree E d).trace → CalmLife E allowed (.busy t)
  | opened (d : Disk) : CalmLife E allowed (.down d) → (openTree E d).out = .ok () →
      CalmLife E allowed (.idle (openTree E d).final)
  | running (s t : Tree) (op : Op) : CalmLife E allowed (.idle s) → allowed op → ¬ op.Flushes → t ∈ (op.run E s).trace →
      CalmLife E allowed (.busy t)
  | call (s : Tree) (op : Op) : CalmLife E allowed (.idle s) → allowed op → CalmLife E allowed (.idle (op.run E s).final)
  | crashIdle (s : Tree) (d : Disk) : CalmLife E allowed (.idle s) → Crash s d → CalmLife E allowed (.down d)
  | crashBusy (s : Tree) (d : Disk) : CalmLife E allowed (.busy s) → Crash s d → CalmLife E allowed (.down d)

theorem calm_life {E : Env} {A : Op → Prop} {m : Moment} (h : CalmLife E A m) : Life E m := by
  induction h with
  | start => exact .start
  | opening d t _ ht ih => exact .opening d t ih ht
  | opened d _ ho ih => exact .opened d ih ho
  | running s t op _ _ _ ht ih => exact .running s t op ih ht
  | call s op _ _ ih => exact .call s op ih
  | crashIdle s d _ hc ih => exact .crashIdle s d ih hc
  | crashBusy s d _ hc ih => exact .crashBusy s d ih hc

theorem opening_config {E : Env} {d : Disk} {t : Tree} (h : t ∈ (openTree E d).trace) : t.main.chain.config = d.config :=
  (Tree.new_rel (E := E) (R := fun s t : Tree => s.main.chain.config = d.config → t.main.chain.config = d.config)
    (Act.inv_preord _) (fun _ h => h) (fun _ _ _ h => h)
    (Act.rel_zoom (R := fun a b : MainChain => a.chain.config = d.config → b.chain.config = d.config)
      (MainChain.addBlock_rel (R := fun a b : Chain => a.config = d.config → b.config = d.config)
        (Chain.addBlock_rel E (fun _ h => h) _ _ (fun _ _ h => h) (fun _ _ h => h) (fun _ _ _ h => h)) fun _ _ h => h)
      fun _ _ h => h)
    (Act.rel_zoom (Act.rel_true _) fun _ _ _ h => h) d.boot).2 t h rfl

theorem opened_config {E : Env} {d : Disk} (h : (openTree E d).out = .ok ()) :
    (openTree E d).final.main.chain.config = d.config := by
  rcases openTree_ok h with ⟨_, _, hc, hp⟩ | ⟨_, hc⟩
  · rw [(openTree_pos (E := E) hc hp).2]; rfl
  · rw [(openTree_zero (E := E) hc).2]; rfl

/-- Every config file of such a node is readable. -/
theorem calm_config {E : Env} {A : Op → Prop} {m : Moment} (h : CalmLife E A m) :
    match m with
    | .idle t => ∃ r, MainChain.readConfig t.main.chain.config = .ok r
    | .busy t => ∃ r, MainChain.readConfig t.main.chain.config = .ok r
    | .down d => ∃ r, MainChain.readConfig d.config = .ok r := by
  have hA : ∀ b, Act.Rel (fun a b : MainChain => (∃ r, MainChain.readConfig a.chain.config = .ok r) →
      ∃ r, MainChain.readConfig b.chain.config = .ok r) (MainChain.addBlock E b) := fun b =>
    MainChain.addBlock_rel (R := fun a b : Chain => b.config = a.config)
      (Chain.addBlock_rel (R := fun a b : Chain => b.config = a.config) E (fun _ => rfl) _ _ (fun _ _ => rfl)
        (fun _ _ => rfl) (fun _ _ _ => rfl))
      fun m c h => by simp only [h]; exact id
  induction h with
  | start => exact ⟨_, rfl⟩
  | opening d t _ ht ih => simp only; rw [opening_config ht]; exact ih
  | opened d _ ho ih => simp only; rw [opened_config ho]; exact ih
  | running s t op _ _ hop ht ih =>
    exact (Op.calm_rel (A := fun _ => True) (Act.inv_preord _) (fun b _ => hA b) (fun _ => Act.rel_step fun _ h => h) op
      op.adds_true hop s).2 t ht ih
  | call s op _ _ ih =>
    exact Op.sat (main_prims (A := fun _ => True) (Act.inv_preord _) (fun b _ => (hA b).relF)
      (fun _ => Act.relF_step fun _ h => h) (fun m _ => by
        rw [MainChain.flush_run]; exact ⟨_, MainChain.readConfig_written _ _⟩))
      (Act.relF_closed ⟨fun _ h => h, fun h1 h2 h => h2 (h1 h)⟩) op op.adds_true s ih
  | crashIdle s d _ hc ih => simp only; rw [hc.config]; exact ih
  | crashBusy s d _ hc ih => simp only; rw [hc.config]; exact ih

/-- C64 for nodes never stopped in the middle of a call that writes the config file. (Missing: those calls, that is
`flush` and the emission of a summarize block; there the claim is false.) -/
theorem C64_opens_partial (E : Env) (d : Disk) (h : CalmLife E (fun _ => True) (.down d)) :
    (openTree E d).out = .ok () := by
  rw [openTree_ok_iff, ← readConfig_ok_iff]
  exact calm_config h

/-! ## C65 -/

/-- C65 at full strength. -/
def C65_full : Prop := ∀ (E : Env) (d : Disk), Life E (.down d) → (openTree E d).out = .ok () →
  ∃ b, (openTree E d).final.main.getLastBlock = .ok (some b)

/-- Below height `n` every block is stored, has its height, and is read back. -/
def Legible (m : KV) (n : Nat) : Prop := ∀ q : U256, q.val < n →
  ∃ b : Block, m.get q.toBE.val = some b.dump ∧ b.info.height = q ∧ MainChain.decode (some b.dump) = .ok (some b)

theorem Legible.mono {m : KV} {n k : Nat} (h : Legible m n) (hk : k ≤ n) : Legible m k :=
  fun q hq => h q (Nat.lt_of_lt_of_le hq hk)

theorem Legible.insert {m : KV} {c : U256} {b : Block} (h : Legible m c.val) (hb : b.info.height = c)
    (hd : MainChain.decode (some b.dump) = .ok (some b)) : Legible (m.insert c.toBE.val b.dump) (c.val + 1) := by
  intro q hq
  rw [KV.get_insert]
  by_cases he : q = c
  · rw [if_pos (by rw [he])]
    exact ⟨b, rfl, by rw [he]; exact hb, hd⟩
  · rw [if_neg (fun e => he (toBE_inj e).symm)]
    refine h q ?_
    have : q.val ≠ c.val := fun e => he (U256.ext e)
    omega

/-- What is on disk is legible up to the height the config file gives. -/
structure Recoverable (c : Chain) : Prop where
  disk : ∃ h d, MainChain.readConfig c.config = .ok (h, d) ∧ h.val ≤ c.height.val ∧ ∀ m ∈ c.blocks.recov, Legible m h.val
  pos : 1 ≤ c.height.val
  cur : Legible c.blocks.cur c.height.val

theorem Recoverable.put {c : Chain} {b : Block} (h : Recoverable c) (hb : b.info.height = c.height) (hm : b.IsMain) :
    Legible (c.blocks.insert c.height.toBE.val b.dump).cur (c.height.val + 1) ∧
    ∃ q d, MainChain.readConfig c.config = .ok (q, d) ∧ q.val ≤ c.height.val ∧
      ∀ m ∈ (c.blocks.insert c.height.toBE.val b.dump).recov, Legible m q.val := by
  have hd := decode_main b hm (.inl (by rw [hb]; have := h.pos; omega))
  have h1 := h.cur.insert hb hd
  obtain ⟨q, d, hr, hq, hl⟩ := h.disk
  refine ⟨h1, q, d, hr, hq, fun m hm => ?_⟩
  rcases List.mem_cons.mp hm with rfl | hm
  · exact h1.mono (by omega)
  · exact hl m hm

theorem recoverable_addBlock (E : Env) (b : Block) (hm : b.IsMain) :
    Act.Rel (fun s t : MainChain => Recoverable s.chain → Recoverable t.chain) (MainChain.addBlock E b) :=
  MainChain.addBlock_rel (R := fun s t => Recoverable s → Recoverable t)
    (Chain.addBlock_rel E (fun _ h => h) _ _
      (fun _ hb h => ⟨(h.put hb hm).2, h.pos, (h.put hb hm).1.mono (Nat.le_succ _)⟩)
      (fun _ hb h => ⟨(h.put hb hm).2, h.pos, (h.put hb hm).1.mono (Nat.le_succ _)⟩)
      (fun c _ hb h => by
        obtain ⟨h1, q, d, hr, hq, hl⟩ := h.put hb hm
        exact ⟨⟨q, d, hr, Nat.le_succ_of_le hq, hl⟩, Nat.succ_le_succ (Nat.zero_le _), h1⟩)) fun _ _ h => h

theorem recoverable_flush : Act.RelF (fun s t : MainChain => Recoverable s.chain → Recoverable t.chain) MainChain.flush := by
  intro m h
  rw [MainChain.flush_run]
  refine ⟨⟨_, _, MainChain.readConfig_written _ _, Nat.le_refl _, fun x hx => ?_⟩, h.pos, h.cur⟩
  rw [Db.flush_recov hx]
  exact h.cur

/-- The part of the invariant that matters for what is found on disk. -/
def OnDisk (c : Chain) : Prop :=
  ∃ h d, MainChain.readConfig c.config = .ok (h, d) ∧ ∀ m ∈ c.blocks.recov, Legible m h.val

theorem Recoverable.onDisk {c : Chain} (h : Recoverable c) : OnDisk c := by
  obtain ⟨q, d, h1, _, h3⟩ := h.disk
  exact ⟨q, d, h1, h3⟩

theorem calm_recoverable {E : Env} {m : Moment} (h : CalmLife E MainOnly m) :
    match m with
    | .idle t => Recoverable t.main.chain
    | .busy t => OnDisk t.main.chain
    | .down d => ∃ h df, MainChain.readConfig d.config = .ok (h, df) ∧ Legible d.blocks h.val := by
  induction h with
  | start => exact ⟨_, _, rfl, fun q hq => absurd hq (Nat.not_lt_zero _)⟩
  | opening d t _ ht ih =>
    obtain ⟨q, df, hr, hl⟩ := ih
    refine ⟨q, df, by rw [opening_config ht]; exact hr, ?_⟩
    by_cases hq : q.val = 0
    · rw [hq]; exact fun m _ q hq => absurd hq (Nat.not_lt_zero _)
    · have hb : t.main.chain.blocks = Db.open' d.blocks := by
        rw [openTree_of_new (MainChain.new_pos E d.boot.main q df hr hq)] at ht
        rcases List.mem_cons.mp ht with rfl | ht
        · rfl
        · rcases List.mem_append.mp ht with ht | ht
          · obtain ⟨x, hx, rfl⟩ := List.mem_map.mp ht
            rw [List.mem_singleton.mp hx]; rfl
          · split at ht
            · rw [List.mem_singleton.mp ht]; rfl
            · cases ht
      intro m hm
      rw [hb] at hm
      rw [List.mem_singleton.mp hm]
      exact hl
  | opened d _ ho ih =>
    obtain ⟨q, df, hr, hl⟩ := ih
    by_cases hq : q.val = 0
    · rw [u256_zero hq] at hr
      simp only
      rw [(openTree_zero (E := E) hr).2]
      refine ⟨⟨_, _, hr, Nat.zero_le _, fun m _ q hq => absurd hq (Nat.not_lt_zero _)⟩, Nat.le_refl 1, ?_⟩
      exact Legible.insert (c := U256.zero) (fun q hq => absurd hq (Nat.not_lt_zero _)) rfl
        (decode_main (genesis E) trivial (.inr ⟨_, rfl⟩))
    · simp only
      rw [(openTree_pos (E := E) hr hq).2]
      refine ⟨⟨q, df, hr, Nat.le_refl _, fun m hm => ?_⟩, Nat.one_le_iff_ne_zero.mpr hq, hl⟩
      rw [List.mem_singleton.mp hm]
      exact hl
  | running s t op _ ha hop ht ih =>
    exact ((Op.calm_rel (A := Block.IsMain) (R := fun s t : MainChain => Recoverable s.chain → Recoverable t.chain)
      (Act.inv_preord _) (recoverable_addBlock E) (fun _ => Act.rel_step fun _ h => h) op
      ha.adds hop s).2 t ht ih).onDisk
  | call s op _ ha ih =>
    exact Op.sat (main_prims (A := Block.IsMain) (R := fun s t : MainChain => Recoverable s.chain → Recoverable t.chain)
      (Act.inv_preord _) (fun b hb => (recoverable_addBlock E b hb).relF)
      (fun _ => Act.relF_step fun _ h => h) recoverable_flush)
      (Act.relF_closed ⟨fun _ h => h, fun h1 h2 h => h2 (h1 h)⟩) op ha.adds s ih
  | crashIdle s d _ hc ih =>
    obtain ⟨q, df, hr, hl⟩ := ih.onDisk
    exact ⟨q, df, by rw [hc.config]; exact hr, hl _ hc.blocks⟩
  | crashBusy s d _ hc ih =>
    obtain ⟨q, df, hr, hl⟩ := ih
    exact ⟨q, df, by rw [hc.config]; exact hr, hl _ hc.blocks⟩

/-- C65 for nodes never stopped in the middle of a call that writes the config file and offered only main-chain blocks:
at every moment at which the node is open, in particular right after opening it following a crash, `get_last_block`
returns the block of the greatest height, and so does a query for any height below. (Missing: a crash in the middle of
`flush` or of the emission of a summarize block; there the claim is false.) -/
theorem C65_tip_partial (E : Env) (s : Tree) (h : CalmLife E MainOnly (.idle s)) :
    (∃ b, s.main.getLastBlock = .ok (some b) ∧ b.info.height.val + 1 = s.main.getHeight.val) ∧
    ∀ q : U256, q.val < s.main.getHeight.val → ∃ b, s.main.findByHeight q = .ok (some b) ∧ b.info.height = q := by
  have hr : Recoverable s.main.chain := calm_recoverable h
  have hq : ∀ q : U256, q.val < s.main.getHeight.val → ∃ b, s.main.findByHeight q = .ok (some b) ∧ b.info.height = q := by
    intro q hq
    obtain ⟨b, h1, h2, h3⟩ := hr.cur q hq
    refine ⟨b, ?_, h2⟩
    unfold MainChain.findByHeight MainChain.findRawByHeight Chain.findRawByHeight
    have : ¬ s.main.chain.height.val < q.val := by
      show ¬ s.main.getHeight.val < q.val
      omega
    rw [if_neg this, show s.main.chain.blocks.get q.toBE.val = some b.dump from h1]
    exact h3
  refine ⟨?_, hq⟩
  have hp : 1 ≤ s.main.getHeight.val := hr.pos
  have hlt := s.main.chain.height.lt
  obtain ⟨b, h1, h2⟩ := hq ⟨s.main.chain.height.val - 1, by omega⟩ (by
    show s.main.chain.height.val - 1 < s.main.chain.height.val
    have : 1 ≤ s.main.chain.height.val := hp
    omega)
  refine ⟨b, ?_, ?_⟩
  · unfold MainChain.getLastBlock MainChain.getLastRawBlock
    rw [lastIndex hr.pos]
    exact h1
  · rw [h2]
    show s.main.chain.height.val - 1 + 1 = s.main.chain.height.val
    have : 1 ≤ s.main.chain.height.val := hp
    omega

/-- Such a node can always be opened, and then has a last block. -/
theorem C65_after_crash_partial (E : Env) (d : Disk) (h : CalmLife E MainOnly (.down d)) :
    (openTree E d).out = .ok () ∧ ∃ b, (openTree E d).final.main.getLastBlock = .ok (some b) := by
  have ho : (openTree E d).out = .ok () := by
    rw [openTree_ok_iff, ← readConfig_ok_iff]
    exact calm_config h
  obtain ⟨⟨b, hb, _⟩, _⟩ := C65_tip_partial E _ (.opened d h ho)
  exact ⟨ho, b, hb⟩

theorem no_last {m : MainChain} {i : U256} (hs : m.chain.height.sub U256.one = .ok i)
    (hg : m.chain.blocks.get i.toBE.val = none) : m.getLastBlock = .ok none := by
  unfold MainChain.getLastBlock MainChain.getLastRawBlock MainChain.findRawByHeight Chain.findRawByHeight
  rw [hs]
  simp only [Outcome.ok_bind, hg, ite_self]
  rfl

/-- A block is accepted; during the flush that follows, the config file is written before the block database is flushed.
A crash between the two can lose the block but not the height: the node opens and has no last block. -/
theorem C65_refuted :
    (∀ E : Env, ∃ t d, t ∈ (Op.flush.run E ((Op.addBlock nextBlock).run E (openTree E Disk.empty).final).final).trace ∧
      Life E (.busy t) ∧ Crash t d ∧ (openTree E d).out = .ok () ∧ (openTree E d).final.main.getHeight.val = 2 ∧
      (openTree E d).final.main.getLastBlock = .ok none) ∧ ¬ C65_full := by
  have key : ∀ E : Env, ∃ t d, t ∈ (Op.flush.run E ((Op.addBlock nextBlock).run E (openTree E Disk.empty).final).final).trace ∧
      Life E (.busy t) ∧ Crash t d ∧ (openTree E d).out = .ok () ∧ (openTree E d).final.main.getHeight.val = 2 ∧
      (openTree E d).final.main.getLastBlock = .ok none := by
    intro E
    have e0 : (openTree E Disk.empty).final.main.chain.height = U256.one := by rw [(openTree_fresh E).2]; rfl
    have hb0 : (openTree E Disk.empty).final.main.chain.blocks.recov =
      [KV.empty.insert U256.zero.toBE.val (genesis E).dump, KV.empty] := by rw [(openTree_fresh E).2]; rfl
    obtain ⟨_, f1⟩ := add_ok E (openTree E Disk.empty).final nextBlock (by rw [e0]; rfl) (by rw [e0]; decide)
    obtain ⟨s, hs⟩ : ∃ s, s = ((Op.addBlock nextBlock).run E (openTree E Disk.empty).final).final := ⟨_, rfl⟩
    have hl : Life E (.idle s) := by rw [hs]; exact .call _ _ (life_fresh E)
    rw [← hs] at f1 ⊢
    have e1 : s.main.chain.height.val = 2 := by rw [f1]; simp only [Chain.put3, e0]; rfl
    have r1 : KV.empty.insert U256.zero.toBE.val (genesis E).dump ∈ s.main.chain.blocks.recov := by
      rw [f1]
      refine List.mem_cons_of_mem _ ?_
      rw [hb0]; exact List.mem_cons_self
    obtain ⟨tr, h1, _, h3⟩ := s.flush_run
    have ht : { s with main := { s.main with chain := { s.main.chain with config := some s.main.chain.saved } } } ∈
      (Op.flush.run E s).trace := by rw [show Op.flush.run E s = Tree.flush s from rfl, h1]; exact h3
    have hlb : Life E (.busy _) := .running s _ .flush hl ht
    have hc := (life_sound hlb).close
    have hc' : Crash { s with main := { s.main with chain := { s.main.chain with config := some s.main.chain.saved } } }
      { Tree.close { s with main := { s.main with chain := { s.main.chain with config := some s.main.chain.saved } } } with
        blocks := KV.empty.insert U256.zero.toBE.val (genesis E).dump } :=
      ⟨r1, hc.2, hc.3, hc.4, hc.5, hc.6, hc.7, hc.8, hc.9⟩
    have hrc := MainChain.readConfig_written s.main.chain.height s.main.chain.difficulty
    obtain ⟨ho, hf⟩ := openTree_pos (E := E) (d := { Tree.close { s with main := { s.main with chain := { s.main.chain with config := some s.main.chain.saved } } } with
        blocks := KV.empty.insert U256.zero.toBE.val (genesis E).dump }) hrc (by rw [e1]; decide)
    refine ⟨_, _, ht, hlb, hc', ho, by rw [hf]; exact e1, ?_⟩
    rw [hf]
    have hsub : s.main.chain.height.sub U256.one = .ok U256.one := by
      rw [lastIndex (by rw [e1]; decide)]
      exact congrArg Outcome.ok (U256.ext (by show s.main.chain.height.val - 1 = 1; rw [e1]))
    refine no_last hsub ?_
    show (KV.insert _ _ _).get _ = none
    rw [KV.get_insert, if_neg (by decide)]
    rfl
  refine ⟨key, fun hf => ?_⟩
  obtain ⟨t, d, _, hb, hc, ho, _, h⟩ := key zeroEnv
  obtain ⟨b, hb⟩ := hf zeroEnv d (.crashBusy t d hb hc) ho
  rw [h] at hb
  cases hb

/-- Such a life with a crash in the middle of `add_block`, one entry already written. -/
example (E : Env) : ∃ t, t ∈ ((Op.addBlock nextBlock).run E (openTree E Disk.empty).final).trace ∧
    CalmLife E MainOnly (.busy t) ∧ CalmLife E MainOnly (.down t.close) ∧
    t.main.chain.blocks.get U256.one.toBE.val = some nextBlock.dump := by
  have e0 : (openTree E Disk.empty).final.main.chain.height = U256.one := by rw [(openTree_fresh E).2]; rfl
  have h0 : CalmLife E MainOnly (.idle (openTree E Disk.empty).final) := .opened _ .start (openTree_fresh E).1
  have ht : { (openTree E Disk.empty).final with
      main := { (openTree E Disk.empty).final.main with
        chain := (openTree E Disk.empty).final.main.chain.put1 nextBlock.dump } } ∈
      ((Op.addBlock nextBlock).run E (openTree E Disk.empty).final).trace := by
    rw [addBlock_op]
    unfold MainChain.addBlock MainChain.onChain
    rw [Act.zoom_run, show nextBlock.info.height = U256.one from rfl, ← e0, Chain.addBlock_right (by rw [e0]; decide)]
    simp
  have hb : CalmLife E MainOnly (.busy _) := .running _ _ (.addBlock nextBlock) h0 trivial id ht
  refine ⟨_, ht, hb, .crashBusy _ _ hb (life_sound (calm_life hb)).close, ?_⟩
  show (Db.insert _ _ _).get _ = _
  rw [Db.get_insert, if_pos (by rw [e0])]

/-! ## C66 -/

/-- C66. At any moment at which the node is open, whatever crashes and restarts came before: every stored transaction is
stored under its hash, and every balance can be read. -/
theorem C66_open_node (E : Env) (s : Tree) (h : Life E (.idle s) ∨ Life E (.busy s)) :
    (∀ k raw, s.main.transactions.get k = some raw → k = (E.sha256 raw).val ∧ ∃ t : Transaction, raw = t.dump) ∧
    (∀ k v, s.summary.get k = some v → ∃ a, v = Ledger.encode a ∧ Ledger.balance (some v) = .ok a) ∧
    (∀ k v, s.gas.get k = some v → ∃ a, v = Ledger.encode a ∧ Ledger.balance (some v) = .ok a) := by
  have hi : StoreInv E s := by
    rcases h with h | h
    · exact life_storeInv h
    · exact life_storeInv h
  refine ⟨hi.txs.1, fun k v hv => ?_, fun k v hv => ?_⟩
  · obtain ⟨a, rfl⟩ := hi.summary.1 k v hv
    exact ⟨a, rfl, Ledger.balance_encode a⟩
  · obtain ⟨a, rfl⟩ := hi.gas.1 k v hv
    exact ⟨a, rfl, Ledger.balance_encode a⟩

/-- C66 for what is found on disk while the node is down; the snapshots of the previous epoch included. -/
theorem C66_on_disk (E : Env) (d : Disk) (h : Life E (.down d)) :
    (∀ k raw, d.transactions.get k = some raw → k = (E.sha256 raw).val ∧ ∃ t : Transaction, raw = t.dump) ∧
    ∀ m ∈ [d.summary, d.oldSummary, d.gas, d.oldGas], ∀ k v, m.get k = some v →
      ∃ a, v = Ledger.encode a ∧ Ledger.balance (some v) = .ok a := by
  have hi : DiskInv E d := life_storeInv h
  have key : ∀ m : KV, m.Dec → ∀ k v, m.get k = some v → ∃ a, v = Ledger.encode a ∧ Ledger.balance (some v) = .ok a := by
    intro m hm k v hv
    obtain ⟨a, rfl⟩ := hm k v hv
    exact ⟨a, rfl, Ledger.balance_encode a⟩
  refine ⟨hi.txs, fun m hm => key m ?_⟩
  simp only [List.mem_cons, List.not_mem_nil, or_false] at hm
  rcases hm with rfl | rfl | rfl | rfl
  · exact hi.summary
  · exact hi.oldSummary
  · exact hi.gas
  · exact hi.oldGas

/-- C66, as seen by a caller: no lookup in a node ever fails on a stored entry. -/
theorem C66_readable (E : Env) (s : Tree) (h : Life E (.idle s)) :
    (∀ o, ∃ a, s.getAmount o = .ok a) ∧ (∀ o, ∃ a, s.getGas o = .ok a) ∧
    ∀ x, s.main.getTransaction E x = .ok none ∨ ∃ t, s.main.getTransaction E x = .ok (some t) := by
  have hi : StoreInv E s := life_storeInv h
  refine ⟨fun o => ⟨_, hi.summary.1.balance o.val⟩, fun o => ⟨_, hi.gas.1.balance o.val⟩, fun x => ?_⟩
  cases hx : s.main.getTransactionRaw x with
  | none => left; unfold MainChain.getTransaction; rw [hx]
  | some raw =>
    obtain ⟨_, t, rfl⟩ := hi.txs.1 _ _ hx
    exact .inr ⟨_, getTransaction_dump hx⟩

end BCT.Props
