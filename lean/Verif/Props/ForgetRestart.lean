import Verif.Props.Forget
/-!
# C168: a flushed restart does not reread the history either

C167 with restarts: the node is flushed, shut down and opened again (blockchaintree.rs:33-83, :516-543, chain.rs:62-201).
-/

namespace BCT.Props
open BCT

/-- A call, or a restart after `flush`. -/
inductive Turn where
  | call (op : Op)
  | restart

/-- What a turn answers and where it leads. -/
def Turn.run (E : Env) (s : Tree) : Turn → Outcome Unit × Tree
  | .call op => ((op.run E s).out, (op.run E s).final)
  | .restart => let r := openTree E (Op.flush.run E s).final.close
    (r.out, r.final)

/-- A series of turns. -/
def turns (E : Env) : List Turn → Tree → List (Outcome Unit) × Tree
  | [], s => ([], s)
  | x :: xs, s => let r := turns E xs (x.run E s).2
    ((x.run E s).1 :: r.1, r.2)

/-- No derivative block of the series is the first of its chain. -/
def NeverBackTurns (E : Env) : List Turn → Tree → Prop
  | [], _ => True
  | x :: xs, s => (∀ op, x = .call op → ¬ Op.LooksBack E s op) ∧ NeverBackTurns E xs (x.run E s).2

/-- The last raw block, spelt out. -/
theorem lastRaw_pos {m : MainChain} {h : U256} (hh : m.chain.height = h) (hp : h.val ≠ 0) :
    m.getLastRawBlock = .ok (m.chain.blocks.get (⟨h.val - 1, Nat.lt_of_le_of_lt (Nat.sub_le _ _) h.lt⟩ : U256).toBE.val) := by
  subst hh
  have hs : m.chain.height.sub U256.one = .ok ⟨m.chain.height.val - 1, Nat.lt_of_le_of_lt (Nat.sub_le _ _) m.chain.height.lt⟩ := by
    unfold U256.sub
    have h1 : U256.one.val = 1 := rfl
    rw [if_pos (by rw [h1]; omega)]
    rfl
  unfold MainChain.getLastRawBlock MainChain.findRawByHeight Chain.findRawByHeight
  rw [hs, Outcome.ok_bind, if_neg (Nat.not_lt.mpr (Nat.sub_le _ _))]

theorem seed_present {a b : Db} (h : U256) (e : a.cur = b.cur) :
    (seedSummary h (Db.open' a.cur)).cur = (seedSummary h (Db.open' b.cur)).cur := by rw [e]

theorem present_restart (E : Env) (s t : Tree) (h : Present s t) :
    (Turn.restart.run E s).1 = .ok () ∧ (Turn.restart.run E t).1 = .ok () ∧
    Present (Turn.restart.run E s).2 (Turn.restart.run E t).2 := by
  have hf : ∀ u : Tree, (Op.flush.run E u).final = u.flushed := fun u => by
    obtain ⟨tr, e, _⟩ := Tree.flush_run u
    show (Tree.flush u).final = _
    rw [e]
  have hr : ∀ u : Tree, MainChain.readConfig u.flushed.close.config = .ok (u.main.chain.height, u.main.chain.difficulty) :=
    fun u => MainChain.readConfig_written _ _
  have hdb : ∀ u : Tree, u.flushed.close.deriv = s.flushed.close.deriv → u.flushed.close.boot.derivFiles =
      s.flushed.close.boot.derivFiles := fun u e => by unfold Disk.boot; rw [e]
  have hderiv : t.flushed.close.deriv = s.flushed.close.deriv := by
    show (fun n => DerivDisk.mk _ _ _) = (fun n => DerivDisk.mk _ _ _)
    show (fun n => DerivDisk.mk (t.derivFiles n).blocks.cur (t.derivFiles n).heightReference.cur (t.derivFiles n).config) = _
    rw [← h.files]
    rfl
  unfold Turn.run
  simp only [hf]
  by_cases hp : s.main.chain.height.val = 0
  · have e0 : s.main.chain.height = U256.zero := u256_zero hp
    have e0' : t.main.chain.height = U256.zero := h.main.height ▸ e0
    have hs := hr s
    have ht := hr t
    rw [e0] at hs
    rw [e0'] at ht
    obtain ⟨o1, f1⟩ := openTree_zero (E := E) hs
    obtain ⟨o2, f2⟩ := openTree_zero (E := E) ht
    refine ⟨o1, o2, ?_⟩
    rw [f1, f2]
    refine ⟨⟨rfl, ?_⟩, (hdb t hderiv).symm, rfl, seed_present U256.one h.coins, h.gas⟩
    rw [lastRaw_pos (h := U256.one) rfl (by decide), lastRaw_pos (h := U256.one) rfl (by decide)]
    have hk : (⟨U256.one.val - 1, Nat.lt_of_le_of_lt (Nat.sub_le _ _) U256.one.lt⟩ : U256) = U256.zero := rfl
    rw [hk]
    show Outcome.ok ((KV.insert _ _ _).get _) = Outcome.ok ((KV.insert _ _ _).get _)
    rw [KV.get_insert, KV.get_insert, if_pos rfl, if_pos rfl]
  · have hp' : t.main.chain.height.val ≠ 0 := h.main.height ▸ hp
    obtain ⟨o1, f1⟩ := openTree_pos (E := E) (hr s) hp
    obtain ⟨o2, f2⟩ := openTree_pos (E := E) (hr t) hp'
    refine ⟨o1, o2, ?_⟩
    rw [f1, f2, ← h.main.height]
    refine ⟨⟨rfl, ?_⟩, (hdb t hderiv).symm, rfl, seed_present _ h.coins, h.gas⟩
    have hl := h.main.last
    rw [lastRaw_pos rfl hp, lastRaw_pos h.main.height.symm hp] at hl
    refine (lastRaw_pos (h := s.main.chain.height) rfl hp).trans (hl.trans ?_)
    refine Eq.symm ((lastRaw_pos (h := s.main.chain.height) ?_ hp).trans ?_)
    · rfl
    · rfl

/-- C168. C167 with restarts: nodes with the same present answer every series of calls and flushed restarts the same, and
all the restarts succeed. -/
theorem C168_turns (E : Env) (s t : Tree) (xs : List Turn) (h : Present s t) (hx : NeverBackTurns E xs s) :
    (turns E xs s).1 = (turns E xs t).1 ∧ Present (turns E xs s).2 (turns E xs t).2 := by
  induction xs generalizing s t with
  | nil => exact ⟨rfl, h⟩
  | cons x xs ih =>
    have key : (x.run E s).1 = (x.run E t).1 ∧ Present (x.run E s).2 (x.run E t).2 := by
      cases x with
      | call op => exact present_op E op s t h (hx.1 op rfl)
      | restart =>
        obtain ⟨h1, h2, h3⟩ := present_restart E s t h
        exact ⟨h1.trans h2.symm, h3⟩
    obtain ⟨i1, i2⟩ := ih _ _ key.2 hx.2
    refine ⟨?_, i2⟩
    show (x.run E s).1 :: _ = (x.run E t).1 :: _
    rw [key.1, i1]

/-- C168, every restart of the series succeeds. -/
theorem C168_opens (E : Env) (s : Tree) : (Turn.restart.run E s).1 = .ok () :=
  (present_restart E s s ⟨⟨rfl, rfl⟩, rfl, rfl, rfl, rfl⟩).1

/-- Without the flush a restart does look back: the config file names an earlier height, and the block below it becomes the
last one. The node that has lost its past then has no last block. -/
theorem C168_unflushed (E : Env) (s : Tree) (h : U256) (df : Hash) (v : Bytes)
    (hc : MainChain.readConfig s.main.chain.config = .ok (h, df)) (hp : h.val ≠ 0)
    (hlt : h.val < s.main.chain.height.val)
    (hv : s.main.chain.blocks.get (⟨h.val - 1, Nat.lt_of_le_of_lt (Nat.sub_le _ _) h.lt⟩ : U256).toBE.val = some v) :
    Present s (forget s) ∧
    (openTree E s.close).final.main.getLastRawBlock = .ok (some v) ∧
    (openTree E (forget s).close).final.main.getLastRawBlock = .ok none := by
  refine ⟨forget_present s, ?_, ?_⟩
  · obtain ⟨_, f⟩ := openTree_pos (E := E) (d := s.close) hc hp
    rw [f, lastRaw_pos (h := h) rfl hp]
    exact congrArg Outcome.ok hv
  · obtain ⟨_, f⟩ := openTree_pos (E := E) (d := (forget s).close) hc hp
    rw [f, lastRaw_pos (h := h) rfl hp]
    refine congrArg Outcome.ok ?_
    show (match s.main.getLastRawBlock with
      | .ok (some v) => KV.empty.insert (⟨s.main.chain.height.val - 1,
          Nat.lt_of_le_of_lt (Nat.sub_le _ _) s.main.chain.height.lt⟩ : U256).toBE.val v
      | _ => KV.empty).get _ = none
    split
    · rw [KV.get_insert, if_neg]
      · rfl
      · intro e
        have := congrArg U256.val (toBE_inj e)
        simp only at this
        omega
    · rfl

/-- A series with two restarts. -/
example (E : Env) (s : Tree) (o : Address) (a : U256) (p : BytesN 32) (txs : List Hash) (ts : UInt64) :
    let xs : List Turn := [.restart, .call (.addAmount o.val a), .call (.emitMain p o txs ts), .restart]
    (turns E xs s).1 = (turns E xs (forget s)).1 := by
  intro xs
  exact (C168_turns E s _ xs (forget_present s) ⟨nofun, fun _ e => by rw [← Turn.call.inj e]; exact id,
    fun _ e => by rw [← Turn.call.inj e]; exact id, nofun, trivial⟩).1

/-- A node that meets the hypotheses of `C168_unflushed`: opened on an empty directory, flushed, one block added. -/
example (E : Env) (b : Block) (hb : b.info.height = U256.one) :
    let s := (Op.run E (.addBlock b) (Op.run E .mainFlush (openTree E Disk.empty).final).final).final
    ∃ df v, MainChain.readConfig s.main.chain.config = .ok (U256.one, df) ∧ U256.one.val < s.main.chain.height.val ∧
      s.main.chain.blocks.get (⟨U256.one.val - 1, Nat.lt_of_le_of_lt (Nat.sub_le _ _) U256.one.lt⟩ : U256).toBE.val = some v := by
  intro s
  obtain ⟨_, f⟩ := openTree_zero (E := E) (d := Disk.empty) (df := BEGINNING_DIFFICULTY) rfl
  have e1 : (Op.run E .mainFlush (openTree E Disk.empty).final).final.main =
      (openTree E Disk.empty).final.main.flushed := by
    show (MainChain.flush _).final = _
    rw [MainChain.flush_run]
  obtain ⟨m, hm⟩ : ∃ m, m = (Op.run E .mainFlush (openTree E Disk.empty).final).final := ⟨_, rfl⟩
  have hs : s = (Op.run E (.addBlock b) m).final := by rw [hm]
  rw [← hm] at e1
  clear_value s
  subst hs
  have hh : m.main.chain.height = U256.one := by rw [e1, f]; rfl
  have hm1 : m.main.chain.height.val + 1 < U256.size := by rw [hh]; decide
  have e2 : (Op.run E (.addBlock b) m).final.main.chain = m.main.chain.put3 E b.dump ⟨m.main.chain.height.val + 1, hm1⟩ := by
    show (Chain.addBlock E b.info.height b.dump m.main.chain).final = _
    have e : Chain.addBlock E b.info.height b.dump m.main.chain = _ :=
      (congrArg (fun q => Chain.addBlock E q b.dump m.main.chain) (hb.trans hh.symm)).trans (Chain.addBlock_right hm1)
    rw [e]
  refine ⟨m.main.chain.difficulty, (genesis E).dump, ?_, ?_, ?_⟩
  · rw [e2]
    show MainChain.readConfig m.main.chain.config = _
    rw [e1, f]
    exact MainChain.readConfig_written _ _
  · rw [e2]
    show U256.one.val < m.main.chain.height.val + 1
    rw [hh]
    decide
  · rw [e2]
    show (m.main.chain.blocks.cur.insert m.main.chain.height.toBE.val b.dump).get U256.zero.toBE.val = _
    rw [KV.get_insert, hh, if_neg (fun e => absurd (congrArg U256.val (toBE_inj e)) (by decide)), e1, f]
    show (KV.empty.insert U256.zero.toBE.val (genesis E).dump).get U256.zero.toBE.val = _
    rw [KV.get_insert, if_pos rfl]

end BCT.Props
