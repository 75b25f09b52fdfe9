import Verif.Props.Anchor
/-!
# C150: derivative chains after crashes (chain.rs:440-760, blockchaintree.rs:85-101, 369-413)
-/

namespace BCT.Props
open BCT

/-! ## The claim -/

/-- Every height below that of the chain has a block of that height; the last block is the highest, if there is one. -/
def Shipshape (c : DerivativeChain) : Prop :=
  (if c.chain.height.val = 0 then c.getLastBlock = .ok none
    else ∃ b, c.getLastBlock = .ok (some b) ∧ b.defaultInfo.height.val + 1 = c.chain.height.val) ∧
  ∀ q : U256, q.val < c.chain.height.val → ∃ b, c.findByHeight q = .ok (some b) ∧ b.defaultInfo.height = q

/-- C150 at full strength, the part about opening: whenever a node was stopped, at any moment, and is opened again and has
its last block, `get_derivative_chain` gives for every owner a chain in order. -/
def C150_full : Prop := ∀ (E : Env) (d : Disk) (o : Address) (b : Block), Life E (.down d) → (openTree E d).out = .ok () →
  (openTree E d).final.main.getLastBlock = .ok (some b) →
  ((Op.getDerivativeChain o).run E (openTree E d).final).out = .ok () ∧
  Shipshape (((Op.getDerivativeChain o).run E (openTree E d).final).final.handle o)

/-- Moments that can follow moment `m` on a node that is stopped and started any number of times, at any moment except in
the middle of a flush of the derivative chain of `o`. -/
inductive Spared (E : Env) (o : Address) (m : Moment) : Moment → Prop where
  | refl : Spared E o m m
  | opening (d : Disk) (t : Tree) : Spared E o m (.down d) → t ∈ (openTree E d).trace → Spared E o m (.busy t)
  | opened (d : Disk) : Spared E o m (.down d) → (openTree E d).out = .ok () → Spared E o m (.idle (openTree E d).final)
  | running (s t : Tree) (op : Op) : Spared E o m (.idle s) → op ≠ .derivFlush o → t ∈ (op.run E s).trace →
      Spared E o m (.busy t)
  | call (s : Tree) (op : Op) : Spared E o m (.idle s) → Spared E o m (.idle (op.run E s).final)
  | crashIdle (s : Tree) (d : Disk) : Spared E o m (.idle s) → Crash s d → Spared E o m (.down d)
  | crashBusy (s : Tree) (d : Disk) : Spared E o m (.busy s) → Crash s d → Spared E o m (.down d)

/-! ## Calls that do not concern an owner -/

/-- The derivative chain a call concerns. -/
def owner : Op → Option Address
  | .emitDerivative _ f _ => some f
  | .getDerivativeChain o => some o
  | .derivAddBlock o _ => some o
  | .derivFlush o => some o
  | _ => none

/-- The files and the state of the chain of `o` are the same. -/
def OwnSame (o : Address) (s t : Tree) : Prop :=
  t.derivFiles (hexEncode o.val) = s.derivFiles (hexEncode o.val) ∧ t.derivMem o = s.derivMem o

theorem ownSame_preord (o : Address) : Act.PreOrd (OwnSame o) :=
  ⟨fun _ => ⟨rfl, rfl⟩, fun h1 h2 => ⟨h2.1.trans h1.1, h2.2.trans h1.2⟩⟩

theorem DerivSame.own {s t : Tree} (h : DerivSame s t) (o : Address) : OwnSame o s t := ⟨by rw [h.1], by rw [h.2]⟩

theorem put_ownSame {o o' : Address} (h : o' ≠ o) (c : DerivativeChain) (t : Tree) : OwnSame o t (Tree.putHandle o' c t) := by
  obtain ⟨h1, h2⟩ := Tree.putHandle_mem_other c t (Ne.symm h)
  exact ⟨h2, h1⟩

theorem onDeriv_ownSame {α : Type} {o o' : Address} (h : o' ≠ o) (x : Act DerivativeChain α) :
    Act.Rel (OwnSame o) (Tree.onDeriv o' x) :=
  Act.rel_zoom (Act.rel_true x) fun t c _ => put_ownSame h c t

theorem getDeriv_ownSame {o o' : Address} (h : o' ≠ o) (E : Env) : Act.Rel (OwnSame o) (Tree.getDerivativeChain E o') :=
  Tree.getDeriv_rel (ownSame_preord o).refl E o' fun t c _ _ _ _ => put_ownSame h c t

theorem op_ownSame (E : Env) (o : Address) (op : Op) (h : owner op ≠ some o) : Act.Rel (OwnSame o) (op.run E) := by
  have up : ∀ {α : Type} {x : Act Tree α}, Act.Rel DerivSame x → Act.Rel (OwnSame o) x := fun h => h.mono fun _ _ h => DerivSame.own h o
  have C := Act.rel_closed (ownSame_preord o)
  cases op
  case emitDerivative pow f ts =>
    have hf : f ≠ o := fun e => h (by rw [e]; rfl)
    refine C.void (x := Tree.emitDerivative E pow f ts) ?_
    rw [emitDerivative_checks]
    exact C.bind (getDeriv_ownSame hf E) fun _ => C.bind C.get fun _ => C.bind (C.lift _) fun _ =>
      C.bind (onDeriv_ownSame hf _) fun _ => C.pure _
  case getDerivativeChain f => exact getDeriv_ownSame (fun e => h (by rw [e]; rfl)) E
  case derivAddBlock f b =>
    have hf : f ≠ o := fun e => h (by rw [e]; rfl)
    exact C.bind (getDeriv_ownSame hf E) fun _ => onDeriv_ownSame hf _
  case derivFlush f =>
    have hf : f ≠ o := fun e => h (by rw [e]; rfl)
    exact C.bind (getDeriv_ownSame hf E) fun _ => onDeriv_ownSame hf _
  case sendTransaction tx => exact up (sendTransaction_derivSame E tx)
  case emitMain pow f txs ts => exact C.void (x := Tree.emitMain E pow f txs ts) (up (emitMain_derivSame E pow f txs ts))
  case flush => exact up Tree.flush_derivSame
  case addNewBlock b txs => exact C.bind (up (Tree.onMain_derivSame _)) fun _ => up (Tree.onMain_derivSame _)
  case sendAmount a b c =>
    show Act.Rel _ (Tree.sendAmount a b c)
    unfold Tree.sendAmount
    split
    · exact C.pure ()
    · exact up (Tree.onSummary_derivSame _)
  case addAmount => exact up (Tree.onSummary_derivSame _)
  case setAmount => exact up (Tree.onSummary_derivSame _)
  case subAmount => exact up (Tree.onSummary_derivSame _)
  case addGas => exact up (Tree.onGas_derivSame _)
  case subGas => exact up (Tree.onGas_derivSame _)
  case sendGas => exact up (Tree.onGas_derivSame _)
  all_goals exact up (Tree.onMain_derivSame _)

/-- What holds throughout every call, if it does so for those that concern `o`. -/
theorem owner_op {P : Tree → Prop} {E : Env} {o : Address} (hsame : ∀ s t, OwnSame o s t → P s → P t)
    (hget : ∀ s, P s → Throughout P (Tree.getDerivativeChain E o s))
    (hadd : ∀ s b, P s → IsOpen o s → Throughout P (Tree.onDeriv o (DerivativeChain.addBlock E b) s))
    (s : Tree) (op : Op) (hf : op ≠ .derivFlush o) (h : P s) : Throughout P (op.run E s) := by
  by_cases ho : owner op = some o
  · cases op
    case emitDerivative pow f ts =>
      obtain rfl : f = o := Option.some.inj ho
      suffices Throughout P (Tree.emitDerivative E pow f ts s) by
        show Throughout P (Act.void (Tree.emitDerivative E pow f ts) s)
        rw [Act.void_run]; exact this
      rw [emitDerivative_checks]
      exact throughout_bind (hget s h) (fun _ => getDeriv_open) fun _ t ht ho => throughout_emit (fun b => hadd t b ht ho) ht
    case getDerivativeChain f =>
      obtain rfl : f = o := Option.some.inj ho
      exact hget s h
    case derivAddBlock f b =>
      obtain rfl : f = o := Option.some.inj ho
      exact throughout_bind (hget s h) (fun _ => getDeriv_open) fun _ t ht ho => hadd t b ht ho
    case derivFlush f =>
      obtain rfl : f = o := Option.some.inj ho
      exact absurd rfl hf
    all_goals cases ho
  · have := op_ownSame E o op ho s
    exact ⟨hsame _ _ this.1 h, fun t ht => hsame _ _ (this.2 t ht) h⟩

/-! ## What is kept of a derivative chain -/

/-- Below height `n` every block is stored and has its height; `n` is at least `H`, and the blocks below `H` are those in `m0`. -/
structure Told (m0 : KV) (H : Nat) (m : KV) (n : Nat) : Prop where
  le : H ≤ n
  stored : ∀ q : U256, q.val < n → ∃ b : DerivativeBlock, m.get q.toBE.val = some b.dump ∧ b.defaultInfo.height = q
  agree : ∀ q : U256, q.val < H → m.get q.toBE.val = m0.get q.toBE.val

theorem Told.mono {m0 m : KV} {H n k : Nat} (h : Told m0 H m n) (hk : k ≤ n) (hH : H ≤ k) : Told m0 H m k :=
  ⟨hH, fun q hq => h.stored q (Nat.lt_of_lt_of_le hq hk), h.agree⟩

theorem Told.insert {m0 m : KV} {H : Nat} {c : U256} {b : DerivativeBlock} (h : Told m0 H m c.val)
    (hb : b.defaultInfo.height = c) : Told m0 H (m.insert c.toBE.val b.dump) (c.val + 1) := by
  have hne : ∀ q : U256, q ≠ c → ¬ c.toBE.val = q.toBE.val := fun q hq e => hq (toBE_inj e).symm
  have := h.le
  refine ⟨by omega, fun q hq => ?_, fun q hq => ?_⟩
  · rw [KV.get_insert]
    by_cases he : q = c
    · rw [if_pos (by rw [he])]
      exact ⟨b, rfl, by rw [he]; exact hb⟩
    · rw [if_neg (hne q he)]
      refine h.stored q ?_
      have : q.val ≠ c.val := fun e => he (U256.ext e)
      omega
  · rw [KV.get_insert, if_neg (hne q fun e => by rw [e] at hq; omega)]
    exact h.agree q hq

/-- The height in the config file of a derivative chain. -/
def Writes (config : Option Bytes) (q : U256) : Prop := ∀ p, ∃ df g, DerivativeChain.readConfig p config = .ok (q, df, g)

theorem writes_none : Writes none U256.zero := fun _ => ⟨_, _, rfl⟩

/-- The chain is in order, in memory and in what may be found on disk. -/
structure Firm (m0 : KV) (H : Nat) (c : Chain) : Prop where
  disk : ∃ q, Writes c.config q ∧ q.val ≤ c.height.val ∧ (H ≤ q.val) ∧ ∀ m ∈ c.blocks.recov, Told m0 H m q.val
  cur : Told m0 H c.blocks.cur c.height.val

theorem Firm.put {m0 : KV} {H : Nat} {c : Chain} {b : DerivativeBlock} (h : Firm m0 H c) (hb : b.defaultInfo.height = c.height) :
    Told m0 H (c.blocks.insert c.height.toBE.val b.dump).cur (c.height.val + 1) ∧
    ∃ q, Writes c.config q ∧ q.val ≤ c.height.val ∧ (H ≤ q.val) ∧
      ∀ m ∈ (c.blocks.insert c.height.toBE.val b.dump).recov, Told m0 H m q.val := by
  have h1 := h.cur.insert hb
  obtain ⟨q, hr, hq, hH, hl⟩ := h.disk
  refine ⟨h1, q, hr, hq, hH, fun m hm => ?_⟩
  rcases List.mem_cons.mp hm with rfl | hm
  · exact h1.mono (by omega) hH
  · exact hl m hm

theorem firm_addBlock {m0 : KV} {H : Nat} (E : Env) (b : DerivativeBlock) :
    Act.Rel (fun s t : DerivativeChain => Firm m0 H s.chain → Firm m0 H t.chain) (DerivativeChain.addBlock E b) :=
  DerivativeChain.addBlock_rel (R := fun s t => Firm m0 H s → Firm m0 H t)
    (Chain.addBlock_rel E (fun _ h => h) _ _
      (fun c hb h => ⟨(h.put hb).2, (h.put hb).1.mono (Nat.le_succ _) h.cur.le⟩)
      (fun c hb h => ⟨(h.put hb).2, (h.put hb).1.mono (Nat.le_succ _) h.cur.le⟩)
      (fun c _ hb h => by
        obtain ⟨h1, q, hr, hq, hH, hl⟩ := h.put hb
        exact ⟨⟨q, hr, Nat.le_succ_of_le hq, hH, hl⟩, h1⟩)) fun _ _ h => h

theorem firm_flushed {m0 : KV} {H : Nat} {c : DerivativeChain} (h : Told m0 H c.chain.blocks.cur c.chain.height.val) :
    Firm m0 H c.flushed.chain := by
  refine ⟨⟨c.chain.height, fun p => ⟨_, _, DerivativeChain.readConfig_written p _ _ _⟩, Nat.le_refl _, h.le, fun m hm => ?_⟩, h⟩
  rw [Db.flush_recov hm]
  exact h

/-- The derivative chain of `o`, open or not. -/
structure Spry (m0 : KV) (H : Nat) (o : Address) (t : Tree) : Prop where
  disk : ∃ q, Writes (t.derivFiles (hexEncode o.val)).config q ∧ Told m0 H (t.derivFiles (hexEncode o.val)).blocks.cur q.val ∧
    ∀ m ∈ (t.derivFiles (hexEncode o.val)).blocks.recov, Told m0 H m q.val
  live : IsOpen o t → Firm m0 H (t.handle o).chain

theorem spry_same {m0 : KV} {H : Nat} {o : Address} (s t : Tree) (h : OwnSame o s t) (hs : Spry m0 H o s) : Spry m0 H o t := by
  have he : t.handle o = s.handle o := by unfold Tree.handle; rw [h.1, h.2]
  exact ⟨by rw [h.1]; exact hs.disk, fun ho => by rw [he]; exact hs.live (by unfold IsOpen at ho ⊢; rw [← h.2]; exact ho)⟩

theorem spry_put {m0 : KV} {H : Nat} {o : Address} {c : DerivativeChain} (t : Tree) (h : Firm m0 H c.chain) :
    Spry m0 H o (Tree.putHandle o c t) := by
  refine ⟨?_, fun _ => by rw [Tree.handle_put_self]; exact h⟩
  obtain ⟨q, hr, hq, hH, hl⟩ := h.disk
  simp only [Tree.putHandle, if_pos]
  exact ⟨q, hr, h.cur.mono hq hH, hl⟩

theorem spry_getDeriv {m0 : KV} {H : Nat} (E : Env) {o : Address} (s : Tree) (h : Spry m0 H o s) :
    Throughout (Spry m0 H o) (Tree.getDerivativeChain E o s) := by
  rcases Tree.getDeriv_cases E o s with ⟨_, e⟩ | ⟨hm, ⟨out, _, e⟩ | ⟨b, c, _, hc, e⟩⟩
  · rw [e]; exact ⟨h, by simp⟩
  · rw [e]; exact ⟨h, by simp⟩
  · have : Spry m0 H o (Tree.putHandle o c s) := by
      obtain ⟨q, hr, h1, h2⟩ := h.disk
      obtain ⟨df, g, hrc⟩ := hr (b.hash E)
      unfold DerivativeChain.new at hc
      rw [hrc] at hc
      cases hc
      exact spry_put s ⟨⟨q, hr, Nat.le_refl _, h1.le, h2⟩, h1⟩
    rw [e]
    exact ⟨this, by simpa using this⟩

theorem spry_add {m0 : KV} {H : Nat} (E : Env) {o : Address} (s : Tree) (b : DerivativeBlock) (h : Spry m0 H o s)
    (ho : IsOpen o s) : Throughout (Spry m0 H o) (Tree.onDeriv o (DerivativeChain.addBlock E b) s) := by
  have := Act.rel_zoom (part := fun t : Tree => t.handle o) (put := Tree.putHandle o)
    (Q := fun a b => a = s → Spry m0 H o b) (firm_addBlock (m0 := m0) (H := H) E b) (fun t m hm e => by
      subst e
      exact spry_put t (hm (h.live ho))) s
  exact ⟨this.1 rfl, fun t ht => this.2 t ht rfl⟩

theorem spry_op {m0 : KV} {H : Nat} (E : Env) {o : Address} (s : Tree) (op : Op) (h : Spry m0 H o s) :
    Spry m0 H o (op.run E s).final ∧ (op ≠ .derivFlush o → ∀ t ∈ (op.run E s).trace, Spry m0 H o t) := by
  by_cases hf : op = .derivFlush o
  · subst hf
    refine ⟨?_, fun e => absurd rfl e⟩
    show Spry m0 H o ((Tree.getDerivativeChain E o >>= fun _ => Tree.onDeriv o DerivativeChain.flush) s).final
    have hg := (spry_getDeriv E s h).1
    rcases Act.bind_cases (Tree.getDerivativeChain E o) (fun _ => Tree.onDeriv o DerivativeChain.flush) s with
      ⟨a, h1, h2, -, -⟩ | ⟨-, h2, -, -⟩
    · rw [h2]
      have ho := getDeriv_open h1
      have : (Tree.onDeriv o DerivativeChain.flush (Tree.getDerivativeChain E o s).final).final =
          Tree.putHandle o ((Tree.getDerivativeChain E o s).final.handle o).flushed (Tree.getDerivativeChain E o s).final := by
        show Tree.putHandle o (DerivativeChain.flush _).final _ = _
        rw [(DerivativeChain.flush_run _).2]
      rw [this]
      exact spry_put _ (firm_flushed (hg.live ho).cur)
    · rw [h2]; exact hg
  · have := owner_op (P := Spry m0 H o) (E := E) (o := o) spry_same (fun s h => spry_getDeriv E s h)
      (fun s b h ho => spry_add E s b h ho) s op hf h
    exact ⟨this.1, fun _ => this.2⟩

/-- The state of the chain of `o` at a moment. -/
def Sprightly (m0 : KV) (H : Nat) (o : Address) : Moment → Prop
  | .idle t => Spry m0 H o t
  | .busy t => Spry m0 H o t
  | .down d => ∃ q, Writes (d.deriv (hexEncode o.val)).config q ∧ Told m0 H (d.deriv (hexEncode o.val)).blocks q.val

theorem spared_spry {m0 : KV} {H : Nat} {E : Env} {o : Address} {m n : Moment} (h : Spared E o m n)
    (h0 : Sprightly m0 H o m) : Sprightly m0 H o n := by
  have re : ∀ (d : Disk) (t : Tree), (t ∈ (openTree E d).trace ∨ t = (openTree E d).final) → Sprightly m0 H o (.down d) →
      Spry m0 H o t := by
    intro d t ht ⟨q, h1, h2⟩
    obtain ⟨e1, e2⟩ := opening_deriv ht
    refine ⟨⟨q, by rw [e1]; exact h1, by rw [e1]; exact h2, fun m hm => ?_⟩, fun ho => ?_⟩
    · rw [e1] at hm
      rw [List.mem_singleton.mp hm]
      exact h2
    · unfold IsOpen at ho
      rw [e2] at ho
      cases ho
  have cr : ∀ (t : Tree) (d : Disk), Spry m0 H o t → Crash t d → Sprightly m0 H o (.down d) := by
    intro t d h hc
    obtain ⟨q, h1, -, h2⟩ := h.disk
    obtain ⟨c1, -, c3⟩ := hc.deriv (hexEncode o.val)
    exact ⟨q, by rw [c3]; exact h1, h2 _ c1⟩
  induction h with
  | refl => exact h0
  | opening d t _ ht ih => exact re d t (.inl ht) ih
  | opened d _ _ ih => exact re d _ (.inr rfl) ih
  | running s t op _ hop ht ih => exact (spry_op E s op ih).2 hop t ht
  | call s op _ ih => exact (spry_op E s op ih).1
  | crashIdle s d _ hc ih => exact cr s d ih hc
  | crashBusy s d _ hc ih => exact cr s d ih hc

theorem shipshape_of {m0 : KV} {H : Nat} {c : DerivativeChain} (h : Firm m0 H c.chain) : Shipshape c := by
  have hq : ∀ q : U256, q.val < c.chain.height.val → ∃ b, c.findByHeight q = .ok (some b) ∧ b.defaultInfo.height = q := by
    intro q hq
    obtain ⟨b, h1, h2⟩ := h.cur.stored q hq
    refine ⟨b, ?_, h2⟩
    unfold DerivativeChain.findByHeight Chain.findRawByHeight
    rw [if_neg (by omega), show c.chain.blocks.get q.toBE.val = some b.dump from h1]
    exact decode_deriv b
  refine ⟨?_, hq⟩
  split
  · rename_i h0
    unfold DerivativeChain.getLastBlock DerivativeChain.getLastRawBlock
    rw [if_pos h0]
    rfl
  · rename_i h0
    have hlt := c.chain.height.lt
    obtain ⟨b, h1, h2⟩ := hq ⟨c.chain.height.val - 1, by omega⟩ (by show c.chain.height.val - 1 < _; omega)
    refine ⟨b, ?_, ?_⟩
    · unfold DerivativeChain.getLastBlock DerivativeChain.getLastRawBlock
      rw [if_neg h0, lastIndex (by omega)]
      exact h1
    · rw [h2]
      show c.chain.height.val - 1 + 1 = c.chain.height.val
      omega

theorem start_spry (o : Address) : Sprightly KV.empty 0 o (.down Disk.empty) :=
  ⟨U256.zero, writes_none, Nat.le_refl _, fun _ hq => absurd hq (Nat.not_lt_zero _), fun _ hq => absurd hq (Nat.not_lt_zero _)⟩

theorem spry_opens {m0 : KV} {H : Nat} {E : Env} {o : Address} {s : Tree} {b : Block} (hs : Spry m0 H o s)
    (hb : s.main.getLastBlock = .ok (some b)) :
    ((Op.getDerivativeChain o).run E s).out = .ok () ∧ Shipshape (((Op.getDerivativeChain o).run E s).final.handle o) := by
  have ho : ((Op.getDerivativeChain o).run E s).out = .ok () := by
    show (Tree.getDerivativeChain E o s).out = .ok ()
    rcases Tree.getDeriv_cases E o s with ⟨_, e⟩ | ⟨hm, ⟨out, hout, e⟩ | ⟨b', c, _, hc, e⟩⟩
    · rw [e]
    · obtain ⟨q, h1, -, -⟩ := hs.disk
      obtain ⟨df, g, h1⟩ := h1 (b.hash E)
      rw [getDeriv_new (E := E) hm hb (by unfold DerivativeChain.new; rw [h1]; rfl)]
    · rw [e]
  exact ⟨ho, shipshape_of ((spry_getDeriv E s hs).1.live (getDeriv_open ho))⟩

theorem flush_spry {m0 : KV} {H : Nat} {E : Env} {o : Address} {s : Tree} (hs : Spry m0 H o s)
    (hok : ((Op.derivFlush o).run E s).out = .ok ()) :
    Spry (((Op.derivFlush o).run E s).final.handle o).chain.blocks.cur
      (((Op.derivFlush o).run E s).final.handle o).chain.height.val o ((Op.derivFlush o).run E s).final := by
  have hg := (spry_getDeriv E s hs).1
  rcases Act.bind_cases (Tree.getDerivativeChain E o) (fun _ => Tree.onDeriv o DerivativeChain.flush) s with
    ⟨a, h1, h2, -, -⟩ | ⟨h1, -, -, h4⟩
  · have he : ((Op.derivFlush o).run E s).final =
        Tree.putHandle o ((Tree.getDerivativeChain E o s).final.handle o).flushed (Tree.getDerivativeChain E o s).final := by
      refine h2.trans ?_
      show Tree.putHandle o (DerivativeChain.flush _).final _ = _
      rw [(DerivativeChain.flush_run _).2]
    rw [he, Tree.handle_put_self]
    have := (hg.live (getDeriv_open h1)).cur
    exact spry_put _ (firm_flushed ⟨Nat.le_refl _, this.stored, fun _ _ => rfl⟩)
  · exact absurd hok (h4 ())

theorem spry_kept {o : Address} {c : DerivativeChain} {t : Tree} (h : Spry c.chain.blocks.cur c.chain.height.val o t)
    (ho : IsOpen o t) : c.chain.height.val ≤ (t.handle o).chain.height.val ∧
    ∀ q : U256, q.val < c.chain.height.val → (t.handle o).chain.findRawByHeight q = c.chain.findRawByHeight q := by
  have h2 := h.live ho
  have hle := h2.cur.le
  refine ⟨hle, fun q hq => ?_⟩
  unfold Chain.findRawByHeight
  rw [if_neg (by omega), if_neg (by omega)]
  exact h2.cur.agree q hq

/-- C150 for nodes never stopped in the middle of a flush of that derivative chain: whenever the main chain has its last
block, `get_derivative_chain` succeeds, and the chain is in order. (Missing: crashes in the middle of
`DerivativeChain::flush`; there the claim is false.) -/
theorem C150_opens_partial (E : Env) (o : Address) (s : Tree) (b : Block) (h : Spared E o (.down Disk.empty) (.idle s))
    (hb : s.main.getLastBlock = .ok (some b)) :
    ((Op.getDerivativeChain o).run E s).out = .ok () ∧ Shipshape (((Op.getDerivativeChain o).run E s).final.handle o) :=
  spry_opens (spared_spry h (start_spry o)) hb

/-- C150. At every moment of such a life at which the chain is open, in the middle of calls included, it is in order. -/
theorem C150_open_partial (E : Env) (o : Address) (s : Tree) (ho : IsOpen o s)
    (h : Spared E o (.down Disk.empty) (.idle s) ∨ Spared E o (.down Disk.empty) (.busy s)) : Shipshape (s.handle o) := by
  have hs : Spry KV.empty 0 o s := by
    rcases h with h | h
    · exact spared_spry h (start_spry o)
    · exact spared_spry h (start_spry o)
  exact shipshape_of (hs.live ho)

/-- C150. What the chain had when it was flushed it has at every later moment at which it is open, in this life of the
process and in all later ones: its height is no smaller and the blocks below are the same. -/
theorem C150_flushed_partial (E : Env) (o : Address) (s t : Tree) (h : Spared E o (.down Disk.empty) (.idle s))
    (hok : ((Op.derivFlush o).run E s).out = .ok ())
    (ht : Spared E o (.idle ((Op.derivFlush o).run E s).final) (.idle t)) (ho : IsOpen o t) :
    (((Op.derivFlush o).run E s).final.handle o).chain.height.val ≤ (t.handle o).chain.height.val ∧
    ∀ q : U256, q.val < (((Op.derivFlush o).run E s).final.handle o).chain.height.val →
      (t.handle o).chain.findRawByHeight q = (((Op.derivFlush o).run E s).final.handle o).chain.findRawByHeight q :=
  spry_kept (spared_spry ht (flush_spry (spared_spry h (start_spry o)) hok)) ho

/-! ## Stopped in the middle of a flush -/

/-- A directory in which only the derivative chain of `o` was written out. -/
def onlyDeriv (o : Address) (f : DerivDisk) : Disk :=
  { Disk.empty with deriv := fun n => if n = hexEncode o.val then f else Disk.empty.deriv n }

/-- A fresh node whose derivative chain of `o` is in state `c`. -/
def freshWith (E : Env) (o : Address) (c : DerivativeChain) : Tree := Tree.putHandle o c (openTree E Disk.empty).final

theorem freshWith_put (E : Env) (o : Address) (c c' : DerivativeChain) :
    Tree.putHandle o c' (freshWith E o c) = freshWith E o c' := by
  unfold freshWith Tree.putHandle
  congr 1
  · funext n; simp only; split <;> rfl
  · funext n; simp only; split <;> rfl

theorem freshWith_crash (E : Env) (o : Address) (c : DerivativeChain) (b h : KV) (hb : b ∈ c.chain.blocks.recov)
    (hh : h ∈ c.chain.heightReference.recov) : Crash (freshWith E o c) (onlyDeriv o ⟨b, h, c.chain.config⟩) := by
  have e : KV.empty ∈ (Db.open' KV.empty).recov := List.mem_singleton.mpr rfl
  unfold freshWith
  rw [(openTree_fresh E).2]
  refine ⟨List.mem_cons_of_mem _ e, List.mem_cons_of_mem _ e, e, rfl, List.mem_cons_of_mem _ e, e, e, e, fun n => ?_⟩
  unfold onlyDeriv Tree.putHandle
  simp only
  split
  · exact ⟨hb, hh, rfl⟩
  · exact ⟨e, e, rfl⟩

theorem onlyDeriv_opens (E : Env) (o : Address) (f : DerivDisk) : (openTree E (onlyDeriv o f)).out = .ok () ∧
    (openTree E (onlyDeriv o f)).final.main.getLastBlock = .ok (some (genesis E)) ∧
    (openTree E (onlyDeriv o f)).final.derivMem o = none ∧
    (openTree E (onlyDeriv o f)).final.derivFiles (hexEncode o.val) =
      ⟨Db.open' f.blocks, Db.open' f.heightReference, f.config⟩ := by
  obtain ⟨h1, h2⟩ := openTree_zero (E := E) (d := onlyDeriv o f) (df := BEGINNING_DIFFICULTY) rfl
  obtain ⟨h3, h4⟩ := openTree_zero (E := E) (d := Disk.empty) (df := BEGINNING_DIFFICULTY) rfl
  refine ⟨h1, ?_, ?_, ?_⟩
  · rw [← fresh_last E, h2, h4]; rfl
  · rw [h2]; rfl
  · rw [h2]
    show (onlyDeriv o f).boot.derivFiles _ = _
    unfold Disk.boot onlyDeriv
    simp

/-- A derivative chain never used. -/
def newDeriv (E : Env) : DerivativeChain :=
  ⟨⟨Db.open' KV.empty, Db.open' KV.empty, U256.zero, BEGINNING_DIFFICULTY, none⟩, (genesis E).hash E⟩

/-- A derivative chain with one block. -/
def oneDeriv (E : Env) : DerivativeChain := { newDeriv E with chain := (newDeriv E).chain.put3 E exDerivBlock.dump U256.one }

theorem fresh_get (E : Env) (o : Address) : Tree.getDerivativeChain E o (openTree E Disk.empty).final =
    ⟨.ok (), freshWith E o (newDeriv E), [freshWith E o (newDeriv E)]⟩ := by
  refine getDeriv_new (by rw [(openTree_fresh E).2]; rfl) (fresh_last E) ?_
  rw [(openTree_fresh E).2]
  exact DerivativeChain.new_fresh _

theorem freshWith_open (E : Env) (o : Address) (c : DerivativeChain) : IsOpen o (freshWith E o c) := by
  unfold IsOpen freshWith
  rw [Tree.putHandle_mem_self]; rfl

theorem fresh_add (E : Env) (o : Address) : ((Op.derivAddBlock o exDerivBlock).run E (openTree E Disk.empty).final).final =
    freshWith E o (oneDeriv E) := by
  rw [show (Op.derivAddBlock o exDerivBlock).run E (openTree E Disk.empty).final = (Tree.getDerivativeChain E o >>= fun _ =>
    Tree.onDeriv o (DerivativeChain.addBlock E exDerivBlock)) (openTree E Disk.empty).final from rfl, Act.bind_ok (fresh_get E o)]
  have h1 : (freshWith E o (newDeriv E)).handle o = newDeriv E := Tree.handle_put_self _ _ _
  unfold Tree.onDeriv
  rw [Act.zoom_run, h1]
  have ha : (DerivativeChain.addBlock E exDerivBlock (newDeriv E)).final = oneDeriv E := by
    unfold DerivativeChain.addBlock DerivativeChain.onChain
    rw [Act.zoom_run]
    have := Chain.addBlock_right (E := E) (dump := exDerivBlock.dump) (s := (newDeriv E).chain) zero_add_one_lt
    rw [show exDerivBlock.defaultInfo.height = (newDeriv E).chain.height from rfl, this]
    rfl
  simp only [ha]
  exact freshWith_put E o _ _

theorem get_open {E : Env} {o : Address} {s : Tree} (h : IsOpen o s) : Tree.getDerivativeChain E o s = ⟨.ok (), s, []⟩ := by
  rcases Tree.getDeriv_cases E o s with ⟨_, e⟩ | ⟨hm, _⟩
  · exact e
  · unfold IsOpen at h; rw [hm] at h; cases h

theorem freshWith_flush (E : Env) (o : Address) (c : DerivativeChain) :
    ((Op.derivFlush o).run E (freshWith E o c)).out = .ok () ∧
    ((Op.derivFlush o).run E (freshWith E o c)).final = freshWith E o c.flushed ∧
    freshWith E o { c with chain := { c.chain with config := some [] } } ∈ ((Op.derivFlush o).run E (freshWith E o c)).trace ∧
    freshWith E o { c with chain := { c.chain with config := some c.saved } } ∈
      ((Op.derivFlush o).run E (freshWith E o c)).trace := by
  rw [show (Op.derivFlush o).run E (freshWith E o c) = (Tree.getDerivativeChain E o >>= fun _ =>
    Tree.onDeriv o DerivativeChain.flush) (freshWith E o c) from rfl, Act.bind_ok (get_open (freshWith_open E o c))]
  have h1 : (freshWith E o c).handle o = c := Tree.handle_put_self _ _ _
  unfold Tree.onDeriv
  rw [Act.zoom_run, h1]
  refine ⟨(DerivativeChain.flush_run c).1, ?_, ?_, ?_⟩
  · show Tree.putHandle o (DerivativeChain.flush c).final _ = _
    rw [(DerivativeChain.flush_run c).2]; exact freshWith_put E o _ _
  · refine List.mem_append_right _ (List.mem_map.mpr ⟨_, ?_, freshWith_put E o _ _⟩)
    unfold DerivativeChain.flush DerivativeChain.dumpConfig DerivativeChain.writeConfig
    simp [Act.step_bind, Act.bind_assoc']
  · refine List.mem_append_right _ (List.mem_map.mpr ⟨_, ?_, freshWith_put E o _ _⟩)
    unfold DerivativeChain.flush DerivativeChain.dumpConfig DerivativeChain.writeConfig
    simp [Act.step_bind, Act.bind_assoc', DerivativeChain.saved]

/-- The chain of `o` cannot be opened: its config file is cut short. -/
def Stuck (o : Address) (t : Tree) : Prop :=
  t.derivMem o = none ∧ ∃ f, (t.derivFiles (hexEncode o.val)).config = some f ∧ f.length < 96

theorem stuck_get (E : Env) {o : Address} {s : Tree} (h : Stuck o s) :
    (Tree.getDerivativeChain E o s).out ≠ .ok () ∧ Throughout (Stuck o) (Tree.getDerivativeChain E o s) := by
  obtain ⟨hm, f, hf, hlen⟩ := h
  rcases Tree.getDeriv_cases E o s with ⟨ho, _⟩ | ⟨-, ⟨out, hout, e⟩ | ⟨b, c, _, hc, e⟩⟩
  · rw [hm] at ho; cases ho
  · rw [e]; exact ⟨hout (), ⟨hm, f, hf, hlen⟩, by simp⟩
  · exfalso
    have : ∀ p, DerivativeChain.readConfig p (some f) = .err .chainInit := by
      intro p
      unfold DerivativeChain.readConfig
      simp only
      split
      · split
        · rw [dif_neg (by omega)]
        · rfl
      · rfl
    unfold DerivativeChain.new at hc
    rw [hf, this] at hc
    cases hc

theorem stuck_op (E : Env) {o : Address} (s : Tree) (op : Op) (h : Stuck o s) : Throughout (Stuck o) (op.run E s) := by
  by_cases hf : op = .derivFlush o
  · subst hf
    exact throughout_bind (stuck_get E h).2 (fun _ => getDeriv_open) fun _ t ht ho => by
      unfold IsOpen at ho; rw [ht.1] at ho; cases ho
  · refine owner_op (P := Stuck o) (fun s t hst hs => ⟨hst.2.trans hs.1, by rw [hst.1]; exact hs.2⟩)
      (fun s h => (stuck_get E h).2) (fun s b h ho => ?_) s op hf h
    unfold IsOpen at ho; rw [h.1] at ho; cases ho

theorem since_stuck {E : Env} {o : Address} {d : Disk} {f : Bytes} (hf : fileOf o d = some f) (hlen : f.length < 96)
    {m : Moment} (h : Since E (.down d) m) :
    match m with
    | .idle t => Stuck o t
    | .busy t => Stuck o t
    | .down d => ∃ f, fileOf o d = some f ∧ f.length < 96 := by
  induction h with
  | here => exact ⟨f, hf, hlen⟩
  | opening d t _ ht ih => exact ⟨(reopened (.inl ht)).1, by rw [(reopened (.inl ht)).2]; exact ih⟩
  | opened d _ _ ih => exact ⟨(reopened (.inr rfl)).1, by rw [(reopened (.inr rfl)).2]; exact ih⟩
  | running s t op _ ht ih => exact (stuck_op E s op ih).2 t ht
  | call s op _ ih => exact (stuck_op E s op ih).1
  | crashIdle s d _ hc ih =>
    obtain ⟨f, h1, h2⟩ := ih.2
    exact ⟨f, (crash_file hc).trans h1, h2⟩
  | crashBusy s d _ hc ih =>
    obtain ⟨f, h1, h2⟩ := ih.2
    exact ⟨f, (crash_file hc).trans h1, h2⟩

theorem derivChecks_height {E : Env} {t : Tree} {pow : BytesN 32} {o : Address} {ts : UInt64} {b : DerivativeBlock}
    (hl : (t.handle o).getLastBlock = .ok none) (h : derivChecks E t pow o ts = .ok b) : b.defaultInfo.height = U256.zero := by
  unfold derivChecks at h
  rw [hl] at h
  simp only [Outcome.ok_bind] at h
  cases hf : t.main.findByHash (t.handle o).genesisHash with
  | ok found =>
    rw [hf] at h
    cases found with
    | none => cases h
    | some a =>
      simp only [Outcome.ok_bind] at h
      cases hc : checkPow E (Block.hash E a) BEGINNING_DIFFICULTY [] pow.val with
      | err e => simp [hc] at h
      | panic e => simp [hc] at h
      | ub => simp [hc] at h
      | ok g =>
        cases g with
        | false => simp [hc] at h
        | true =>
          simp only [hc, Outcome.ok_bind, Bool.not_true, Bool.false_eq_true, if_false] at h
          cases hr : recalculateDifficulty E a.info.timestamp ts BEGINNING_DIFFICULTY with
          | err e => simp [hr] at h
          | panic e => simp [hr] at h
          | ub => simp [hr] at h
          | ok dd =>
            simp only [hr, Outcome.ok_bind, Outcome.ok.injEq] at h
            subst h
            rfl
  | err e => rw [hf] at h; cases h
  | panic => rw [hf] at h; cases h
  | ub => rw [hf] at h; cases h

/-- C150 is false of the code. A node is stopped in the middle of the first flush of a derivative chain, after the config
file was truncated: it opens again, but whatever is done later, restarts included, the chain can never be opened again.
Another is stopped after the config file was written, before the blocks were: the chain opens with one block of which
there is no trace, and no derivative block can be emitted. -/
theorem C150_refuted :
    (∀ (E : Env) (o : Address),
      (∃ d, Life E (.down d) ∧ (openTree E d).out = .ok () ∧
        (openTree E d).final.main.getLastBlock = .ok (some (genesis E)) ∧
        ∀ t, Since E (.down d) (.idle t) → ((Op.getDerivativeChain o).run E t).out ≠ .ok ()) ∧
      (∃ d, Life E (.down d) ∧ (openTree E d).out = .ok () ∧
        (openTree E d).final.main.getLastBlock = .ok (some (genesis E)) ∧
        ((Op.getDerivativeChain o).run E (openTree E d).final).out = .ok () ∧
        (((Op.getDerivativeChain o).run E (openTree E d).final).final.handle o).chain.height.val = 1 ∧
        (((Op.getDerivativeChain o).run E (openTree E d).final).final.handle o).getLastBlock = .ok none ∧
        ∀ pow ts, ((Op.emitDerivative pow o ts).run E (openTree E d).final).out ≠ .ok ())) ∧
    ¬ C150_full := by
  have k1 : ∀ (E : Env) (o : Address), ∃ d, Life E (.down d) ∧ (openTree E d).out = .ok () ∧
        (openTree E d).final.main.getLastBlock = .ok (some (genesis E)) ∧
        ∀ t, Since E (.down d) (.idle t) → ((Op.getDerivativeChain o).run E t).out ≠ .ok () := by
    intro E o
    have hl : Life E (.idle (freshWith E o (oneDeriv E))) := by
      rw [← fresh_add]; exact .call _ _ (life_fresh E)
    have hc := freshWith_crash E o { oneDeriv E with chain := { (oneDeriv E).chain with config := some [] } } KV.empty KV.empty
      (by simp [oneDeriv, newDeriv, Chain.put3, Db.insert, Db.commit, Db.open'])
      (by simp [oneDeriv, newDeriv, Chain.put3, Db.insert, Db.commit, Db.open'])
    obtain ⟨o1, o2, o3, o4⟩ := onlyDeriv_opens E o ⟨KV.empty, KV.empty, some []⟩
    refine ⟨_, .crashBusy _ _ (.running _ _ _ hl (freshWith_flush E o (oneDeriv E)).2.2.1) hc, o1, o2, fun t ht => ?_⟩
    refine (stuck_get E (since_stuck (o := o) (f := []) ?_ (by decide) ht)).1
    unfold fileOf onlyDeriv
    simp
  refine ⟨fun E o => ⟨k1 E o, ?_⟩, fun hf => ?_⟩
  · have hl : Life E (.idle (freshWith E o (oneDeriv E))) := by
      rw [← fresh_add]; exact .call _ _ (life_fresh E)
    have hc := freshWith_crash E o { oneDeriv E with chain := { (oneDeriv E).chain with config := some (oneDeriv E).saved } }
      KV.empty KV.empty
      (by simp [oneDeriv, newDeriv, Chain.put3, Db.insert, Db.commit, Db.open'])
      (by simp [oneDeriv, newDeriv, Chain.put3, Db.insert, Db.commit, Db.open'])
    obtain ⟨o1, o2, o3, o4⟩ := onlyDeriv_opens E o ⟨KV.empty, KV.empty, some (oneDeriv E).saved⟩
    refine ⟨_, .crashBusy _ _ (.running _ _ _ hl (freshWith_flush E o (oneDeriv E)).2.2.2) hc, o1, o2, ?_⟩
    obtain ⟨z, hz⟩ : ∃ z, z = (openTree E (onlyDeriv o ⟨KV.empty, KV.empty, some (oneDeriv E).saved⟩)).final := ⟨_, rfl⟩
    show ((Op.getDerivativeChain o).run E (openTree E (onlyDeriv o ⟨KV.empty, KV.empty, some (oneDeriv E).saved⟩)).final).out = _ ∧ _
    rw [← hz] at o2 o3 o4 ⊢
    obtain ⟨c, hcd⟩ : ∃ c : DerivativeChain, c = ⟨⟨Db.open' KV.empty, Db.open' KV.empty, U256.one, (oneDeriv E).chain.difficulty,
        some (oneDeriv E).saved⟩, (oneDeriv E).genesisHash⟩ := ⟨_, rfl⟩
    have hn : DerivativeChain.new ((genesis E).hash E) (z.derivFiles (hexEncode o.val)).blocks
        (z.derivFiles (hexEncode o.val)).heightReference (z.derivFiles (hexEncode o.val)).config = .ok c := by
      rw [o4, hcd]
      unfold DerivativeChain.new
      rw [show DerivativeChain.readConfig ((genesis E).hash E) (some (oneDeriv E).saved) = _ from
        DerivativeChain.readConfig_written _ _ _ _]
      rfl
    have hg := getDeriv_new (E := E) o3 o2 hn
    have hh : (Tree.putHandle o c z).handle o = c := Tree.handle_put_self _ _ _
    have hlast : c.getLastBlock = .ok none := by
      rw [hcd]
      unfold DerivativeChain.getLastBlock DerivativeChain.getLastRawBlock
      rfl
    have he : (Op.getDerivativeChain o).run E z = Tree.getDerivativeChain E o z := rfl
    rw [he, hg]
    simp only [hh]
    refine ⟨trivial, by rw [hcd]; rfl, hlast, fun pow ts => ?_⟩
    show (Act.void (Tree.emitDerivative E pow o ts) z).out ≠ _
    rw [emitDerivative_checks, Act.void_run, Act.bind_ok hg, Act.get_bind]
    cases hd : derivChecks E (Tree.putHandle o c z) pow o ts with
    | ok b =>
      rw [Act.lift_ok_bind]
      have hb := derivChecks_height (by rw [hh]; exact hlast) hd
      have ha : Tree.onDeriv o (DerivativeChain.addBlock E b) (Tree.putHandle o c z) =
          ⟨.err .chainAddingBlock, Tree.putHandle o c (Tree.putHandle o c z), []⟩ := by
        unfold Tree.onDeriv DerivativeChain.addBlock DerivativeChain.onChain
        rw [Act.zoom_run, Act.zoom_run, hh, Chain.addBlock_wrong (by rw [hb, hcd]; show U256.zero ≠ U256.one; decide)]
        rfl
      rw [Act.bind_err ha]
      simp
    | err e => simp
    | panic => simp
    | ub => simp
  · obtain ⟨d, h1, h2, h3, h4⟩ := k1 zeroEnv ROOT_PUBLIC_ADDRESS
    exact h4 _ (.opened d .here h2) (hf zeroEnv d ROOT_PUBLIC_ADDRESS _ h1 h2 h3).1

/-- A life as in the theorems above: a block is added to a derivative chain, the chain is flushed, the node is stopped
without the main chain ever having been written, and opened again. -/
example (E : Env) (o : Address) : ∃ s t, Spared E o (.down Disk.empty) (.idle s) ∧ ((Op.derivFlush o).run E s).out = .ok () ∧
    Spared E o (.idle ((Op.derivFlush o).run E s).final) (.idle t) ∧ IsOpen o t ∧ (t.handle o).chain.height.val = 1 := by
  obtain ⟨f1, f2, -, -⟩ := freshWith_flush E o (oneDeriv E)
  have hs : Spared E o (.down Disk.empty) (.idle (freshWith E o (oneDeriv E))) := by
    rw [← fresh_add]; exact .call _ _ (.opened _ .refl (openTree_fresh E).1)
  have hc := freshWith_crash E o (oneDeriv E).flushed (oneDeriv E).chain.blocks.cur (oneDeriv E).chain.heightReference.cur
    (List.mem_singleton.mpr rfl) (List.mem_singleton.mpr rfl)
  obtain ⟨o1, o2, o3, o4⟩ := onlyDeriv_opens E o ⟨(oneDeriv E).chain.blocks.cur, (oneDeriv E).chain.heightReference.cur,
    (oneDeriv E).flushed.chain.config⟩
  have st : Spared E o (.idle ((Op.derivFlush o).run E (freshWith E o (oneDeriv E))).final) (.idle (openTree E (onlyDeriv o
      ⟨(oneDeriv E).chain.blocks.cur, (oneDeriv E).chain.heightReference.cur, (oneDeriv E).flushed.chain.config⟩)).final) := by
    rw [f2]; exact .opened _ (.crashIdle _ _ .refl hc) o1
  obtain ⟨g1, g2⟩ := getDeriv_saved (E := E) (c := oneDeriv E) o3 o2 (by rw [o4]; rfl) (by rw [o4]; rfl) (by rw [o4]; rfl)
  exact ⟨_, _, hs, f1, .call _ (.getDerivativeChain o) st, getDeriv_open g1, by rw [g2.height]; rfl⟩

end BCT.Props
