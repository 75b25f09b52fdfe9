import Verif.Props.DerivCrash
import Verif.Props.ThreadsDerivCut
/-!
# C151: a derivative chain many threads use, on a node killed and started again many times (chain.rs:440-760)
-/

namespace BCT.Props
open BCT

variable {ι α β : Type}

/-! ## The life of a derivative chain used by threads -/

/-- What threads that share a node and its derivative chain of `o` have made of it. -/
def _root_.BCT.Shared.tree (o : Address) (s : Shared) : Tree := Tree.putHandle o s.deriv.data s.node.data

/-- Moments that can follow moment `m`. The node is opened, gets calls one at a time, or is used, it and its derivative chain
of `o`, by any number of threads at once, whose calls may be cut short; the process is killed at any moment, but for flushes
of that derivative chain: these are made one at a time and come to their end. -/
inductive DerivAlong (E : Env) (o : Address) (m : Moment) : Moment → Prop where
  | refl : DerivAlong E o m m
  | opening (d : Disk) (t : Tree) : DerivAlong E o m (.down d) → t ∈ (openTree E d).trace → DerivAlong E o m (.busy t)
  | opened (d : Disk) : DerivAlong E o m (.down d) → (openTree E d).out = .ok () → DerivAlong E o m (.idle (openTree E d).final)
  | running (s t : Tree) (op : Op) : DerivAlong E o m (.idle s) → op ≠ .derivFlush o → t ∈ (op.run E s).trace →
      DerivAlong E o m (.busy t)
  | call (s : Tree) (op : Op) : DerivAlong E o m (.idle s) → DerivAlong E o m (.idle (op.run E s).final)
  | working (s : Tree) (ι : Type) [DecidableEq ι] (call : ι → Shared.Call) (stop : ι → Option (Nat × Outcome (Option Bytes)))
      (log : List (Event ι Shared)) (c : Config ι Shared (Option Bytes)) : DerivAlong E o m (.idle s) → IsOpen o s →
      (∀ i, call i ≠ .flush) → Exec (dcutStart E s o call stop) log c → DerivAlong E o m (.busy (c.shared.tree o))
  | worked (s : Tree) (ι : Type) [DecidableEq ι] (call : ι → Shared.Call) (stop : ι → Option (Nat × Outcome (Option Bytes)))
      (log : List (Event ι Shared)) (c : Config ι Shared (Option Bytes)) : DerivAlong E o m (.idle s) → IsOpen o s →
      (∀ i, call i ≠ .flush) → Exec (dcutStart E s o call stop) log c → (∀ i, hasEnded (c.threads i)) →
      DerivAlong E o m (.idle (c.shared.tree o))
  | crashIdle (s : Tree) (d : Disk) : DerivAlong E o m (.idle s) → Crash s d → DerivAlong E o m (.down d)
  | crashBusy (s : Tree) (d : Disk) : DerivAlong E o m (.busy s) → Crash s d → DerivAlong E o m (.down d)

/-- The life of a node, from an empty directory. -/
abbrev DerivLife (E : Env) (o : Address) : Moment → Prop := DerivAlong E o (.down Disk.empty)

/-! ## What the steps of threads do -/

/-- The step leaves the config file of the derivative chain alone, and what can be found after a crash is what could be found
before or what there is now. -/
def Softly (s t : Shared) : Prop :=
  t.deriv.data.chain.config = s.deriv.data.chain.config ∧
  ∀ m ∈ t.deriv.data.chain.blocks.recov, m ∈ s.deriv.data.chain.blocks.recov ∨ m = t.deriv.data.chain.blocks.cur

theorem softly_same {s t : Shared} (h : t.deriv.data = s.deriv.data) : Softly s t := by
  unfold Softly
  rw [h]
  exact ⟨rfl, fun _ h => .inl h⟩

theorem softly_onNode (p : Prog Node α) : Prog.Guar Softly (Shared.onNode p) := by
  induction p with
  | done o => trivial
  | step next rest ih =>
    intro s s' hn
    refine ⟨?_, ih _⟩
    cases hx : next s.node with
    | none => simp [hx] at hn
    | some n =>
      simp only [hx, Option.map_some, Option.some.injEq] at hn
      subst hn
      exact softly_same rfl

theorem softly_read (f : DerivativeChain → Outcome α) : Prog.Guar Softly (Shared.read f) :=
  fun _ _ h => ⟨by cases h; exact softly_same rfl, trivial⟩
theorem softly_readHeight : Prog.Guar Softly Shared.readHeight := fun _ _ h => ⟨by
    simp only [Option.ite_none_left_eq_some] at h
    cases h.2; exact softly_same rfl, trivial⟩
theorem softly_lock : Prog.Guar Softly Shared.lock := fun _ _ h => ⟨by
    simp only [Option.ite_none_left_eq_some] at h
    cases h.2; exact softly_same rfl, trivial⟩
theorem softly_unlock : Prog.Guar Softly Shared.unlock := fun _ _ h => ⟨by cases h; exact softly_same rfl, trivial⟩

theorem softly_addBlock (E : Env) (b : DerivativeBlock) : Prog.Guar Softly (Shared.addBlock E b) := by
  refine .bind softly_lock fun _ => .bind (softly_read _) fun h => ?_
  split
  · exact .bind softly_unlock fun _ => Prog.guar_lift _
  · refine .bind (fun s _ hn => ⟨by cases hn; exact ⟨rfl, fun m hm => (List.mem_cons.mp hm).symm⟩, trivial⟩) fun _ =>
      .bind (fun s _ hn => ⟨by cases hn; exact ⟨rfl, fun m hm => .inl hm⟩, trivial⟩) fun _ => ?_
    split
    · exact .bind (fun s _ hn => ⟨by cases hn; exact ⟨rfl, fun m hm => .inl hm⟩, trivial⟩) fun _ => softly_unlock
    · exact .bind softly_unlock fun _ => .bind (Prog.guar_lift _) fun _ => Prog.guar_pure _

theorem softly_findRawByHeight (k : U256) : Prog.Guar Softly (Shared.findRawByHeight k) := by
  refine .bind softly_readHeight fun _ => ?_
  split
  · exact Prog.guar_pure _
  · exact softly_read _

theorem softly_last : Prog.Guar Softly Shared.getLastRawBlock := by
  refine .bind softly_readHeight fun _ => ?_
  split
  · exact Prog.guar_pure _
  · exact .bind (Prog.guar_lift _) fun _ => softly_findRawByHeight _

theorem softly_emit (E : Env) (pow : BytesN 32) (founder : Address) (ts : UInt64) :
    Prog.Guar Softly (Shared.emitDerivative E pow founder ts) := by
  refine .bind (.bind (.bind softly_last fun _ => Prog.guar_lift _) fun r => ?_) fun _ => .bind (Prog.guar_lift _) fun _ => ?_
  · cases r with
    | some b => exact .bind (Prog.guar_lift _) fun _ => Prog.guar_pure _
    | none =>
      refine .bind (softly_read _) fun g => .bind (.bind (softly_onNode _) fun _ => Prog.guar_lift _) fun r => ?_
      cases r with
      | none => exact Prog.guar_lift _
      | some b => exact Prog.guar_pure _
  · split
    · exact Prog.guar_lift _
    · exact .bind (Prog.guar_lift _) fun _ => .bind (softly_addBlock E _) fun _ => Prog.guar_pure _

theorem softly_call (E : Env) (k : Shared.Call) (h : k ≠ .flush) : Prog.Guar Softly (k.prog E) := by
  cases k with
  | node k => exact softly_onNode _
  | addBlock b => exact .bind (softly_addBlock E _) fun _ => Prog.guar_pure _
  | flush => exact absurd rfl h
  | byHeight k => exact softly_findRawByHeight k
  | byHash q =>
    refine .bind (softly_read _) fun r => ?_
    cases r with
    | none => exact Prog.guar_pure _
    | some v => exact .bind (Prog.guar_lift _) fun _ => softly_findRawByHeight _
  | last => exact softly_last
  | emit pow founder ts => exact .bind (softly_emit E pow founder ts) fun _ => Prog.guar_pure _

theorem dcut_softly [DecidableEq ι] {E : Env} {s : Tree} {o : Address} {call : ι → Shared.Call}
    {stop : ι → Option (Nat × Outcome (Option Bytes))} {log : List (Event ι Shared)} {c : Config ι Shared (Option Bytes)}
    (h : Exec (dcutStart E s o call stop) log c) (hl : ∀ i, call i ≠ .flush) : ∀ e ∈ log, Softly e.before e.after :=
  (h.guar (R := fun _ => Softly) (dcut_sat (P := fun p => p.Guar Softly) (fun i => softly_call E (call i) (hl i))
    (fun k _ i => guar_dcut (fun _ _ => softly_same rfl) _ k (softly_call E (call i) (hl i))))).1

theorem firm_step {m0 : KV} {H : Nat} {E : Env} {s t : Shared} (h : Firm m0 H s.deriv.data.chain)
    (h1 : Chain.StepOf E IsDeriv s.deriv.data.chain t.deriv.data.chain) (h2 : Softly s t) : Firm m0 H t.deriv.data.chain := by
  obtain ⟨k1, k2⟩ := Slot.above_step h1
  have hle := h.cur.le
  have hcur : Told m0 H t.deriv.data.chain.blocks.cur t.deriv.data.chain.height.val := by
    refine ⟨by omega, fun q hq => ?_, fun q hq => (k2 q (by omega)).trans (h.cur.agree q hq)⟩
    by_cases hlt : q.val < s.deriv.data.chain.height.val
    · obtain ⟨b, g1, g2⟩ := h.cur.stored q hlt
      exact ⟨b, (k2 q hlt).trans g1, g2⟩
    · obtain ⟨h1, h3⟩ := h1
      have hne : t.deriv.data.chain.height ≠ s.deriv.data.chain.height := fun e => hlt (e ▸ hq)
      obtain ⟨b, ⟨d, rfl⟩, g1, g2⟩ := h3 hne
      cases h1 with
      | same e => exact absurd e.2.2 hne
      | block _ _ _ _ e => exact absurd e hne
      | ref _ _ _ _ _ e => exact absurd e hne
      | height b' _ _ _ e4 _ e6 =>
        have hqe : q = s.deriv.data.chain.height := U256.ext (by omega)
        subst hqe
        exact ⟨d, by rw [e4]; exact g2, g1⟩
  obtain ⟨q, hr, hq, hH, hl⟩ := h.disk
  refine ⟨⟨q, by rw [h2.1]; exact hr, by omega, hH, fun m hm => ?_⟩, hcur⟩
  rcases h2.2 m hm with hm | rfl
  · exact hl m hm
  · exact hcur.mono (by omega) hH

theorem exec_firm [DecidableEq ι] {m0 : KV} {H : Nat} {E : Env} {s : Tree} {o : Address} {call : ι → Shared.Call}
    {stop : ι → Option (Nat × Outcome (Option Bytes))} {log : List (Event ι Shared)} {c : Config ι Shared (Option Bytes)}
    (h : Exec (dcutStart E s o call stop) log c) (hl : ∀ i, call i ≠ .flush) (hs : Firm m0 H (s.handle o).chain) :
    Firm m0 H c.shared.deriv.data.chain ∧ ∀ e ∈ log, Firm m0 H e.before.deriv.data.chain := by
  obtain ⟨h1, h2, -⟩ := h.sorted (R := fun a b : Shared => Firm m0 H a.deriv.data.chain → Firm m0 H b.deriv.data.chain)
    (fun _ => id) (fun _ _ _ h1 h2 h => h2 (h1 h)) (fun e he hb => firm_step hb (dcut_steps h e he) (dcut_softly h hl e he))
  exact ⟨h1 hs, fun e he => (h2 e he).1 hs⟩

theorem along_spry {m0 : KV} {H : Nat} {E : Env} {o : Address} {m n : Moment} (h : DerivAlong E o m n)
    (h0 : Sprightly m0 H o m) : Sprightly m0 H o n := by
  have one : ∀ {m n}, Spared E o m n → Sprightly m0 H o m → Sprightly m0 H o n := fun h h0 => spared_spry h h0
  induction h with
  | refl => exact h0
  | opening d t _ ht ih => exact one (.opening d t .refl ht) ih
  | opened d _ ho ih => exact one (.opened d .refl ho) ih
  | running s t op _ hop ht ih => exact one (.running s t op .refl hop ht) ih
  | call s op _ ih => exact one (.call s op .refl) ih
  | working s ι call stop log c _ ho hl hx ih => exact spry_put _ (exec_firm hx hl (ih.live ho)).1
  | worked s ι call stop log c _ ho hl hx _ ih => exact spry_put _ (exec_firm hx hl (ih.live ho)).1
  | crashIdle s d _ hc ih => exact one (.crashIdle s d .refl hc) ih
  | crashBusy s d _ hc ih => exact one (.crashBusy s d .refl hc) ih

/-! ## C151 -/

/-- C151. Whenever the node is open and has its last main block, `get_derivative_chain` succeeds, and the chain is in order. -/
theorem C151_opens (E : Env) (o : Address) (s : Tree) (b : Block) (h : DerivLife E o (.idle s))
    (hb : s.main.getLastBlock = .ok (some b)) :
    ((Op.getDerivativeChain o).run E s).out = .ok () ∧ Shipshape (((Op.getDerivativeChain o).run E s).final.handle o) :=
  spry_opens (along_spry h (start_spry o)) hb

/-- C151. Whenever the chain is open, between the calls and at every moment while threads use it, it is in order; and while
threads use it, it does not shrink, no block below its height changes, and its anchor stays. -/
theorem C151_readable (E : Env) (o : Address) (s : Tree) (h : DerivLife E o (.idle s)) (ho : IsOpen o s) :
    Shipshape (s.handle o) ∧
    ∀ (ι : Type) [DecidableEq ι] (call : ι → Shared.Call) (stop : ι → Option (Nat × Outcome (Option Bytes)))
      (log : List (Event ι Shared)) (c : Config ι Shared (Option Bytes)), (∀ i, call i ≠ .flush) →
      Exec (dcutStart E s o call stop) log c →
      Shipshape c.shared.deriv.data ∧ (s.handle o).chain.height.val ≤ c.shared.deriv.data.chain.height.val ∧
      (∀ q : U256, q.val < (s.handle o).chain.height.val →
        c.shared.deriv.data.chain.findRawByHeight q = (s.handle o).chain.findRawByHeight q) ∧
      c.shared.deriv.data.genesisHash = (s.handle o).genesisHash := by
  have hs : Spry KV.empty 0 o s := along_spry h (start_spry o)
  refine ⟨shipshape_of (hs.live ho), fun ι _ call stop log c hl hx => ⟨shipshape_of (exec_firm hx hl (hs.live ho)).1, ?_⟩⟩
  have k : (s.handle o).chain.Above c.shared.deriv.data.chain :=
    (hx.sorted (R := fun a b : Shared => a.deriv.data.chain.Above b.deriv.data.chain)
      (fun _ => Slot.above_refl _) (fun _ _ _ => Slot.above_trans) (fun e he => Slot.above_step (dcut_steps hx e he))).1
  refine ⟨k.1, fun q hq => ?_, ?_⟩
  · have := k.1
    unfold Chain.findRawByHeight
    rw [if_neg (by omega), if_neg (by omega)]
    exact k.2 q hq
  · exact (hx.sorted (R := SameAnchor) (fun _ => rfl) (fun _ _ _ h1 h2 => Eq.trans h2 h1) (dcut_anchor hx)).1

/-- C151. What the chain had when it was flushed it has ever after: at every later moment at which it is open, in this life of
the process or in a later one, it is no lower and its blocks below the height it had are the same. -/
theorem C151_flushed (E : Env) (o : Address) (s t : Tree) (h : DerivLife E o (.idle s))
    (hok : ((Op.derivFlush o).run E s).out = .ok ())
    (ht : DerivAlong E o (.idle ((Op.derivFlush o).run E s).final) (.idle t)) (ho : IsOpen o t) :
    (((Op.derivFlush o).run E s).final.handle o).chain.height.val ≤ (t.handle o).chain.height.val ∧
    ∀ q : U256, q.val < (((Op.derivFlush o).run E s).final.handle o).chain.height.val →
      (t.handle o).chain.findRawByHeight q = (((Op.derivFlush o).run E s).final.handle o).chain.findRawByHeight q :=
  spry_kept (along_spry ht (flush_spry (along_spry h (start_spry o)) hok)) ho

theorem found_ever [DecidableEq ι] {E : Env} {o : Address} {s : Tree} (h : DerivLife E o (.idle s)) (hs : IsOpen o s)
    {call : ι → Shared.Call} {stop : ι → Option (Nat × Outcome (Option Bytes))} {log : List (Event ι Shared)}
    {c : Config ι Shared (Option Bytes)} (hl : ∀ i, call i ≠ .flush) (hx : Exec (dcutStart E s o call stop) log c)
    {b : DerivativeBlock} (h1 : b.defaultInfo.height.val < c.shared.deriv.data.chain.height.val)
    (h2 : c.shared.deriv.data.chain.findRawByHeight b.defaultInfo.height = some b.dump) :
    c.shared.deriv.data.findByHeight b.defaultInfo.height = .ok (some b) ∧
    ((∀ j, hasEnded (c.threads j)) → ∀ t, DerivAlong E o (.idle ((Op.derivFlush o).run E (c.shared.tree o)).final) (.idle t) →
      IsOpen o t → (t.handle o).findByHeight b.defaultInfo.height = .ok (some b)) := by
  have key : ∀ d : DerivativeChain, d.chain.findRawByHeight b.defaultInfo.height = some b.dump →
      d.findByHeight b.defaultInfo.height = .ok (some b) := fun d hd => by
    unfold DerivativeChain.findByHeight
    rw [hd]
    exact decode_deriv b
  refine ⟨key _ h2, fun he t ht ho => key _ ?_⟩
  have hopen : IsOpen o (c.shared.tree o) := by unfold IsOpen Shared.tree; rw [Tree.putHandle_mem_self]; rfl
  have e : ((Op.derivFlush o).run E (c.shared.tree o)) = Tree.onDeriv o DerivativeChain.flush (c.shared.tree o) := by
    rw [show (Op.derivFlush o).run E (c.shared.tree o) = (Tree.getDerivativeChain E o >>= fun _ =>
      Tree.onDeriv o DerivativeChain.flush) (c.shared.tree o) from rfl, Act.bind_ok (get_open hopen)]
    rfl
  have hc : (c.shared.tree o).handle o = c.shared.deriv.data := Tree.handle_put_self _ _ _
  have hok : ((Op.derivFlush o).run E (c.shared.tree o)).out = .ok () := by
    rw [e]; exact (DerivativeChain.flush_run ((c.shared.tree o).handle o)).1
  have hfin : ((Op.derivFlush o).run E (c.shared.tree o)).final.handle o = c.shared.deriv.data.flushed := by
    rw [e]
    show (Tree.putHandle o (DerivativeChain.flush ((c.shared.tree o).handle o)).final _).handle o = _
    rw [Tree.handle_put_self, hc, (DerivativeChain.flush_run _).2]
  obtain ⟨-, g⟩ := C151_flushed E o (c.shared.tree o) t (.worked s ι call stop log c h hs hl hx he) hok ht ho
  rw [hfin] at g
  exact (g _ h1).trans h2

/-- C151. A derivative block whose addition by a thread was not cut short and succeeded is in the chain, whatever was cut
short or killed before; and once the threads have ended and the chain was flushed, it is in the chain ever after. -/
theorem C151_accepted [DecidableEq ι] (E : Env) (o : Address) (s : Tree) (h : DerivLife E o (.idle s)) (hs : IsOpen o s)
    (call : ι → Shared.Call) (stop : ι → Option (Nat × Outcome (Option Bytes))) (log : List (Event ι Shared))
    (c : Config ι Shared (Option Bytes)) (hl : ∀ i, call i ≠ .flush) (hx : Exec (dcutStart E s o call stop) log c)
    (i : ι) (hi : stop i = none) (b : DerivativeBlock) (hb : call i = .addBlock b) (r : Option Bytes)
    (hr : c.threads i = .done (.ok r)) :
    c.shared.deriv.data.findByHeight b.defaultInfo.height = .ok (some b) ∧
    ((∀ j, hasEnded (c.threads j)) → ∀ t, DerivAlong E o (.idle ((Op.derivFlush o).run E (c.shared.tree o)).final) (.idle t) →
      IsOpen o t → (t.handle o).findByHeight b.defaultInfo.height = .ok (some b)) := by
  obtain ⟨h1, h2⟩ := C148_accepted E s o call stop log c hx i hi b hb r hr
  exact found_ever h hs hl hx h1 h2

/-- C151. A derivative block whose emission by a thread was not cut short and succeeded is in the chain, and, unless it is the
first one, is built on the block one below it; and once the threads have ended and the chain was flushed, it is in the chain
ever after. -/
theorem C151_emitted [DecidableEq ι] (E : Env) (o : Address) (s : Tree) (h : DerivLife E o (.idle s)) (hs : IsOpen o s)
    (call : ι → Shared.Call) (stop : ι → Option (Nat × Outcome (Option Bytes))) (log : List (Event ι Shared))
    (c : Config ι Shared (Option Bytes)) (hl : ∀ i, call i ≠ .flush) (hx : Exec (dcutStart E s o call stop) log c)
    (i : ι) (hi : stop i = none) (pow : BytesN 32) (founder : Address) (ts : UInt64) (hb : call i = .emit pow founder ts)
    (r : Option Bytes) (hr : c.threads i = .done (.ok r)) :
    ∃ b : DerivativeBlock, r = some b.dump ∧ c.shared.deriv.data.findByHeight b.defaultInfo.height = .ok (some b) ∧
      b.defaultInfo.timestamp = ts ∧ b.defaultInfo.pow = pow ∧ b.defaultInfo.founder = founder ∧
      (b.defaultInfo.height.val ≠ 0 → ∃ (a : DerivativeBlock) (k : U256), k.val + 1 = b.defaultInfo.height.val ∧
        a.defaultInfo.height = k ∧ c.shared.deriv.data.findByHeight k = .ok (some a) ∧
        b.defaultInfo.previousHash = E.sha256 a.dump ∧
        recalculateDifficulty E a.defaultInfo.timestamp ts a.defaultInfo.difficulty = .ok b.defaultInfo.difficulty ∧
        MeetsPow E (E.sha256 a.dump) a.defaultInfo.difficulty [] pow.val) ∧
      ((∀ j, hasEnded (c.threads j)) → ∀ t, DerivAlong E o (.idle ((Op.derivFlush o).run E (c.shared.tree o)).final) (.idle t) →
        IsOpen o t → (t.handle o).findByHeight b.defaultInfo.height = .ok (some b)) := by
  have hsp : Spry KV.empty 0 o s := along_spry h (start_spry o)
  obtain ⟨b, k1, k2, k3, k4, k5, k6, k7⟩ := emitted_of E s o call stop log c hx
    (fun e he j hj => ((exec_firm hx hl (hsp.live hs)).2 e he).cur.stored j hj) i hi pow founder ts hb r hr
  obtain ⟨f1, f2⟩ := found_ever h hs hl hx k2 k3
  refine ⟨b, k1, f1, k4, k5, k6, fun hne => ?_, f2⟩
  obtain ⟨a, k, g1, g2, g3, g4⟩ := k7 hne
  exact ⟨a, k, g1, g2, by unfold DerivativeChain.findByHeight; rw [g3]; exact decode_deriv a, g4⟩

/-- A life as in the theorems above: the derivative chain of `o` is opened, two threads add blocks to it, one of them stopped
in the middle of its call with the lock in its hand and its block stored; then the chain is flushed, the process is killed and
the node is opened again: the chain can be opened, and the block of the other thread is found in it. -/
example (E : Env) (o : Address) (e : Err) : ∃ (s : Tree) (log : _) (c : Config Bool Shared (Option Bytes)) (t : Tree),
    DerivLife E o (.idle s) ∧ IsOpen o s ∧
    Exec (dcutStart E s o (fun _ => .addBlock exDerivBlock) (fun i => if i then some (3, .err e) else none)) log c ∧
    c.threads true = .done (.err e) ∧ c.threads false = .done (.ok none) ∧
    DerivAlong E o (.idle ((Op.derivFlush o).run E (c.shared.tree o)).final) (.idle t) ∧ IsOpen o t ∧
    (t.handle o).findByHeight U256.zero = .ok (some exDerivBlock) := by
  have h1 : (freshWith E o (newDeriv E)).handle o = newDeriv E := Tree.handle_put_self _ _ _
  have hl : DerivLife E o (.idle (freshWith E o (newDeriv E))) := by
    have := DerivAlong.call (o := o) _ (.getDerivativeChain o)
      (DerivAlong.opened (E := E) (m := .down Disk.empty) _ .refl (openTree_fresh E).1)
    rwa [show ((Op.getDerivativeChain o).run E (openTree E Disk.empty).final).final = freshWith E o (newDeriv E) from by
      show (Tree.getDerivativeChain E o (openTree E Disk.empty).final).final = _; rw [fresh_get]] at this
  obtain ⟨log, c, hx, k1, k2, -, k3, -⟩ := cut_then_add E (freshWith E o (newDeriv E)) o exDerivBlock exDerivBlock
    (by rw [h1]; rfl) (by rw [h1]; rfl) (by rw [h1]; exact zero_add_one_lt) e
  simp only [ite_self] at hx
  have ht : c.shared.tree o = freshWith E o c.shared.deriv.data := by
    unfold Shared.tree; rw [k3]; exact freshWith_put E o _ _
  obtain ⟨d, hd⟩ : ∃ d, d = c.shared.deriv.data := ⟨_, rfl⟩
  obtain ⟨f1, f2, -, -⟩ := freshWith_flush E o d
  have hc := freshWith_crash E o d.flushed d.chain.blocks.cur d.chain.heightReference.cur
    (List.mem_singleton.mpr rfl) (List.mem_singleton.mpr rfl)
  obtain ⟨o1, o2, o3, o4⟩ := onlyDeriv_opens E o ⟨d.chain.blocks.cur, d.chain.heightReference.cur, d.flushed.chain.config⟩
  have st : DerivAlong E o (.idle ((Op.derivFlush o).run E (c.shared.tree o)).final) (.idle (openTree E (onlyDeriv o
      ⟨d.chain.blocks.cur, d.chain.heightReference.cur, d.flushed.chain.config⟩)).final) := by
    rw [ht, ← hd, f2]; exact .opened _ (.crashIdle _ _ .refl hc) o1
  obtain ⟨g1, g2⟩ := getDeriv_saved (E := E) (c := d) o3 o2 (by rw [o4]; rfl) (by rw [o4]; rfl) (by rw [o4]; rfl)
  refine ⟨_, log, c, _, hl, freshWith_open E o _, hx, k1, k2, .call _ (.getDerivativeChain o) st, getDeriv_open g1, ?_⟩
  refine (C151_accepted E o _ hl (freshWith_open E o _) (fun _ => .addBlock exDerivBlock) _ log c (fun _ => nofun) hx false rfl exDerivBlock rfl none k2).2
    (fun j => ?_) _ (.call _ (.getDerivativeChain o) st) (getDeriv_open g1)
  cases j
  · exact ⟨_, k2⟩
  · exact ⟨_, k1⟩

end BCT.Props
