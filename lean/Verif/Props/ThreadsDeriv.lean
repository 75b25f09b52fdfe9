import Verif.Props.Slot
import Verif.Model.ThreadsDeriv
import Verif.Lemmas.EmitDeriv
/-!
# C120: a derivative block emitted amid other threads follows the block below it (blockchaintree.rs)
-/

namespace BCT

namespace Shared

/-- The derivative chain and its lock. -/
def derivSlot : Slot Shared where
  get s := ⟨s.deriv.data.chain, s.deriv.held⟩
  set c s := { s with deriv := ⟨{ s.deriv.data with chain := c.data }, c.held⟩ }
  get_set _ _ := rfl

/-- The main chain and its lock. -/
def mainSlot : Slot Shared where
  get s := ⟨s.node.data.main.chain, s.node.held⟩
  set c s := { s with node := ⟨Node.setChain (fun _ => c.data) s.node.data, c.held⟩ }
  get_set _ _ := rfl

theorem addBlock_slot (E : Env) (b : DerivativeBlock) : addBlock E b = derivSlot.addBlock E (.derivative b) := rfl

theorem onNode_bind {α β : Type} (p : Prog Node α) (f : α → Prog Node β) :
    onNode (p >>= f) = onNode p >>= fun a => onNode (f a) := by
  change onNode (Prog.bind p f) = Prog.bind (onNode p) _
  induction p with
  | done o => cases o <;> rfl
  | step next rest ih =>
    simp only [Prog.bind, onNode]
    congr 1
    funext s
    exact ih _

theorem onNode_addBlock (E : Env) (b : Block) : onNode (Node.addBlock E b) = mainSlot.addBlock E b := by
  have key : ∀ h : U256, onNode (Props.afterRead E b h) = mainSlot.afterRead E b h := by
    intro h
    unfold Props.afterRead Slot.afterRead
    split
    · rfl
    · unfold Props.afterStore Slot.afterStore Props.afterRef Slot.afterRef
      cases h.add U256.one <;> rfl
  rw [Props.addBlock_stages, onNode_bind]
  change (Prog.step _ _) = Prog.step _ _
  congr 1
  · funext s
    change Option.map _ (if s.node.held then none else _) = if s.node.held then none else _
    split <;> rfl
  · funext s
    change Prog.step _ _ = Prog.step _ _
    congr 1
    funext s
    exact key s.node.data.main.chain.height

theorem adds_onNode_main {α : Type} {E : Env} {p : Prog Node α} (h : Props.Adds E p) :
    mainSlot.Adds E (fun _ => True) (onNode p) := by
  induction h with
  | done o => exact .done _
  | quiet hq _ ih =>
    refine .quiet (fun s s' hn => ?_) fun s => ih _
    cases hx : (‹Node → Option Node› s.node) with
    | none => simp [hx] at hn
    | some n =>
      simp only [hx, Option.map_some, Option.some.injEq] at hn
      subst hn
      exact hq _ _ hx
  | add b _ ih =>
    rw [onNode_bind, onNode_addBlock]
    exact .add b trivial ih

theorem adds_onNode_deriv {α : Type} {E : Env} {P : Block → Prop} (p : Prog Node α) :
    derivSlot.Adds E P (onNode p) := by
  induction p with
  | done o => exact .done _
  | step next rest ih =>
    refine .quiet (fun s s' hn => ?_) fun s => ih _
    cases hx : next s.node with
    | none => simp [hx] at hn
    | some n =>
      simp only [hx, Option.map_some, Option.some.injEq] at hn
      subst hn
      exact Slot.quiet_refl s

end Shared

namespace Props
open BCT Shared

variable {ι : Type}

/-- Blocks of derivative chains. -/
def IsDeriv (b : Block) : Prop := ∃ d, b = .derivative d

section
variable {α : Type} (E : Env)

theorem deriv_read (f : DerivativeChain → Outcome α) : derivSlot.Adds E IsDeriv (Shared.read f) :=
  .quiet (fun s s' hn => by cases hn; exact Slot.quiet_refl s) fun _ => .done _

theorem deriv_write {f : DerivativeChain → DerivativeChain} (h : ∀ d, Chain.Same d.chain (f d).chain) :
    derivSlot.Adds E IsDeriv (Shared.write f) :=
  .quiet (fun s s' hn => by cases hn; exact ⟨h _, rfl⟩) fun _ => .done _

theorem deriv_readHeight : derivSlot.Adds E IsDeriv Shared.readHeight :=
  .quiet (fun s s' hn => by
    simp only [Option.ite_none_left_eq_some] at hn
    cases hn.2
    exact Slot.quiet_refl s) fun _ => .done _

theorem deriv_findRawByHeight (k : U256) : derivSlot.Adds E IsDeriv (Shared.findRawByHeight k) := by
  unfold Shared.findRawByHeight
  refine .bind (deriv_readHeight E) fun _ => ?_
  split
  · exact Slot.adds_pure E _
  · exact deriv_read E _

theorem deriv_findRawByHash (q : Hash) : derivSlot.Adds E IsDeriv (Shared.findRawByHash q) := by
  refine .bind (deriv_read E _) fun r => ?_
  cases r with
  | none => exact Slot.adds_pure E _
  | some v => exact .bind (Slot.adds_lift E _) fun _ => deriv_findRawByHeight E _

theorem deriv_last : derivSlot.Adds E IsDeriv Shared.getLastRawBlock := by
  refine .bind (deriv_readHeight E) fun _ => ?_
  split
  · exact Slot.adds_pure E _
  · exact .bind (Slot.adds_lift E _) fun _ => deriv_findRawByHeight E _

theorem deriv_flush : derivSlot.Adds E IsDeriv Shared.flush := by
  unfold Shared.flush Shared.dumpConfig
  exact .bind (.bind (deriv_write E fun _ => same_refl _) fun _ => .bind (deriv_readHeight E) fun _ =>
    .bind (deriv_write E fun _ => same_refl _) fun _ => .bind (deriv_read E _) fun _ =>
    .bind (deriv_write E fun _ => same_refl _) fun _ => deriv_write E fun _ => same_refl _) fun _ =>
    .bind (deriv_write E fun _ => ⟨rfl, rfl, rfl⟩) fun _ => deriv_write E fun _ => ⟨rfl, rfl, rfl⟩

theorem deriv_base : derivSlot.Adds E IsDeriv (Shared.derivBase E) := by
  refine .bind (.bind (deriv_last E) fun _ => Slot.adds_lift E _) fun r => ?_
  cases r with
  | some b => exact .bind (Slot.adds_lift E _) fun _ => Slot.adds_pure E _
  | none =>
    refine .bind (deriv_read E _) fun g => .bind (.bind (adds_onNode_deriv _) fun _ => Slot.adds_lift E _) fun r => ?_
    cases r with
    | none => exact Slot.adds_lift E _
    | some b => exact Slot.adds_pure E _

theorem deriv_emit (pow : BytesN 32) (founder : Address) (ts : UInt64) :
    derivSlot.Adds E IsDeriv (Shared.emitDerivative E pow founder ts) := by
  refine .bind (deriv_base E) fun _ => .bind (Slot.adds_lift E _) fun _ => ?_
  split
  · exact Slot.adds_lift E _
  · exact .bind (Slot.adds_lift E _) fun _ => .bind (by rw [addBlock_slot]; exact Slot.adds_addBlock E _ ⟨_, rfl⟩) fun _ =>
      Slot.adds_pure E _

theorem deriv_call (k : Shared.Call) : derivSlot.Adds E IsDeriv (k.prog E) := by
  cases k with
  | node k => exact adds_onNode_deriv _
  | addBlock b =>
    exact .bind (by rw [addBlock_slot]; exact Slot.adds_addBlock E _ ⟨_, rfl⟩) fun _ => Slot.adds_pure E _
  | flush => exact .bind (deriv_flush E) fun _ => Slot.adds_pure E _
  | byHeight h => exact deriv_findRawByHeight E h
  | byHash h => exact deriv_findRawByHash E h
  | last => exact deriv_last E
  | emit pow founder ts => exact .bind (deriv_emit E pow founder ts) fun _ => Slot.adds_pure E _

/-! ### None of these but the calls on the node touch the main chain -/

/-- The program leaves the node alone. -/
def NodeIdle {α : Type} : Prog Shared α → Prop
  | .done _ => True
  | .step next rest => ∀ s, (∀ s', next s = some s' → s'.node = s.node) ∧ NodeIdle (rest s)

theorem NodeIdle.adds {p : Prog Shared α} (h : NodeIdle p) : mainSlot.Adds E (fun _ => True) p := by
  induction p with
  | done o => exact .done _
  | step next rest ih =>
    refine .quiet (fun s s' hn => ?_) fun s => ih s (h s).2
    have := (h s).1 s' hn
    refine ⟨?_, ?_⟩
    · change Chain.Same s.node.data.main.chain s'.node.data.main.chain
      rw [this]; exact same_refl _
    · change s'.node.held = s.node.held
      rw [this]

end

theorem NodeIdle.bind {α β : Type} {p : Prog Shared α} {f : α → Prog Shared β} (hp : NodeIdle p)
    (hf : ∀ a, NodeIdle (f a)) : NodeIdle (p >>= f) := by
  change NodeIdle (Prog.bind p f)
  induction p with
  | done o => cases o with
    | ok a => exact hf a
    | err e => trivial
    | panic e => trivial
    | ub => trivial
  | step next rest ih => exact fun s => ⟨(hp s).1, ih s (hp s).2⟩

section
variable {α : Type}

theorem idle_lift (o : Outcome α) : NodeIdle (Prog.lift o : Prog Shared α) := trivial
theorem idle_pure (a : α) : NodeIdle (pure a : Prog Shared α) := trivial
theorem idle_read (f : DerivativeChain → Outcome α) : NodeIdle (Shared.read f) :=
  fun _ => ⟨fun _ h => by cases h; rfl, trivial⟩
theorem idle_write (f : DerivativeChain → DerivativeChain) : NodeIdle (Shared.write f) :=
  fun _ => ⟨fun _ h => by cases h; rfl, trivial⟩
theorem idle_readHeight : NodeIdle Shared.readHeight := fun _ => ⟨fun _ h => by
    simp only [Option.ite_none_left_eq_some] at h
    cases h.2; rfl, trivial⟩
theorem idle_lock : NodeIdle Shared.lock := fun _ => ⟨fun _ h => by
    simp only [Option.ite_none_left_eq_some] at h
    cases h.2; rfl, trivial⟩
theorem idle_unlock : NodeIdle Shared.unlock := fun _ => ⟨fun _ h => by cases h; rfl, trivial⟩

theorem idle_addBlock (E : Env) (b : DerivativeBlock) : NodeIdle (Shared.addBlock E b) := by
  refine .bind idle_lock fun _ => .bind (idle_read _) fun h => ?_
  split
  · exact .bind idle_unlock fun _ => idle_lift _
  · refine .bind (idle_write _) fun _ => .bind (idle_write _) fun _ => ?_
    split
    · exact .bind (idle_write _) fun _ => idle_unlock
    · exact .bind idle_unlock fun _ => .bind (idle_lift _) fun _ => idle_pure _

theorem idle_findRawByHeight (k : U256) : NodeIdle (Shared.findRawByHeight k) := by
  refine .bind idle_readHeight fun _ => ?_
  split
  · exact idle_pure _
  · exact idle_read _

theorem idle_findRawByHash (q : Hash) : NodeIdle (Shared.findRawByHash q) := by
  refine .bind (idle_read _) fun r => ?_
  cases r with
  | none => exact idle_pure _
  | some v => exact .bind (idle_lift _) fun _ => idle_findRawByHeight _

theorem idle_last : NodeIdle Shared.getLastRawBlock := by
  refine .bind idle_readHeight fun _ => ?_
  split
  · exact idle_pure _
  · exact .bind (idle_lift _) fun _ => idle_findRawByHeight _

theorem idle_flush : NodeIdle Shared.flush := by
  unfold Shared.flush Shared.dumpConfig
  exact .bind (.bind (idle_write _) fun _ => .bind idle_readHeight fun _ => .bind (idle_write _) fun _ =>
    .bind (idle_read _) fun _ => .bind (idle_write _) fun _ => idle_write _) fun _ => .bind (idle_write _) fun _ =>
    idle_write _

end

section
variable (E : Env)

theorem main_base : mainSlot.Adds E (fun _ => True) (Shared.derivBase E) := by
  refine .bind (.bind (idle_last.adds E) fun _ => Slot.adds_lift E _) fun r => ?_
  cases r with
  | some b => exact .bind (Slot.adds_lift E _) fun _ => Slot.adds_pure E _
  | none =>
    refine .bind ((idle_read _).adds E) fun g =>
      .bind (.bind (adds_onNode_main (adds_lookup E (.byHash g))) fun _ => Slot.adds_lift E _) fun r => ?_
    cases r with
    | none => exact Slot.adds_lift E _
    | some b => exact Slot.adds_pure E _

theorem main_emit (pow : BytesN 32) (founder : Address) (ts : UInt64) :
    mainSlot.Adds E (fun _ => True) (Shared.emitDerivative E pow founder ts) := by
  refine .bind (main_base E) fun _ => .bind (Slot.adds_lift E _) fun _ => ?_
  split
  · exact Slot.adds_lift E _
  · exact .bind (Slot.adds_lift E _) fun _ => .bind ((idle_addBlock E _).adds E) fun _ => Slot.adds_pure E _

theorem main_call (k : Shared.Call) : mainSlot.Adds E (fun _ => True) (k.prog E) := by
  cases k with
  | node k => exact adds_onNode_main (adds_call E k)
  | addBlock b => exact .bind ((idle_addBlock E _).adds E) fun _ => Slot.adds_pure E _
  | flush => exact .bind (idle_flush.adds E) fun _ => Slot.adds_pure E _
  | byHeight h => exact (idle_findRawByHeight h).adds E
  | byHash h => exact (idle_findRawByHash h).adds E
  | last => exact idle_last.adds E
  | emit pow founder ts => exact .bind (main_emit E pow founder ts) fun _ => Slot.adds_pure E _

end

/-! ### The anchor stays -/

/-- The step leaves the anchor as it is. -/
def SameAnchor (s s' : Shared) : Prop := s'.deriv.data.genesisHash = s.deriv.data.genesisHash

section
variable {α : Type}

theorem anchor_onNode (p : Prog Node α) : Prog.Guar SameAnchor (onNode p) := by
  induction p with
  | done o => trivial
  | step next rest ih =>
    intro s s' hn
    refine ⟨?_, ih _⟩
    cases hx : next s.node with
    | none => simp [hx] at hn
    | some n =>
      simp only [hx, Option.map_some, Option.some.injEq] at hn
      subst hn
      rfl

theorem anchor_read (f : DerivativeChain → Outcome α) : Prog.Guar SameAnchor (Shared.read f) :=
  fun _ _ h => ⟨by cases h; rfl, trivial⟩
theorem anchor_write {f : DerivativeChain → DerivativeChain} (hf : ∀ d, (f d).genesisHash = d.genesisHash) :
    Prog.Guar SameAnchor (Shared.write f) := fun s _ h => ⟨by cases h; exact hf s.deriv.data, trivial⟩
theorem anchor_set (f : Chain → Chain) : Prog.Guar SameAnchor (Shared.write (Shared.setChain f)) :=
  anchor_write fun _ => rfl
theorem anchor_readHeight : Prog.Guar SameAnchor Shared.readHeight := fun _ _ h => ⟨by
    simp only [Option.ite_none_left_eq_some] at h
    cases h.2; rfl, trivial⟩
theorem anchor_lock : Prog.Guar SameAnchor Shared.lock := fun _ _ h => ⟨by
    simp only [Option.ite_none_left_eq_some] at h
    cases h.2; rfl, trivial⟩
theorem anchor_unlock : Prog.Guar SameAnchor Shared.unlock := fun _ _ h => ⟨by cases h; rfl, trivial⟩

theorem anchor_addBlock (E : Env) (b : DerivativeBlock) : Prog.Guar SameAnchor (Shared.addBlock E b) := by
  refine .bind anchor_lock fun _ => .bind (anchor_read _) fun h => ?_
  split
  · exact .bind anchor_unlock fun _ => Prog.guar_lift _
  · refine .bind (anchor_set _) fun _ => .bind (anchor_set _) fun _ => ?_
    split
    · exact .bind (anchor_set _) fun _ => anchor_unlock
    · exact .bind anchor_unlock fun _ => .bind (Prog.guar_lift _) fun _ => Prog.guar_pure _

theorem anchor_findRawByHeight (k : U256) : Prog.Guar SameAnchor (Shared.findRawByHeight k) := by
  refine .bind anchor_readHeight fun _ => ?_
  split
  · exact Prog.guar_pure _
  · exact anchor_read _

theorem anchor_findRawByHash (q : Hash) : Prog.Guar SameAnchor (Shared.findRawByHash q) := by
  refine .bind (anchor_read _) fun r => ?_
  cases r with
  | none => exact Prog.guar_pure _
  | some v => exact .bind (Prog.guar_lift _) fun _ => anchor_findRawByHeight _

theorem anchor_last : Prog.Guar SameAnchor Shared.getLastRawBlock := by
  refine .bind anchor_readHeight fun _ => ?_
  split
  · exact Prog.guar_pure _
  · exact .bind (Prog.guar_lift _) fun _ => anchor_findRawByHeight _

theorem anchor_flush : Prog.Guar SameAnchor Shared.flush := by
  unfold Shared.flush Shared.dumpConfig
  exact .bind (.bind (anchor_set _) fun _ => .bind anchor_readHeight fun _ => .bind (anchor_write fun _ => rfl) fun _ =>
    .bind (anchor_read _) fun _ => .bind (anchor_write fun _ => rfl) fun _ => anchor_write fun _ => rfl) fun _ =>
    .bind (anchor_set _) fun _ => anchor_set _

theorem anchor_emit (E : Env) (pow : BytesN 32) (founder : Address) (ts : UInt64) :
    Prog.Guar SameAnchor (Shared.emitDerivative E pow founder ts) := by
  refine .bind (.bind (.bind anchor_last fun _ => Prog.guar_lift _) fun r => ?_) fun _ => .bind (Prog.guar_lift _) fun _ => ?_
  · cases r with
    | some b => exact .bind (Prog.guar_lift _) fun _ => Prog.guar_pure _
    | none =>
      refine .bind (anchor_read _) fun g => .bind (.bind (anchor_onNode _) fun _ => Prog.guar_lift _) fun r => ?_
      cases r with
      | none => exact Prog.guar_lift _
      | some b => exact Prog.guar_pure _
  · split
    · exact Prog.guar_lift _
    · exact .bind (Prog.guar_lift _) fun _ => .bind (anchor_addBlock E _) fun _ => Prog.guar_pure _

theorem anchor_call (E : Env) (k : Shared.Call) : Prog.Guar SameAnchor (k.prog E) := by
  cases k with
  | node k => exact anchor_onNode _
  | addBlock b => exact .bind (anchor_addBlock E _) fun _ => Prog.guar_pure _
  | flush => exact .bind anchor_flush fun _ => Prog.guar_pure _
  | byHeight h => exact anchor_findRawByHeight h
  | byHash h => exact anchor_findRawByHash h
  | last => exact anchor_last
  | emit pow founder ts => exact .bind (anchor_emit E pow founder ts) fun _ => Prog.guar_pure _

end

/-! ### What the emitter saw -/

/-- The steps of a call on the node, seen in the larger state. -/
theorem hist_onNode {α : Type} {P : List (Node × Node) → Outcome α → Prop} {p : Prog Node α} :
    ∀ {hist : List (Node × Node)} {l : List (Shared × Shared)}, Prog.Hist (fun _ => True) P p hist →
    (∀ x ∈ hist, ∃ y ∈ l, y.1.node = x.1 ∧ y.2.node = x.2) →
    Prog.Hist (fun _ => True) (fun l o => ∃ l', P l' o ∧ ∀ x ∈ l', ∃ y ∈ l, y.1.node = x.1 ∧ y.2.node = x.2)
      (onNode p) l := by
  induction p with
  | done o => exact fun h hl => ⟨_, h, hl⟩
  | step next rest ih =>
    intro hist l h hl s s' _ hn
    cases hx : next s.node with
    | none => simp [hx] at hn
    | some n =>
      simp only [hx, Option.map_some, Option.some.injEq] at hn
      subst hn
      refine ⟨trivial, ih _ (h s.node n trivial hx).2 fun x hx => ?_⟩
      rcases List.mem_append.mp hx with hx | hx
      · obtain ⟨y, hy, e⟩ := hl x hx
        exact ⟨y, List.mem_append_left _ hy, e⟩
      · rw [List.mem_singleton.mp hx]
        exact ⟨_, List.mem_append_right _ (List.mem_singleton_self _), rfl, rfl⟩

/-- The last block was found in the derivative chain. -/
def DerivLast (l : List (Shared × Shared)) (b : DerivativeBlock) : Prop :=
  ∃ (s1 s2 : Shared) (i : U256) (raw : Bytes), s1.deriv.held = false ∧ (s1, s1) ∈ l ∧
    i.val + 1 = s1.deriv.data.chain.height.val ∧ (s2, s2) ∈ l ∧
    s2.deriv.data.chain.blocks.get i.toBE.val = some raw ∧ DerivativeChain.decode (some raw) = .ok (some b)

theorem hist_derivLast : Prog.Hist (fun _ => True) (IfOk fun l r => ∀ b, r = some b → DerivLast l b)
    Shared.getLastBlock [] := by
  have raw : Prog.Hist (fun _ => True) (IfOk fun l r => ∀ d, r = some d → ∃ (s1 s2 : Shared) (i : U256),
      s1.deriv.held = false ∧ (s1, s1) ∈ l ∧ i.val + 1 = s1.deriv.data.chain.height.val ∧ (s2, s2) ∈ l ∧
      s2.deriv.data.chain.blocks.get i.toBE.val = some d) Shared.getLastRawBlock [] := by
    intro s1 s1' _ hn
    simp only [Option.ite_none_left_eq_some] at hn
    obtain ⟨h1, h2⟩ := hn
    cases h2
    have h1 : s1.deriv.held = false := by simpa using h1
    refine ⟨trivial, ?_⟩
    change Prog.Hist _ _ (if s1.deriv.data.chain.height.val = 0 then _ else _) _
    split
    · intro a e
      cases e
      exact fun d e => by cases e
    · rename_i h0
      rw [lastIndex (h := s1.deriv.data.chain.height) (by omega)]
      intro n n' _ hn
      simp only [Option.ite_none_left_eq_some] at hn
      cases hn.2
      refine ⟨trivial, ?_⟩
      change Prog.Hist _ _ (if n.deriv.data.chain.height.val < _ then _ else _) _
      split
      · intro a e
        cases e
        exact fun d e => by cases e
      · intro s2 s2' _ hn
        cases hn
        refine ⟨trivial, fun a e d hd => ?_⟩
        cases e
        exact ⟨s1, s2, _, h1, by simp, by simp only; omega, by simp, hd⟩
  refine ifOk_bind raw fun l r h _ => ?_
  rintro a e b rfl
  cases r with
  | none => cases e
  | some d =>
    obtain ⟨s1, s2, i, a1, a2, a3, a4, a5⟩ := h d rfl
    exact ⟨s1, s2, i, d, a1, a2, a3, a4, a5, e⟩

/-- The steps of a lookup by hash that returned. -/
theorem hist_byHash (q : Hash) : Prog.Hist (fun _ => True) (IfOk fun l r => ∀ raw, r = some raw →
    ∃ (n1 n2 n3 : Node) (v : Bytes) (k : U256), (n1, n1) ∈ l ∧ (n2, n2) ∈ l ∧ (n3, n3) ∈ l ∧
      n1.data.main.chain.heightReference.get q.val = some v ∧ U256.fromBE v = .ok k ∧
      k.val ≤ n2.data.main.chain.height.val ∧ n3.data.main.chain.blocks.get k.toBE.val = some raw)
    (Node.findRawByHash q) [] := by
  intro n1 n1' _ hn
  cases hn
  refine ⟨trivial, ?_⟩
  change Prog.Hist _ _ (match n1.data.main.chain.heightReference.get q.val with
      | none => pure none
      | some h => Prog.lift (U256.fromBE h) >>= Node.findRawByHeight) _
  cases hg : n1.data.main.chain.heightReference.get q.val with
  | none => exact fun _ e raw h => by subst h; cases e
  | some v =>
    simp only
    refine ifOk_bind (ifOk_lift _ _) fun l k hk kl => ?_
    refine ((hist_findRawByHeight k _).keeps).mono fun l' o h r e raw hr => ?_
    subst hr e
    obtain ⟨⟨n2, _, ⟨_, _, e⟩ | ⟨n3, rfl, hle, e⟩⟩, hl⟩ := h
    · cases e
    · exact ⟨n1, n2, n3, v, k, hl _ (kl _ (by simp)), by simp, by simp, hg, hk, hle, (Outcome.ok.inj e).symm⟩

/-- The anchor was found in the main chain. -/
def AnchorFound (l : List (Shared × Shared)) (a : Block) : Prop :=
  ∃ (s0 s1 s2 : Shared) (x0 x1 x2 : Shared) (v : Bytes) (k : U256) (raw : Bytes), (s0, x0) ∈ l ∧ (s1, x1) ∈ l ∧ (s2, x2) ∈ l ∧
    s1.node.data.main.chain.heightReference.get s0.deriv.data.genesisHash.val = some v ∧ U256.fromBE v = .ok k ∧
    s2.node.data.main.chain.blocks.get k.toBE.val = some raw ∧ MainChain.decode (some raw) = .ok (some a) ∧
    ∃ s3 x3, (s3, x3) ∈ l ∧ k.val ≤ s3.node.data.main.chain.height.val

/-- The steps in which the emitter read what the new block is built on. -/
def BaseRead (E : Env) (l : List (Shared × Shared)) (r : Hash × Hash × UInt64 × U256) : Prop :=
  (∃ b : DerivativeBlock, DerivLast l b ∧ r.1 = b.hash E ∧ r.2.1 = b.defaultInfo.difficulty ∧
    r.2.2.1 = b.defaultInfo.timestamp ∧ r.2.2.2.val = b.defaultInfo.height.val + 1) ∨
  ∃ a : Block, AnchorFound l a ∧ r = (a.hash E, BEGINNING_DIFFICULTY, a.info.timestamp, U256.zero)

theorem hist_base (E : Env) : Prog.Hist (fun _ => True) (IfOk (BaseRead E)) (Shared.derivBase E) [] := by
  refine ifOk_bind hist_derivLast fun l1 last h1 _ => ?_
  cases last with
  | some b =>
    refine ifOk_bind (ifOk_lift _ _) fun l2 h h2 k2 => ?_
    intro r e
    cases e
    obtain ⟨s1, s2, i, raw, a1, a2, a3, a4, a5, a6⟩ := h1 b rfl
    refine .inl ⟨b, ⟨s1, s2, i, raw, a1, k2 _ a2, a3, k2 _ a4, a5, a6⟩, rfl, rfl, rfl, ?_⟩
    unfold U256.add at h2
    split at h2
    · cases h2; rfl
    · cases h2
  | none =>
    refine ifOk_bind (Q := fun l g => ∃ s0, (s0, s0) ∈ l ∧ g = s0.deriv.data.genesisHash) ?_ fun l2 g hg _ => ?_
    · intro s0 s0' _ hn
      cases hn
      refine ⟨trivial, fun g e => ?_⟩
      cases e
      exact ⟨s0, by simp, rfl⟩
    · obtain ⟨s0, hs0, rfl⟩ := hg
      refine ifOk_bind (Q := fun l r => ∀ a, r = some a → AnchorFound l a) ?_ fun l3 r hr _ => ?_
      · refine ifOk_bind (Q := fun l r => ∀ raw, r = some raw → ∃ (y1 y2 y3 : Shared × Shared) (v : Bytes) (k : U256),
          y1 ∈ l ∧ y2 ∈ l ∧ y3 ∈ l ∧ y1.1.node.data.main.chain.heightReference.get s0.deriv.data.genesisHash.val = some v ∧
          U256.fromBE v = .ok k ∧ k.val ≤ y2.1.node.data.main.chain.height.val ∧
          y3.1.node.data.main.chain.blocks.get k.toBE.val = some raw)
          ((hist_onNode (hist_byHash _) (fun x hx => by cases hx)).mono fun l o h r e raw hr => ?_)
          fun l3 r hr k3 => ?_
        · obtain ⟨l', h, hl⟩ := h
          obtain ⟨n1, n2, n3, v, k, a1, a2, a3, a4, a5, a6, a7⟩ := h r e raw hr
          obtain ⟨y1, m1, e1, _⟩ := hl _ a1
          obtain ⟨y2, m2, e2, _⟩ := hl _ a2
          obtain ⟨y3, m3, e3, _⟩ := hl _ a3
          exact ⟨y1, y2, y3, v, k, m1, m2, m3, by rw [e1]; exact a4, a5, by rw [e2]; exact a6, by rw [e3]; exact a7⟩
        · rintro o e a rfl
          cases r with
          | none => cases e
          | some raw =>
            obtain ⟨y1, y2, y3, v, k, m1, m2, m3, a4, a5, a6, a7⟩ := hr raw rfl
            exact ⟨s0, y1.1, y3.1, s0, y1.2, y3.2, v, k, raw, k3 _ hs0, m1, m3, a4, a5, a7, e, y2.1, y2.2, m2, a6⟩
      · cases r with
        | none => exact fun _ e => by cases e
        | some a =>
          intro r e
          cases e
          exact .inr ⟨a, hr a rfl, rfl⟩

/-- The steps `emmit_new_derivative_block` took when it returned `b`. -/
def DerivEmitted (E : Env) (pow : BytesN 32) (founder : Address) (ts : UInt64) (l : List (Shared × Shared))
    (b : DerivativeBlock) : Prop :=
  derivSlot.DidStore (.derivative b) l ∧ ∃ r, BaseRead E l r ∧ checkPow E r.1 r.2.1 [] pow.val = .ok true ∧
    recalculateDifficulty E r.2.2.1 ts r.2.1 = .ok b.defaultInfo.difficulty ∧ b.defaultInfo.previousHash = r.1 ∧
    b.defaultInfo.height = r.2.2.2 ∧ b.defaultInfo.timestamp = ts ∧ b.defaultInfo.pow = pow ∧
    b.defaultInfo.founder = founder

theorem baseRead_mono {E : Env} {l l' : List (Shared × Shared)} {r : Hash × Hash × UInt64 × U256}
    (h : BaseRead E l r) (hs : ∀ x ∈ l, x ∈ l') : BaseRead E l' r := by
  rcases h with ⟨b, ⟨s1, s2, i, raw, a1, a2, a3, a4, a5, a6⟩, h⟩ |
    ⟨a, ⟨s0, s1, s2, x0, x1, x2, v, k, raw, a0, a1, a2, a3, a4, a5, a6, s3, x3, a7, a8⟩, h⟩
  · exact .inl ⟨b, ⟨s1, s2, i, raw, a1, hs _ a2, a3, hs _ a4, a5, a6⟩, h⟩
  · exact .inr ⟨a, ⟨s0, s1, s2, x0, x1, x2, v, k, raw, hs _ a0, hs _ a1, hs _ a2, a3, a4, a5, a6, s3, x3, hs _ a7, a8⟩, h⟩

theorem hist_emitDeriv (E : Env) (pow : BytesN 32) (founder : Address) (ts : UInt64) :
    Prog.Hist (fun _ => True) (IfOk (DerivEmitted E pow founder ts)) (Shared.emitDerivative E pow founder ts) [] := by
  unfold Shared.emitDerivative
  refine ifOk_bind (hist_base E) fun l1 r h1 _ => ?_
  refine ifOk_bind (ifOk_lift _ _) fun l2 good h2 k2 => ?_
  cases good with
  | false => exact fun _ e => by cases e
  | true =>
    simp only [Bool.not_true, Bool.false_eq_true, if_false]
    refine ifOk_bind (ifOk_lift _ _) fun l3 difficulty h3 k3 => ?_
    rw [addBlock_slot]
    refine ifOk_bind (derivSlot.hist_addBlock E _ l3) fun l4 _ h4 k4 => ?_
    intro b e
    cases e
    exact ⟨h4, r, baseRead_mono h1 fun x hx => k4 x (k3 x (k2 x hx)), h2, h3, rfl, rfl, rfl, rfl, rfl⟩

variable {ι : Type}

/-- One thread (`none`) emits a derivative block and returns it; each other thread makes a call of its own. -/
def emitDerivAmid (E : Env) (pow : BytesN 32) (founder : Address) (ts : UInt64) (call : ι → Shared.Call) :
    Option ι → Prog Shared (Option DerivativeBlock)
  | none => do let b ← Shared.emitDerivative E pow founder ts; pure (some b)
  | some i => do let _ ← (call i).prog E; pure none

/-- What the new block must be built on: the block one below it in the derivative chain, or, at height zero, the main
block whose hash is the anchor. -/
def Follows (E : Env) (pow : BytesN 32) (ts : UInt64) (s : Shared) (b : DerivativeBlock) : Prop :=
  (∃ (a : DerivativeBlock) (k : U256), k.val + 1 = b.defaultInfo.height.val ∧ a.defaultInfo.height = k ∧
    s.deriv.data.chain.findRawByHeight k = some a.dump ∧
    b.defaultInfo.previousHash = E.sha256 a.dump ∧
    recalculateDifficulty E a.defaultInfo.timestamp ts a.defaultInfo.difficulty = .ok b.defaultInfo.difficulty ∧
    MeetsPow E (E.sha256 a.dump) a.defaultInfo.difficulty [] pow.val) ∨
  ∃ (a : Block) (k : U256), b.defaultInfo.height.val = 0 ∧ s.node.data.main.findRawByHeight k = some a.dump ∧
    MainChain.decode (some a.dump) = .ok (some a) ∧ a.info.height = k ∧
    E.sha256 a.dump = s.deriv.data.genesisHash ∧ b.defaultInfo.previousHash = s.deriv.data.genesisHash ∧
    recalculateDifficulty E a.info.timestamp ts BEGINNING_DIFFICULTY = .ok b.defaultInfo.difficulty ∧
    MeetsPow E s.deriv.data.genesisHash BEGINNING_DIFFICULTY [] pow.val

/-- C120. One thread emits a derivative block while any number of others add derivative blocks to the same chain, look
blocks up in it, flush it, emit, and make any calls on the node. Under every schedule, if the emission returned
a block, that block is from then on found at its height, and it follows the block one below it, or, as the first block, the main block
that the chain is anchored to. -/
theorem C120_derivative_amid_threads [DecidableEq ι] (E : Env) (s : Tree) (hr : Run E s) (o : Address) (pow : BytesN 32)
    (founder : Address) (ts : UInt64) (call : ι → Shared.Call) (log : List (Event (Option ι) Shared))
    (c : Config (Option ι) Shared (Option DerivativeBlock))
    (h : Exec ⟨⟨⟨s, false⟩, ⟨s.handle o, false⟩⟩, emitDerivAmid E pow founder ts call⟩ log c)
    (hm : s.main.getHeight.val + log.length + 1 < U256.size)
    (hd : (s.handle o).chain.height.val + log.length + 1 < U256.size)
    (b : DerivativeBlock) (ho : c.threads none = .done (.ok (some b))) :
    c.shared.deriv.data.chain.findRawByHeight b.defaultInfo.height = some b.dump ∧
    (s.handle o).chain.height.val ≤ b.defaultInfo.height.val ∧
    b.defaultInfo.height.val < c.shared.deriv.data.chain.height.val ∧
    c.shared.deriv.data.genesisHash = (s.handle o).genesisHash ∧
    b.defaultInfo.timestamp = ts ∧ b.defaultInfo.pow = pow ∧ b.defaultInfo.founder = founder ∧
    Follows E pow ts c.shared b := by
  obtain ⟨bs0, hb0⟩ := run_holds hr (by change s.main.getHeight.val + 1 < _; omega)
  obtain ⟨ds0, hd0⟩ := run_derivHolds hr o (by omega)
  have aP : ∀ i, derivSlot.Adds E IsDeriv (emitDerivAmid E pow founder ts call i) := fun i => by
    cases i with
    | none => exact .bind (deriv_emit E pow founder ts) fun _ => Slot.adds_pure E _
    | some i => exact .bind (deriv_call E (call i)) fun _ => Slot.adds_pure E _
  have mP : ∀ i, mainSlot.Adds E (fun _ => True) (emitDerivAmid E pow founder ts call i) := fun i => by
    cases i with
    | none => exact .bind (main_emit E pow founder ts) fun _ => Slot.adds_pure E _
    | some i => exact .bind (main_call E (call i)) fun _ => Slot.adds_pure E _
  have gP : ∀ i, Prog.Guar SameAnchor (emitDerivAmid E pow founder ts call i) := fun i => by
    cases i with
    | none => exact .bind (anchor_emit E pow founder ts) fun _ => Prog.guar_pure _
    | some i => exact .bind (anchor_call E (call i)) fun _ => Prog.guar_pure _
  obtain ⟨-, -, dev⟩ := Slot.exec_chain h (.inl ⟨rfl, ⟨_, hd0, fun x hx => by
    obtain ⟨d, _, rfl⟩ := List.mem_map.mp hx
    exact ⟨d, rfl⟩⟩, aP⟩) hd
  obtain ⟨-, -, mev⟩ := Slot.exec_chain h (.inl ⟨rfl, ⟨_, hb0, fun _ _ => trivial⟩, mP⟩) hm
  obtain ⟨gev, -⟩ := h.guar (R := fun _ => SameAnchor) gP
  obtain ⟨-, dso, -⟩ := h.sorted (R := fun a b => Above a.deriv.data.chain b.deriv.data.chain)
    (fun s => above_refl _) (fun _ _ _ => above_trans) (fun e he => (dev e he).2.2)
  obtain ⟨mall, mso, -⟩ := h.sorted (R := fun a b => Above a.node.data.main.chain b.node.data.main.chain)
    (fun s => above_refl _) (fun _ _ _ => above_trans) (fun e he => (mev e he).2.2)
  obtain ⟨gall, gso, -⟩ := h.sorted (R := SameAnchor) (fun _ => rfl) (fun _ _ _ h1 h2 => Eq.trans h2 h1) gev
  have hP : DerivEmitted E pow founder ts (ownSteps none log) b := by
    have := (h.hist (J := fun _ => True)
      (P := fun j l' o' => j = none → ∀ b, o' = .ok (some b) → DerivEmitted E pow founder ts l' b) trivial (fun j => by
      cases j with
      | none =>
        refine Prog.Hist.mono (P := IfOk fun l o => ∀ b, o = some b → DerivEmitted E pow founder ts l b)
          (fun l o h _ b e => h _ e b rfl) ?_
        refine ifOk_bind (hist_emitDeriv E pow founder ts) fun l b hb _ => ?_
        rintro o e b' rfl
        cases e
        exact hb
      | some j => exact (Prog.hist_true _ _).mono fun _ _ _ e => by cases e)).2.2 none
    rw [ho] at this
    exact this rfl b rfl
  obtain ⟨⟨n, m, m', hn, hnh, hmm, hst, q, q', hq, hqh⟩, r, hbase, hpow, hdif, hprev, hhei, ht, hp, hf⟩ := hP
  have dmem : ∀ n ∈ ownSteps none log, (n.1.deriv.held = false → ∃ bs, Slot.HoldsOf E IsDeriv n.1.deriv.data.chain bs) ∧
      Above (s.handle o).chain n.1.deriv.data.chain ∧ Above n.1.deriv.data.chain c.shared.deriv.data.chain ∧
      Above n.2.deriv.data.chain c.shared.deriv.data.chain := fun n hn =>
    have he := mem_ownSteps hn
    ⟨(dev _ he).2.1, (dso _ he).1, above_trans (dev _ he).2.2 (dso _ he).2, (dso _ he).2⟩
  have hqc : b.defaultInfo.height.val + 1 ≤ c.shared.deriv.data.chain.height.val := by
    have := (dmem _ hq).2.2.2.1
    have e : q'.deriv.data.chain.height.val = b.defaultInfo.height.val + 1 := hqh
    simp only [e] at this
    exact this
  have hsn : (s.handle o).chain.height.val ≤ b.defaultInfo.height.val := by
    have := (dmem _ hn).2.1.1
    have e : n.deriv.data.chain.height = b.defaultInfo.height := hnh
    simp only [e] at this
    exact this
  refine ⟨found_later (c := m'.deriv.data.chain) (by omega) (dmem _ hmm).2.2.2 hst, hsn, by omega, gall, ht, hp, hf, ?_⟩
  rcases hbase with ⟨a, ⟨s1, s2, i, raw, a1, a2, a3, a4, a5, a6⟩, r1, r2, r3, r4⟩ |
    ⟨a, ⟨s0, s1, s2, x0, x1, x2, v, k, raw, a0, a1, a2, a3, a4, a5, a6, s3, x3, a7, a8⟩, rfl⟩
  · left
    obtain ⟨bs, hbs⟩ := (dmem _ a2).1 a1
    have hlen := hbs.holds.len
    simp only at hlen
    have hib : i.val < bs.length := by omega
    have hstored := hbs.holds.stored i.val hib
    obtain ⟨d, hdd⟩ := hbs.all _ (List.getElem_mem hib)
    have hend : c.shared.deriv.data.chain.blocks.get i.toBE.val = some bs[i.val].dump := (dmem _ a2).2.2.1.2.1 _ _ hstored
    have hend' : c.shared.deriv.data.chain.blocks.get i.toBE.val = some raw := (dmem _ a4).2.2.1.2.1 _ _ a5
    have hrb : raw = d.dump := by rw [hend, hdd] at hend'; cases hend'; rfl
    subst hrb
    rw [decode_deriv] at a6
    have hda : d = a := by cases a6; rfl
    subst hda
    have hah : d.defaultInfo.height = i := U256.ext (by
      have := hbs.holds.heights i.val hib
      rw [hdd] at this
      exact this)
    rw [r1] at hpow hprev
    rw [r2] at hpow hdif
    rw [r3] at hdif
    have hbh : b.defaultInfo.height.val = i.val + 1 := by rw [hhei, r4, hah]
    exact ⟨d, i, hbh.symm, hah, found_later (c := s2.deriv.data.chain) (by omega) (dmem _ a4).2.2.1 a5, hprev, hdif,
      (checkPow_iff ..).mp hpow⟩
  · right
    have mmem : ∀ n ∈ ownSteps none log, Slot.Backed E (fun _ => True) n.1.node.data.main.chain ∧
        Above n.1.node.data.main.chain c.shared.node.data.main.chain := fun n hn =>
      have he := mem_ownSteps hn
      ⟨(mev _ he).1, above_trans (mev _ he).2.2 (mso _ he).2⟩
    have hg : s0.deriv.data.genesisHash = c.shared.deriv.data.genesisHash := by
      have := gso _ (mem_ownSteps a0)
      exact this.1.trans gall.symm
    obtain ⟨b0, -, hv, hb, hk⟩ := (mmem _ a1).1 _ _ a3
    have hkb : k = b0.info.height := by
      rw [hv, fromBE_toBE] at a4
      cases a4
      rfl
    subst hkb
    subst hv
    have e1 := (mmem _ a1).2.2.1 _ _ hb
    have e2 := (mmem _ a2).2.2.1 _ _ a5
    have hrb : raw = b0.dump := by rw [e1] at e2; cases e2; rfl
    have hgen : b0.info.height.val = 0 → raw = (genesis E).dump := by
      intro h0
      have g0 := hb0.stored 0 (by simp)
      have := mall.2.1 _ _ g0
      have e : b0.info.height.toBE.val = beBytes 32 0 := by rw [← h0]; rfl
      rw [e] at e2
      rw [this] at e2
      cases e2
      rfl
    have hda : raw = a.dump ∧ a.info.height = b0.info.height := by
      by_cases h0 : b0.info.height.val = 0
      · have e := hgen h0
        rw [e, decode_main (genesis E) trivial (.inr ⟨_, rfl⟩)] at a6
        cases a6
        exact ⟨e, U256.ext (by rw [h0]; rfl)⟩
      · rw [hrb] at a6
        cases b0 with
        | derivative d =>
          obtain ⟨e, he⟩ := C11_main_block_read_back_partial.2.1 d
          simp [MainChain.decode, Block.dump, he] at a6
        | transaction d =>
          rw [decode_main (.transaction d) trivial (.inl h0)] at a6
          cases a6
          exact ⟨hrb, rfl⟩
        | summarize d =>
          rw [decode_main (.summarize d) trivial (.inl h0)] at a6
          cases a6
          exact ⟨hrb, rfl⟩
    obtain ⟨rfl, hah⟩ := hda
    have hash : a.hash E = c.shared.deriv.data.genesisHash := by
      rw [← hg]
      refine Subtype.ext (Eq.trans ?_ hk.symm)
      change (E.sha256 a.dump).val = (E.sha256 b0.dump).val
      rw [hrb]
    simp only [hash] at hpow hprev
    have hle : b0.info.height.val ≤ c.shared.node.data.main.chain.height.val := a8.trans (mmem _ a7).2.1
    refine ⟨a, _, by rw [hhei]; rfl, found_later (c := s2.node.data.main.chain) hle (mmem _ a2).2 a5, a6, hah, hash, hprev,
      hdif, (checkPow_iff ..).mp hpow⟩

/-! ### Without interference the program is the sequential function -/

section
variable {α β : Type}

/-- Run alone, the program ends with `o` and changes nothing. -/
def Asks (p : Prog Shared α) (s : Shared) (o : Outcome α) : Prop := p.solo s = some (o, s)

theorem asks_bind {p : Prog Shared α} {f : α → Prog Shared β} {s : Shared} {o : Outcome α} {g : α → Outcome β}
    (h : Asks p s o) (hf : ∀ a, o = .ok a → Asks (f a) s (g a)) : Asks (p >>= f) s (o >>= g) := by
  unfold Asks at *
  rw [Prog.solo_bind, h]
  cases o with
  | ok a => exact hf a rfl
  | err e => rfl
  | panic p => rfl
  | ub => rfl

theorem asks_lift (o : Outcome α) (s : Shared) : Asks (.lift o) s o := rfl

theorem solo_onNode (p : Prog Node α) : ∀ s : Shared, (onNode p).solo s = (p.solo s.node).map
    fun r => (r.1, { s with node := r.2 }) := by
  induction p with
  | done o => exact fun s => rfl
  | step next rest ih =>
    intro s
    simp only [onNode, Prog.solo]
    cases next s.node with
    | none => rfl
    | some n => exact ih s.node { s with node := n }

theorem asks_raw (n : Node) (d : DerivativeChain) (i : U256) :
    Asks (Shared.findRawByHeight i) ⟨n, ⟨d, false⟩⟩ (.ok (d.chain.findRawByHeight i)) := by
  change Prog.solo (if d.chain.height.val < i.val then pure none else _) _ = _
  unfold Chain.findRawByHeight
  split <;> rfl

theorem asks_last (n : Node) (d : DerivativeChain) : Asks Shared.getLastBlock ⟨n, ⟨d, false⟩⟩ d.getLastBlock := by
  have raw : Asks Shared.getLastRawBlock ⟨n, ⟨d, false⟩⟩ d.getLastRawBlock := by
    change Prog.solo (if d.chain.height.val = 0 then pure none else _) _ = _
    unfold DerivativeChain.getLastRawBlock
    split
    · rfl
    · exact asks_bind (asks_lift _ _) fun i _ => asks_raw n d i
  exact asks_bind raw fun _ _ => asks_lift _ _

theorem asks_main (t : Tree) (d : Locked DerivativeChain) (q : Hash) :
    Asks (Shared.findMainByHash q) ⟨⟨t, false⟩, d⟩ (t.main.findByHash q) := by
  refine asks_bind (o := t.main.findRawByHash q) ?_ fun _ _ => asks_lift _ _
  unfold Asks
  rw [solo_onNode, Node.findRawByHash_impl q t]
  rfl

theorem asks_base (E : Env) (t : Tree) (d : DerivativeChain) :
    Asks (Shared.derivBase E) ⟨⟨t, false⟩, ⟨d, false⟩⟩ (d.getLastBlock >>= fun last => match last with
      | some block => do
        let h ← block.defaultInfo.height.add U256.one
        Outcome.ok (block.hash E, block.defaultInfo.difficulty, block.defaultInfo.timestamp, h)
      | none => do
        let found ← t.main.findByHash d.genesisHash
        match found with
        | none => Outcome.err .chainFindByHashE
        | some block => Outcome.ok (block.hash E, BEGINNING_DIFFICULTY, block.info.timestamp, U256.zero)) := by
  refine asks_bind (asks_last _ d) fun last _ => ?_
  cases last with
  | some b => exact asks_bind (asks_lift _ _) fun h _ => rfl
  | none =>
    refine asks_bind (asks_main t _ _) fun r _ => ?_
    cases r with
    | none => rfl
    | some b => rfl

/-- Without interference `addBlock` is the sequential `add_block`. -/
theorem derivAddBlock_alone (E : Env) (n : Node) (d : DerivativeChain) (b : DerivativeBlock) :
    (Shared.addBlock E b).solo ⟨n, ⟨d, false⟩⟩ =
      some ((DerivativeChain.addBlock E b d).out, ⟨n, ⟨(DerivativeChain.addBlock E b d).final, false⟩⟩) := by
  change Prog.solo _ _ = some
    (((Chain.addBlock E b.defaultInfo.height b.dump) d.chain).out,
     (⟨n, ⟨{ d with chain := ((Chain.addBlock E b.defaultInfo.height b.dump) d.chain).final }, false⟩⟩ : Shared))
  have hp : (Shared.addBlock E b).solo ⟨n, ⟨d, false⟩⟩ =
      (if b.defaultInfo.height ≠ d.chain.height then do
        Shared.unlock
        .lift (.err .chainAddingBlock)
      else do
        Shared.write (Shared.setChain fun s => { s with blocks := s.blocks.insert d.chain.height.toBE.val b.dump })
        Shared.write (Shared.setChain fun s =>
          { s with heightReference := s.heightReference.insert (E.sha256 b.dump).val d.chain.height.toBE.val })
        match d.chain.height.add U256.one with
        | .ok h' => do
          Shared.write (Shared.setChain fun s => { s with height := h' })
          Shared.unlock
        | o => do
          Shared.unlock
          let _ ← .lift o
          pure () : Prog Shared Unit).solo ⟨n, ⟨d, true⟩⟩ := rfl
  rw [hp]
  unfold Chain.addBlock
  simp only [Act.get_bind]
  split
  · rfl
  · simp only [Act.step_bind]
    cases h : d.chain.height.add U256.one with
    | ok h' => simp only [Act.lift_ok_bind]; rfl
    | err e => simp only [Act.lift_err_bind]; rfl
    | panic e => simp only [Act.lift_panic_bind]; rfl
    | ub => simp only [Act.lift_ub_bind]; rfl

/-- Without interference `emitDerivative` is the sequential `emmit_new_derivative_block` on an open chain; `u` is
the tree, of which only the main chain matters here. -/
theorem emitDerivative_alone (E : Env) (t u : Tree) (pow : BytesN 32) (f : Address) (ts : UInt64)
    (ho : (t.derivMem f).isSome) (hu : u.main = t.main) :
    ∃ o : Outcome DerivativeBlock, (Tree.emitDerivative E pow f ts t).out = (o >>= fun b => .ok (.derivative b)) ∧
      (Shared.emitDerivative E pow f ts).solo ⟨⟨u, false⟩, ⟨t.handle f, false⟩⟩ =
        some (o, ⟨⟨u, false⟩, ⟨(Tree.emitDerivative E pow f ts t).final.handle f, false⟩⟩) := by
  have hopen : Tree.emitDerivative E pow f ts t = (Act.lift (derivChecks E t pow f ts) >>= fun b =>
        Tree.onDeriv f (DerivativeChain.addBlock E b) >>= fun _ => pure (Block.derivative b)) t := by
    rw [emitDerivative_checks]
    unfold Tree.getDerivativeChain
    simp only [Act.bind_assoc', Act.get_bind, ho, if_true]
    rfl
  have hprog : Shared.emitDerivative E pow f ts = (Shared.derivBase E >>= fun r => Prog.lift (do
        let good ← checkPow E r.1 r.2.1 [] pow.val
        if !good then Outcome.err .treeWrongPow
        else do
          let difficulty ← recalculateDifficulty E r.2.2.1 ts r.2.1
          Outcome.ok (⟨{ timestamp := ts, pow, previousHash := r.1, height := r.2.2.2, difficulty, founder := f }⟩ : DerivativeBlock)))
      >>= fun b => Shared.addBlock E b >>= fun _ => pure b := by
    unfold Shared.emitDerivative
    rw [Prog.bind_assoc]
    congr 1
    funext r
    cases checkPow E r.1 r.2.1 [] pow.val with
    | ok good =>
      cases good with
      | false => rfl
      | true => cases recalculateDifficulty E r.2.2.1 ts r.2.1 <;> rfl
    | err e => rfl
    | panic e => rfl
    | ub => rfl
  have hask : Asks (Shared.derivBase E >>= fun r => Prog.lift (do
        let good ← checkPow E r.1 r.2.1 [] pow.val
        if !good then Outcome.err .treeWrongPow
        else do
          let difficulty ← recalculateDifficulty E r.2.2.1 ts r.2.1
          Outcome.ok (⟨{ timestamp := ts, pow, previousHash := r.1, height := r.2.2.2, difficulty, founder := f }⟩ : DerivativeBlock)))
      ⟨⟨u, false⟩, ⟨t.handle f, false⟩⟩ (derivChecks E t pow f ts) := by
    have := asks_bind (asks_base E u (t.handle f)) (fun r _ => asks_lift (do
        let good ← checkPow E r.1 r.2.1 [] pow.val
        if !good then Outcome.err .treeWrongPow
        else do
          let difficulty ← recalculateDifficulty E r.2.2.1 ts r.2.1
          Outcome.ok (⟨{ timestamp := ts, pow, previousHash := r.1, height := r.2.2.2, difficulty, founder := f }⟩ : DerivativeBlock)) _)
    refine Eq.trans this (congrArg (fun o => some (o, _)) ?_)
    unfold derivChecks
    rw [hu]
    cases (t.handle f).getLastBlock <;> rfl
  rw [hopen, hprog, Prog.solo_bind, hask]
  cases derivChecks E t pow f ts with
  | err e => exact ⟨.err e, rfl, rfl⟩
  | panic e => exact ⟨.panic e, rfl, rfl⟩
  | ub => exact ⟨.ub, rfl, rfl⟩
  | ok b =>
    simp only [Act.lift_ok_bind, Prog.solo_bind, derivAddBlock_alone]
    have hfin : (Tree.onDeriv f (DerivativeChain.addBlock E b) t).final.handle f =
        (DerivativeChain.addBlock E b (t.handle f)).final := Tree.handle_put_self f _ t
    have hout : (Tree.onDeriv f (DerivativeChain.addBlock E b) t).out =
        (DerivativeChain.addBlock E b (t.handle f)).out := rfl
    have hb : ∀ g : Unit → Act Tree Block, (Tree.onDeriv f (DerivativeChain.addBlock E b) >>= g) t =
        Act.bind (Tree.onDeriv f (DerivativeChain.addBlock E b)) g t := fun _ => rfl
    rw [hb]
    unfold Act.bind
    rw [hout]
    cases hx : (DerivativeChain.addBlock E b (t.handle f)).out with
    | ok a => exact ⟨.ok b, rfl, by rw [← hfin]; rfl⟩
    | err e => exact ⟨.err e, rfl, by rw [← hfin]⟩
    | panic e => exact ⟨.panic e, rfl, by rw [← hfin]⟩
    | ub => exact ⟨.ub, rfl, by rw [← hfin]⟩

end

/-! ### Number of steps -/

section
variable {α : Type}

theorem within_onNode {p : Prog Node α} : ∀ {n : Nat}, Within p n → Within (onNode p) n := by
  induction p with
  | done o => exact fun _ => trivial
  | step next rest ih =>
    intro n h
    cases n with
    | zero => exact h.elim
    | succ n => exact fun s => ih _ (h s.node)

theorem within_dread (f : DerivativeChain → Outcome α) : Within (Shared.read f) 1 := fun _ => trivial
theorem within_dwrite (f : DerivativeChain → DerivativeChain) : Within (Shared.write f) 1 := fun _ => trivial
theorem within_dunlock : Within Shared.unlock 1 := fun _ => trivial
theorem within_dreadHeight : Within Shared.readHeight 1 := fun _ => trivial

theorem within_dadd (E : Env) (b : DerivativeBlock) : Within (Shared.addBlock E b) 6 := by
  refine .bind (m := 1) (n := 5) (fun _ => .bind (m := 1) (n := 4) (fun h => ?_) (within_dread _)) (fun _ => trivial)
  split
  · exact Within.bind (m := 1) (n := 3) (fun _ => within_lift _ _) (fun _ => trivial)
  · refine .bind (m := 1) (n := 3) (fun _ => .bind (m := 1) (n := 2) (fun _ => ?_) (within_dwrite _)) (within_dwrite _)
    split
    · exact .bind (m := 1) (n := 1) (fun _ => within_dunlock) (within_dwrite _)
    · exact .bind (m := 1) (n := 1) (fun _ => .lifted fun _ => within_pure _ _) (fun _ => trivial)

theorem within_dbyHeight (k : U256) : Within (Shared.findRawByHeight k) 2 := by
  refine .bind (m := 1) (n := 1) (fun _ => ?_) within_dreadHeight
  split
  · exact within_pure _ _
  · exact within_dread _

theorem within_dbyHash (q : Hash) : Within (Shared.findRawByHash q) 3 := by
  refine .bind (m := 1) (n := 2) (fun r => ?_) (within_dread _)
  cases r with
  | none => exact within_pure _ _
  | some v => exact .lifted fun _ => within_dbyHeight _

theorem within_dlast : Within Shared.getLastRawBlock 3 := by
  refine .bind (m := 1) (n := 2) (fun _ => ?_) within_dreadHeight
  split
  · exact within_pure _ _
  · exact .lifted fun _ => within_dbyHeight _

theorem within_dflush : Within Shared.flush 8 :=
  .bind (m := 6) (n := 2) (fun _ => .bind (m := 1) (n := 1) (fun _ => within_dwrite _) (within_dwrite _))
    (.bind (m := 1) (n := 5) (fun _ => .bind (m := 1) (n := 4) (fun _ => .bind (m := 1) (n := 3) (fun _ =>
      .bind (m := 1) (n := 2) (fun _ => .bind (m := 1) (n := 1) (fun _ => within_dwrite _) (within_dwrite _))
        (within_dread _)) (within_dwrite _)) within_dreadHeight) (within_dwrite _))

theorem within_demit (E : Env) (pow : BytesN 32) (founder : Address) (ts : UInt64) :
    Within (Shared.emitDerivative E pow founder ts) 13 := by
  refine .bind (m := 7) (n := 6) (fun _ => .lifted fun _ => ?_) (.bind (m := 3) (n := 4) (fun r => ?_)
    (.bind (m := 3) (n := 0) (fun _ => within_lift _ _) within_dlast))
  · split
    · exact within_lift _ _
    · exact .lifted fun _ => .bind (m := 6) (n := 0) (fun _ => within_pure _ _) (within_dadd E _)
  · cases r with
    | some b => exact .lifted fun _ => within_pure _ _
    | none =>
      refine .bind (m := 1) (n := 3) (fun g => .bind (m := 3) (n := 0) (fun r => ?_)
        (.bind (m := 3) (n := 0) (fun _ => within_lift _ _) (within_onNode (within_lookup (.byHash g))))) (within_dread _)
      cases r with
      | none => exact within_lift _ _
      | some b => exact within_pure _ _

theorem within_dcall (E : Env) (k : Shared.Call) : Within (k.prog E) 27 := by
  cases k with
  | node k => exact within_onNode (within_call E k)
  | addBlock b => exact (Within.bind (n := 0) (fun _ => within_pure _ _) (within_dadd E b)).mono (by omega)
  | flush => exact (Within.bind (n := 0) (fun _ => within_pure _ _) within_dflush).mono (by omega)
  | byHeight h => exact (within_dbyHeight h).mono (by omega)
  | byHash h => exact (within_dbyHash h).mono (by omega)
  | last => exact within_dlast.mono (by omega)
  | emit pow f ts => exact (Within.bind (n := 0) (fun _ => within_pure _ _) (within_demit E pow f ts)).mono (by omega)

end

/-- Two emissions, one after the other, as a schedule. -/
theorem deriv_then_deriv (E : Env) (s : Tree) (p p' : BytesN 32) (f : Address) (ts ts' : UInt64) (b b' : DerivativeBlock)
    (ho : (s.derivMem f).isSome) (ho' : ((Tree.emitDerivative E p f ts s).final.derivMem f).isSome)
    (h : (Tree.emitDerivative E p f ts s).out = .ok (.derivative b))
    (h' : (Tree.emitDerivative E p' f ts' (Tree.emitDerivative E p f ts s).final).out = .ok (.derivative b')) :
    ∃ log c, Exec ⟨⟨⟨s, false⟩, ⟨s.handle f, false⟩⟩, emitDerivAmid E p' f ts' (fun _ : Unit => .emit p f ts)⟩ log c ∧
      log.length ≤ 54 ∧ c.threads none = .done (.ok (some b')) := by
  have out : ∀ {o : Outcome DerivativeBlock} {b : DerivativeBlock},
      Outcome.ok (Block.derivative b) = (o >>= fun b => .ok (.derivative b)) → o = .ok b := by
    intro o b e
    cases o with
    | ok x => cases e; rfl
    | err _ => cases e
    | panic _ => cases e
    | ub => cases e
  obtain ⟨o1, e1, r1⟩ := emitDerivative_alone E s s p f ts ho rfl
  obtain ⟨o2, e2, r2⟩ := emitDerivative_alone E _ s p' f ts' ho' (emitDerivative_frame E s p f ts).1.symm
  rw [out (h.symm.trans e1)] at r1
  rw [out (h'.symm.trans e2)] at r2
  have x0 : Exec ⟨⟨⟨s, false⟩, ⟨s.handle f, false⟩⟩, emitDerivAmid E p' f ts' (fun _ : Unit => .emit p f ts)⟩ [] _ := .refl
  obtain ⟨l1, x1⟩ := x0.go (some ()) rfl (((Prog.runs_of_solo r1).bind fun b => pure (some b.dump)).bind fun _ => pure none)
  obtain ⟨l2, x2⟩ := x1.go none (by rw [Function.update_of_ne (by simp)]; rfl)
    ((Prog.runs_of_solo r2).bind fun b => pure (some b))
  refine ⟨_, _, x2, ?_, by simp; rfl⟩
  have hw := fun i => (exec_within x2 (m := 27) (fun i => by
    cases i with
    | none => exact (Within.bind (n := 0) (fun _ => within_pure _ _) (within_demit E p' f ts')).mono (by omega)
    | some _ => exact .bind (n := 0) (fun _ => within_pure _ _) (within_dcall E (.emit p f ts))) i).1
  rw [length_eq_sum]
  refine (Finset.sum_le_card_nsmul _ _ 27 fun i _ => hw i).trans ?_
  simp

/-- A derivative chain just opened, without blocks. -/
def derivOpened : Tree := ((Op.getDerivativeChain (BytesN.fill 33 4)).run zeroEnv (openTree zeroEnv Disk.empty).final).final

theorem derivAt {o : Outcome Block} {k : Nat}
    (h : (match o with | .ok (.derivative b) => decide (b.defaultInfo.height.val = k) | _ => false) = true) :
    ∃ b, o = .ok (.derivative b) ∧ b.defaultInfo.height.val = k := by
  split at h
  · exact ⟨_, rfl, of_decide_eq_true h⟩
  · cases h

/-- The hypotheses of `C120_derivative_amid_threads` are met: two threads emit, one after the other, and the block of
the second follows the first block of the chain. -/
example : ∃ s log c b, Run zeroEnv s ∧
    Exec ⟨⟨⟨s, false⟩, ⟨s.handle (BytesN.fill 33 4), false⟩⟩, emitDerivAmid zeroEnv (BytesN.fill 32 0) (BytesN.fill 33 4)
      1597925402 (fun _ : Unit => .emit (BytesN.fill 32 0) (BytesN.fill 33 4) 1597925400)⟩ log c ∧
    s.main.getHeight.val + log.length + 1 < U256.size ∧
    (s.handle (BytesN.fill 33 4)).chain.height.val + log.length + 1 < U256.size ∧
    c.threads none = .done (.ok (some b)) ∧ b.defaultInfo.height.val = 1 := by
  obtain ⟨b1, h1, _⟩ := derivAt (o := (Tree.emitDerivative zeroEnv (BytesN.fill 32 0) (BytesN.fill 33 4) 1597925400
    derivOpened).out) (k := 0) (by decide +kernel)
  obtain ⟨b2, h2, g2⟩ := derivAt (o := (Tree.emitDerivative zeroEnv (BytesN.fill 32 0) (BytesN.fill 33 4) 1597925402
    (Tree.emitDerivative zeroEnv (BytesN.fill 32 0) (BytesN.fill 33 4) 1597925400 derivOpened).final).out) (k := 1)
    (by decide +kernel)
  obtain ⟨log, c, x, hl, ho⟩ := deriv_then_deriv zeroEnv derivOpened _ _ _ _ _ b1 b2 (by decide +kernel)
    (by decide +kernel) h1 h2
  refine ⟨derivOpened, log, c, b2, .call _ _ .fresh trivial, x, ?_, ?_, ho, g2⟩
  · have : derivOpened.main.getHeight.val = 1 := by decide +kernel
    rw [this]
    unfold U256.size
    omega
  · have : (derivOpened.handle (BytesN.fill 33 4)).chain.height.val = 0 := by decide +kernel
    rw [this]
    unfold U256.size
    omega

end Props
end BCT
