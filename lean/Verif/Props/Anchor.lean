import Verif.Props.Frame
import Verif.Props.Crash
import Verif.Lemmas.EmitDeriv
/-!
# C117, C118: the anchor of a derivative chain
-/

namespace BCT.Props
open BCT

/-- Moments that can occur after a given one, with crashes and restarts. -/
inductive Since (E : Env) (m : Moment) : Moment → Prop where
  | here : Since E m m
  | opening (d : Disk) (t : Tree) : Since E m (.down d) → t ∈ (openTree E d).trace → Since E m (.busy t)
  | opened (d : Disk) : Since E m (.down d) → (openTree E d).out = .ok () → Since E m (.idle (openTree E d).final)
  | running (s t : Tree) (op : Op) : Since E m (.idle s) → t ∈ (op.run E s).trace → Since E m (.busy t)
  | call (s : Tree) (op : Op) : Since E m (.idle s) → Since E m (.idle (op.run E s).final)
  | crashIdle (s : Tree) (d : Disk) : Since E m (.idle s) → Crash s d → Since E m (.down d)
  | crashBusy (s : Tree) (d : Disk) : Since E m (.busy s) → Crash s d → Since E m (.down d)

/-- The anchor of an owner's derivative chain, while it is open: the hash its first block has to point at. -/
def anchor (s : Tree) (o : Address) : Option Hash := (s.derivMem o).map (·.genesisHash)

/-- C117 at full strength. -/
def C117_full : Prop := ∀ (E : Env) (s t : Tree) (o : Address) (g h : Hash), Life E (.idle s) → anchor s o = some g →
  Since E (.idle s) (.idle t) → anchor t o = some h → h = g

/-! ### What calls do to an anchor -/

/-- `P` holds at the end of the call and at every moment in between. -/
def Throughout (P : Tree → Prop) {α : Type} (r : Res Tree α) : Prop := P r.final ∧ ∀ t ∈ r.trace, P t

theorem throughout_bind {α β : Type} {P G : Tree → Prop} {x : Act Tree α} {f : α → Act Tree β} {s : Tree}
    (hx : Throughout P (x s)) (hg : ∀ a, (x s).out = .ok a → G (x s).final)
    (hf : ∀ a t, P t → G t → Throughout P (f a t)) : Throughout P ((x >>= f) s) := by
  rcases Act.bind_cases x f s with ⟨a, h1, h2, h3, _⟩ | ⟨_, h2, h3, _⟩
  · have := hf a _ hx.1 (hg a h1)
    refine ⟨by rw [h2]; exact this.1, fun t ht => ?_⟩
    rw [h3] at ht
    rcases List.mem_append.mp ht with h | h
    · exact hx.2 t h
    · exact this.2 t h
  · exact ⟨by rw [h2]; exact hx.1, by rw [h3]; exact hx.2⟩

/-- The derivative chain of `o` is open. -/
def IsOpen (o : Address) (s : Tree) : Prop := (s.derivMem o).isSome

theorem getDeriv_open {E : Env} {o : Address} {s : Tree} {a : Unit} (h : (Tree.getDerivativeChain E o s).out = .ok a) :
    IsOpen o (Tree.getDerivativeChain E o s).final := by
  rcases Tree.getDeriv_cases E o s with ⟨hm, e⟩ | ⟨hm, ⟨out, ho, e⟩ | ⟨b, c, _, hc, e⟩⟩
  · rw [e]; exact hm
  · rw [e] at h; exact absurd h (ho a)
  · rw [e]; simp [IsOpen, Tree.putHandle]

/-- Either the chain of `o` is not open or it is anchored at `g`; and if its config file exists and is complete, it has
that anchor. -/
structure AnchoredAt (o : Address) (g : Hash) (s : Tree) : Prop where
  mem : ∀ m, s.derivMem o = some m → m.genesisHash = g
  file : ∀ f, (s.derivFiles (hexEncode o.val)).config = some f → 96 ≤ f.length → (f.drop 64).take 32 = g.val

/-- … and it is open, or the file exists. -/
def Held (o : Address) (g : Hash) (s : Tree) : Prop :=
  AnchoredAt o g s ∧ (IsOpen o s ∨ (s.derivFiles (hexEncode o.val)).config.isSome)

theorem settled_same {o : Address} {g : Hash} {s t : Tree} (h1 : Part.Same (.derivConfig o) s t)
    (h2 : Part.Same (.derivState o) s t) (h : Held o g s) : Held o g t := by
  have h1 : (t.derivFiles (hexEncode o.val)).config = (s.derivFiles (hexEncode o.val)).config := h1
  have h2 : t.derivMem o = s.derivMem o := h2
  exact ⟨⟨by rw [h2]; exact h.1.mem, by rw [h1]; exact h.1.file⟩, by unfold IsOpen; rw [h1, h2]; exact h.2⟩

theorem settled_put {o : Address} {g : Hash} {c : DerivativeChain} (s : Tree) (h1 : c.genesisHash = g)
    (h2 : ∀ f, c.chain.config = some f → 96 ≤ f.length → (f.drop 64).take 32 = g.val) :
    Held o g (Tree.putHandle o c s) := by
  refine ⟨⟨fun m hm => ?_, fun f hf => ?_⟩, .inl ?_⟩
  · simp only [Tree.putHandle, if_pos] at hm
    cases hm
    exact h1
  · simp only [Tree.putHandle, if_pos] at hf
    exact h2 f hf
  · simp [IsOpen, Tree.putHandle]

theorem settled_handle {o : Address} {g : Hash} {s : Tree} (h : Held o g s) (ho : IsOpen o s) :
    (s.handle o).genesisHash = g ∧
    ∀ f, (s.handle o).chain.config = some f → 96 ≤ f.length → (f.drop 64).take 32 = g.val := by
  refine ⟨?_, h.1.file⟩
  obtain ⟨m, hm⟩ := Option.isSome_iff_exists.mp ho
  show ((s.derivMem o).getD _).genesisHash = g
  rw [hm]
  exact h.1.mem m hm

theorem settled_getDeriv (E : Env) {o : Address} {g : Hash} {s : Tree} (h : Held o g s) :
    Throughout (Held o g) (Tree.getDerivativeChain E o s) := by
  rcases Tree.getDeriv_cases E o s with ⟨_, e⟩ | ⟨hm, ⟨out, _, e⟩ | ⟨b, c, _, hc, e⟩⟩
  · rw [e]; exact ⟨h, by simp⟩
  · rw [e]; exact ⟨h, by simp⟩
  · have : Held o g (Tree.putHandle o c s) := by
      unfold DerivativeChain.new at hc
      have hf : (s.derivFiles (hexEncode o.val)).config.isSome := by
        rcases h.2 with h | h
        · unfold IsOpen at h; rw [hm] at h; cases h
        · exact h
      obtain ⟨f, hf⟩ := Option.isSome_iff_exists.mp hf
      rw [hf] at hc
      unfold DerivativeChain.readConfig at hc
      simp only at hc
      split at hc
      · split at hc
        · split at hc
          · rename_i h32 _ h96
            have : U256.fromBE (f.take 32) = .ok ⟨beNat (f.take 32), beNat_lt_size _ (by rw [List.length_take]; omega)⟩ := by
              unfold U256.fromBE; rw [dif_pos (by rw [List.length_take]; omega)]
            rw [this] at hc
            simp only [Outcome.ok_bind] at hc
            cases hc
            refine settled_put s (Subtype.ext (h.1.file f hf h96)) fun f' hf' hl => ?_
            exact h.1.file f' (hf.trans hf') hl
          · cases hc
        · cases hc
      · cases hc
    rw [e]
    exact ⟨this, by simpa using this⟩

theorem settled_derivAdd (E : Env) {o : Address} {g : Hash} {s : Tree} (b : DerivativeBlock) (h : Held o g s)
    (ho : IsOpen o s) : Throughout (Held o g) (Tree.onDeriv o (DerivativeChain.addBlock E b) s) := by
  have key : Act.Rel (fun c d : Chain => d.config = c.config) (Chain.addBlock E b.defaultInfo.height b.dump) :=
    Chain.addBlock_rel (R := fun c d : Chain => d.config = c.config) E (fun _ => rfl) _ _ (fun _ _ => rfl)
      (fun _ _ => rfl) (fun _ _ _ => rfl)
  have key2 := DerivativeChain.addBlock_rel (Q := fun m n : DerivativeChain => n.chain.config = m.chain.config ∧
    n.genesisHash = m.genesisHash) key (fun m c h => ⟨h, rfl⟩)
  obtain ⟨h1, h2⟩ := settled_handle h ho
  have := Act.rel_zoom (part := fun t : Tree => t.handle o) (put := Tree.putHandle o)
    (Q := fun a b => a = s → Held o g b) key2 (fun t m hm e => by
      subst e
      exact settled_put t (hm.2.trans h1) fun f hf => h2 f (hm.1 ▸ hf)) s
  exact ⟨this.1 rfl, fun t ht => this.2 t ht rfl⟩

theorem settled_derivFlush {o : Address} {g : Hash} {s : Tree} (h : Held o g s) (ho : IsOpen o s) :
    Throughout (Held o g) (Tree.onDeriv o DerivativeChain.flush s) := by
  obtain ⟨h1, h2⟩ := settled_handle h ho
  have P : Act.PreOrd (fun m n : DerivativeChain => m.genesisHash = g → n.genesisHash = g ∧
      ((∀ f, m.chain.config = some f → 96 ≤ f.length → (f.drop 64).take 32 = g.val) →
        ∀ f, n.chain.config = some f → 96 ≤ f.length → (f.drop 64).take 32 = g.val)) :=
    ⟨fun _ h => ⟨h, id⟩, fun h1 h2 e => ⟨(h2 (h1 e).1).1, fun k => (h2 (h1 e).1).2 ((h1 e).2 k)⟩⟩
  have C := Act.rel_closed P
  have key : Act.Rel (fun m n : DerivativeChain => m.genesisHash = g → n.genesisHash = g ∧
      ((∀ f, m.chain.config = some f → 96 ≤ f.length → (f.drop 64).take 32 = g.val) →
        ∀ f, n.chain.config = some f → 96 ≤ f.length → (f.drop 64).take 32 = g.val)) DerivativeChain.flush := by
    unfold DerivativeChain.flush DerivativeChain.dumpConfig DerivativeChain.writeConfig
    refine C.bind (C.bind (Act.rel_step fun m e => ⟨e, fun _ f hf hl => ?_⟩) fun _ =>
      C.bind (Act.rel_step fun m e => ⟨e, fun _ f hf hl => ?_⟩) fun _ =>
      C.bind (Act.rel_step fun m e => ⟨e, fun _ f hf hl => ?_⟩) fun _ => Act.rel_step fun m e => ⟨e, fun _ f hf hl => ?_⟩) fun _ =>
      C.bind (Act.rel_step fun m e => ⟨e, id⟩) fun _ => Act.rel_step fun m e => ⟨e, id⟩
    · cases hf; simp at hl
    · cases hf; rw [m.chain.height.toBE.property] at hl; omega
    · cases hf; rw [List.length_append, m.chain.height.toBE.property, m.chain.difficulty.property] at hl; omega
    · cases hf
      rw [List.drop_left' (by rw [List.length_append, m.chain.height.toBE.property, m.chain.difficulty.property]),
        ← e]
      exact List.take_of_length_le (Nat.le_of_eq m.genesisHash.property)
  have := Act.rel_zoom (part := fun t : Tree => t.handle o) (put := Tree.putHandle o)
    (Q := fun a b => a = s → Held o g b) key (fun t m hm e => by
      subst e
      exact settled_put t (hm h1).1 ((hm h1).2 h2)) s
  exact ⟨this.1 rfl, fun t ht => this.2 t ht rfl⟩

theorem throughout_emit {E : Env} {P : Tree → Prop} {t : Tree} {pow : BytesN 32} {o : Address} {ts : UInt64}
    (h : ∀ b, Throughout P (Tree.onDeriv o (DerivativeChain.addBlock E b) t)) (hp : P t) :
    Throughout P ((Act.get >>= fun t => Act.lift (derivChecks E t pow o ts) >>= fun b =>
      Tree.onDeriv o (DerivativeChain.addBlock E b) >>= fun _ => pure (Block.derivative b)) t) := by
  rw [Act.get_bind]
  cases derivChecks E t pow o ts with
  | ok b =>
    rw [Act.lift_ok_bind]
    exact throughout_bind (G := fun _ => True) (h b) (fun _ _ => trivial) fun _ u hu _ => ⟨hu, fun _ h => absurd h (List.not_mem_nil)⟩
  | err e => exact ⟨hp, fun _ h => absurd h (by simp)⟩
  | panic e => exact ⟨hp, fun _ h => absurd h (by simp)⟩
  | ub => exact ⟨hp, fun _ h => absurd h (by simp)⟩

theorem settled_op (E : Env) {o : Address} {g : Hash} {s : Tree} (op : Op) (h : Held o g s) :
    Throughout (Held o g) (op.run E s) := by
  by_cases hf : mayChange op (.derivConfig o) ∨ mayChange op (.derivState o)
  · cases op
    case emitDerivative pow f ts =>
      obtain rfl : o = f := by simpa [mayChange] using hf
      suffices Throughout (Held o g) (Tree.emitDerivative E pow o ts s) by
        show Throughout (Held o g) (Act.void (Tree.emitDerivative E pow o ts) s)
        rw [Act.void_run]; exact this
      rw [emitDerivative_checks]
      exact throughout_bind (settled_getDeriv E h) (fun _ => getDeriv_open) fun _ t ht ho =>
        throughout_emit (fun b => settled_derivAdd E b ht ho) ht
    case getDerivativeChain o' =>
      obtain rfl : o = o' := by simpa [mayChange] using hf
      exact settled_getDeriv E h
    case derivAddBlock o' b =>
      obtain rfl : o = o' := by simpa [mayChange] using hf
      exact throughout_bind (settled_getDeriv E h) (fun _ => getDeriv_open) fun _ t ht ho => settled_derivAdd E b ht ho
    case derivFlush o' =>
      obtain rfl : o = o' := by simpa [mayChange] using hf
      exact throughout_bind (settled_getDeriv E h) (fun _ => getDeriv_open) fun _ t ht ho => settled_derivFlush ht ho
    all_goals simp [mayChange] at hf
  · have hf := not_or.mp hf
    have f1 := C104_frame E op _ hf.1 s
    have f2 := C104_frame E op _ hf.2 s
    exact ⟨settled_same f1.1 f2.1 h, fun t ht => settled_same (f1.2 t ht) (f2.2 t ht) h⟩

/-- Nothing was ever recorded, or there is an anchor. -/
def MaybeHeld (o : Address) (s : Tree) : Prop :=
  (s.derivMem o = none ∧ (s.derivFiles (hexEncode o.val)).config = none) ∨ ∃ g, Held o g s

theorem maybe_getDeriv (E : Env) {o : Address} {s : Tree} (h : MaybeHeld o s) :
    Throughout (MaybeHeld o) (Tree.getDerivativeChain E o s) := by
  rcases h with ⟨hm, hf⟩ | ⟨g, h⟩
  · rcases Tree.getDeriv_cases E o s with ⟨_, e⟩ | ⟨_, ⟨out, _, e⟩ | ⟨b, c, _, hc, e⟩⟩
    · rw [e]; exact ⟨.inl ⟨hm, hf⟩, by simp⟩
    · rw [e]; exact ⟨.inl ⟨hm, hf⟩, by simp⟩
    · have : MaybeHeld o (Tree.putHandle o c s) := by
        rw [hf] at hc
        cases hc
        exact .inr ⟨_, settled_put s rfl fun f hf => by cases hf⟩
      rw [e]
      exact ⟨this, by simpa using this⟩
  · have := settled_getDeriv E h
    exact ⟨.inr ⟨g, this.1⟩, fun t ht => .inr ⟨g, this.2 t ht⟩⟩

theorem maybe_op (E : Env) {o : Address} {s : Tree} (op : Op) (h : MaybeHeld o s) :
    Throughout (MaybeHeld o) (op.run E s) := by
  have up : ∀ {α : Type} {r : Res Tree α} {g : Hash}, Throughout (Held o g) r → Throughout (MaybeHeld o) r :=
    fun h => ⟨.inr ⟨_, h.1⟩, fun t ht => .inr ⟨_, h.2 t ht⟩⟩
  have get : ∀ {t : Tree}, MaybeHeld o t → IsOpen o t → ∃ g, Held o g t := by
    intro t h ho
    rcases h with ⟨hm, _⟩ | h
    · unfold IsOpen at ho; rw [hm] at ho; cases ho
    · exact h
  by_cases hf : mayChange op (.derivConfig o) ∨ mayChange op (.derivState o)
  · cases op
    case emitDerivative pow f ts =>
      obtain rfl : o = f := by simpa [mayChange] using hf
      suffices Throughout (MaybeHeld o) (Tree.emitDerivative E pow o ts s) by
        show Throughout (MaybeHeld o) (Act.void (Tree.emitDerivative E pow o ts) s)
        rw [Act.void_run]; exact this
      rw [emitDerivative_checks]
      refine throughout_bind (maybe_getDeriv E h) (fun _ => getDeriv_open) fun _ t ht ho => ?_
      obtain ⟨g, hg⟩ := get ht ho
      exact throughout_emit (fun b => up (settled_derivAdd E b hg ho)) ht
    case getDerivativeChain o' =>
      obtain rfl : o = o' := by simpa [mayChange] using hf
      exact maybe_getDeriv E h
    case derivAddBlock o' b =>
      obtain rfl : o = o' := by simpa [mayChange] using hf
      refine throughout_bind (maybe_getDeriv E h) (fun _ => getDeriv_open) fun _ t ht ho => ?_
      obtain ⟨g, hg⟩ := get ht ho
      exact up (settled_derivAdd E b hg ho)
    case derivFlush o' =>
      obtain rfl : o = o' := by simpa [mayChange] using hf
      refine throughout_bind (maybe_getDeriv E h) (fun _ => getDeriv_open) fun _ t ht ho => ?_
      obtain ⟨g, hg⟩ := get ht ho
      exact up (settled_derivFlush hg ho)
    all_goals simp [mayChange] at hf
  · have hf := not_or.mp hf
    have f1 := C104_frame E op _ hf.1 s
    have f2 := C104_frame E op _ hf.2 s
    have same : ∀ t : Tree, Part.Same (.derivConfig o) s t → Part.Same (.derivState o) s t → MaybeHeld o t := by
      intro t h1 h2
      rcases h with ⟨hm, hc⟩ | ⟨g, h⟩
      · exact .inl ⟨Eq.trans h2 hm, Eq.trans h1 hc⟩
      · exact .inr ⟨g, settled_same h1 h2 h⟩
    exact ⟨same _ f1.1 f2.1, fun t ht => same t (f1.2 t ht) (f2.2 t ht)⟩

theorem open_op (E : Env) {o : Address} {s : Tree} (op : Op) (h : IsOpen o s) : IsOpen o (op.run E s).final := by
  by_cases hf : mayChange op (.derivState o)
  · have g : Throughout (IsOpen o) (Tree.getDerivativeChain E o s) := by
      rcases Tree.getDeriv_cases E o s with ⟨_, e⟩ | ⟨hm, _⟩
      · rw [e]; exact ⟨h, by simp⟩
      · unfold IsOpen at h; rw [hm] at h; cases h
    have d : ∀ {α : Type} (x : Act DerivativeChain α) (t : Tree), Throughout (IsOpen o) (Tree.onDeriv o x t) := by
      intro α x t
      have := Act.rel_zoom (part := fun t : Tree => t.handle o) (put := Tree.putHandle o) (x := x)
        (R := fun _ _ => True) (Q := fun _ b => IsOpen o b) (fun _ => ⟨trivial, fun _ _ => trivial⟩)
        (fun t m _ => by simp [IsOpen, Tree.putHandle]) t
      exact this
    cases op
    case emitDerivative pow f ts =>
      obtain rfl : o = f := by simpa [mayChange] using hf
      show IsOpen o (Act.void (Tree.emitDerivative E pow o ts) s).final
      rw [Act.void_run]
      show IsOpen o (Tree.emitDerivative E pow o ts s).final
      rw [emitDerivative_checks]
      exact (throughout_bind (G := fun _ => True) g (fun _ _ => trivial) fun _ t ht _ =>
        throughout_emit (fun b => d _ t) ht).1
    case getDerivativeChain o' =>
      obtain rfl : o = o' := by simpa [mayChange] using hf
      exact g.1
    case derivAddBlock o' b =>
      obtain rfl : o = o' := by simpa [mayChange] using hf
      exact (throughout_bind (G := fun _ => True) g (fun _ _ => trivial) fun _ t ht _ => d _ t).1
    case derivFlush o' =>
      obtain rfl : o = o' := by simpa [mayChange] using hf
      exact (throughout_bind (G := fun _ => True) g (fun _ _ => trivial) fun _ t ht _ => d _ t).1
    all_goals simp [mayChange] at hf
  · have : ((op.run E s).final).derivMem o = s.derivMem o := (C104_frame E op _ hf s).1
    unfold IsOpen; rw [this]; exact h

/-! ### Restarts -/

theorem opening_deriv {E : Env} {d : Disk} {t : Tree} (h : t ∈ (openTree E d).trace ∨ t = (openTree E d).final) :
    t.derivFiles = d.boot.derivFiles ∧ t.derivMem = fun _ => none := by
  have P : Act.PreOrd (fun s t : Tree => t.derivFiles = s.derivFiles ∧ (s.derivMem = (fun _ => none) → t.derivMem = fun _ => none)) :=
    ⟨fun _ => ⟨rfl, id⟩, fun h1 h2 => ⟨h2.1.trans h1.1, fun h => h2.2 (h1.2 h)⟩⟩
  have C := Act.rel_closed P
  have key : Act.Rel (fun s t : Tree => t.derivFiles = s.derivFiles ∧ (s.derivMem = (fun _ => none) → t.derivMem = fun _ => none))
      (Tree.new E) := by
    unfold Tree.new
    refine C.bind (Act.rel_step fun _ => ⟨rfl, fun _ => rfl⟩) fun _ => C.bind ?_ fun _ => C.bind C.get fun t => ?_
    · exact Act.rel_zoom (R := fun _ _ => True) (fun _ => ⟨trivial, fun _ _ => trivial⟩) fun _ _ _ => ⟨rfl, id⟩
    · split
      · exact Act.rel_zoom (R := fun _ _ => True) (fun _ => ⟨trivial, fun _ _ => trivial⟩) fun _ _ _ => ⟨rfl, id⟩
      · exact C.pure _
  have k := key d.boot
  rcases h with h | rfl
  · exact ⟨(k.2 t h).1, (k.2 t h).2 rfl⟩
  · exact ⟨k.1.1, k.1.2 rfl⟩

/-- The config file of the chain in a directory. -/
def fileOf (o : Address) (d : Disk) : Option Bytes := (d.deriv (hexEncode o.val)).config

theorem crash_file {o : Address} {t : Tree} {d : Disk} (h : Crash t d) :
    fileOf o d = (t.derivFiles (hexEncode o.val)).config := (h.deriv _).2.2

theorem reopened {E : Env} {o : Address} {d : Disk} {t : Tree} (h : t ∈ (openTree E d).trace ∨ t = (openTree E d).final) :
    t.derivMem o = none ∧ (t.derivFiles (hexEncode o.val)).config = fileOf o d := by
  obtain ⟨h1, h2⟩ := opening_deriv h
  exact ⟨by rw [h2], by rw [h1]; rfl⟩

theorem life_maybe {E : Env} (o : Address) {m : Moment} (h : Life E m) :
    match m with
    | .idle t => MaybeHeld o t
    | .busy t => MaybeHeld o t
    | .down d => fileOf o d = none ∨ ∃ g : Hash, ∀ f, fileOf o d = some f → 96 ≤ f.length → (f.drop 64).take 32 = g.val := by
  have re : ∀ (d : Disk) (t : Tree), (t ∈ (openTree E d).trace ∨ t = (openTree E d).final) → (fileOf o d = none ∨
      ∃ g : Hash, ∀ f, fileOf o d = some f → 96 ≤ f.length → (f.drop 64).take 32 = g.val) → MaybeHeld o t := by
    intro d t ht hd
    obtain ⟨h1, h2⟩ := reopened (o := o) ht
    rcases hd with hd | ⟨g, hd⟩
    · exact .inl ⟨h1, h2.trans hd⟩
    · cases hf : fileOf o d with
      | none => exact .inl ⟨h1, h2.trans hf⟩
      | some f => exact .inr ⟨g, ⟨fun m hm => (by rw [h1] at hm; cases hm), by rw [h2]; exact hd⟩, .inr (by rw [h2, hf]; rfl)⟩
  have cr : ∀ (t : Tree) (d : Disk), MaybeHeld o t → Crash t d → (fileOf o d = none ∨
      ∃ g : Hash, ∀ f, fileOf o d = some f → 96 ≤ f.length → (f.drop 64).take 32 = g.val) := by
    intro t d ht hc
    rw [crash_file hc]
    rcases ht with ht | ⟨g, ht⟩
    · exact .inl ht.2
    · exact .inr ⟨g, ht.1.file⟩
  induction h with
  | start => exact .inl rfl
  | opening d t _ ht ih => exact re d t (.inl ht) ih
  | opened d _ _ ih => exact re d _ (.inr rfl) ih
  | running s t op _ ht ih => exact (maybe_op E op ih).2 t ht
  | call s op _ ih => exact (maybe_op E op ih).1
  | crashIdle s d _ hc ih => exact cr s d ih hc
  | crashBusy s d _ hc ih => exact cr s d ih hc

theorem file_op (E : Env) {o : Address} {s : Tree} (op : Op) (h : (s.derivFiles (hexEncode o.val)).config.isSome) :
    Throughout (fun t => (t.derivFiles (hexEncode o.val)).config.isSome) (op.run E s) := by
  by_cases hf : mayChange op (.derivConfig o)
  · cases op
    case derivFlush o' =>
      obtain rfl : o = o' := by simpa [mayChange] using hf
      have gd := C104_frame E (.getDerivativeChain o) (.derivConfig o) (by simp [mayChange]) s
      have g : Throughout (fun t => (t.derivFiles (hexEncode o.val)).config.isSome) (Tree.getDerivativeChain E o s) :=
        ⟨(congrArg Option.isSome gd.1).trans h, fun t ht => (congrArg Option.isSome (gd.2 t ht)).trans h⟩
      refine throughout_bind (G := fun _ => True) g (fun _ _ => trivial) fun _ t ht _ => ?_
      have P : Act.PreOrd (fun m n : DerivativeChain => m.chain.config.isSome = true → n.chain.config.isSome = true) :=
        ⟨fun _ h => h, fun h1 h2 h => h2 (h1 h)⟩
      have C := Act.rel_closed P
      have key : Act.Rel (fun m n : DerivativeChain => m.chain.config.isSome = true → n.chain.config.isSome = true)
          DerivativeChain.flush := by
        unfold DerivativeChain.flush DerivativeChain.dumpConfig DerivativeChain.writeConfig
        exact C.bind (C.bind (Act.rel_step fun m _ => rfl) fun _ => C.bind (Act.rel_step fun m _ => rfl) fun _ =>
          C.bind (Act.rel_step fun m _ => rfl) fun _ => Act.rel_step fun m _ => rfl) fun _ =>
          C.bind (Act.rel_step fun m e => e) fun _ => Act.rel_step fun m e => e
      have := Act.rel_zoom (part := fun t : Tree => t.handle o) (put := Tree.putHandle o)
        (Q := fun a b => (a.derivFiles (hexEncode o.val)).config.isSome = true → (b.derivFiles (hexEncode o.val)).config.isSome = true)
        key (fun t m hm e => by simpa [Tree.putHandle] using hm e) t
      exact ⟨this.1 ht, fun u hu => this.2 u hu ht⟩
    all_goals simp [mayChange] at hf
  · have f := C104_frame E op _ hf s
    exact ⟨(congrArg Option.isSome f.1).trans h, fun t ht => (congrArg Option.isSome (f.2 t ht)).trans h⟩

theorem since_settled {E : Env} {o : Address} {g : Hash} {s : Tree} (hs : Held o g s)
    (hf : (s.derivFiles (hexEncode o.val)).config.isSome) {m : Moment} (h : Since E (.idle s) m) :
    match m with
    | .idle t => Held o g t ∧ (t.derivFiles (hexEncode o.val)).config.isSome
    | .busy t => Held o g t ∧ (t.derivFiles (hexEncode o.val)).config.isSome
    | .down d => (fileOf o d).isSome ∧ ∀ f, fileOf o d = some f → 96 ≤ f.length → (f.drop 64).take 32 = g.val := by
  have re : ∀ (d : Disk) (t : Tree), (t ∈ (openTree E d).trace ∨ t = (openTree E d).final) → ((fileOf o d).isSome ∧
      ∀ f, fileOf o d = some f → 96 ≤ f.length → (f.drop 64).take 32 = g.val) →
      Held o g t ∧ (t.derivFiles (hexEncode o.val)).config.isSome := by
    intro d t ht hd
    obtain ⟨h1, h2⟩ := reopened (o := o) ht
    have h3 : (t.derivFiles (hexEncode o.val)).config.isSome := by rw [h2]; exact hd.1
    exact ⟨⟨⟨fun m hm => (by rw [h1] at hm; cases hm), by rw [h2]; exact hd.2⟩, .inr h3⟩, h3⟩
  induction h with
  | here => exact ⟨hs, hf⟩
  | opening d t _ ht ih => exact re d t (.inl ht) ih
  | opened d _ _ ih => exact re d _ (.inr rfl) ih
  | running s t op _ ht ih => exact ⟨(settled_op E op ih.1).2 t ht, (file_op E op ih.2).2 t ht⟩
  | call s op _ ih => exact ⟨(settled_op E op ih.1).1, (file_op E op ih.2).1⟩
  | crashIdle s d _ hc ih => exact ⟨by rw [crash_file hc]; exact ih.2, by rw [crash_file hc]; exact ih.1.1.file⟩
  | crashBusy s d _ hc ih => exact ⟨by rw [crash_file hc]; exact ih.2, by rw [crash_file hc]; exact ih.1.1.file⟩

theorem anchor_settled {E : Env} {s : Tree} {o : Address} {g : Hash} (hl : Life E (.idle s)) (h : anchor s o = some g) :
    Held o g s ∧ IsOpen o s := by
  obtain ⟨m, hm, hg⟩ := Option.map_eq_some_iff.mp h
  have ho : IsOpen o s := by unfold IsOpen; rw [hm]; rfl
  rcases life_maybe o hl with ⟨hn, _⟩ | ⟨g', hs⟩
  · rw [hm] at hn; cases hn
  · have : g' = g := (hs.1.mem m hm).symm.trans hg
    exact ⟨this ▸ hs, ho⟩

/-- The hash of the main chain's last block when the chain is first opened becomes the anchor. -/
theorem C117_first_opened (E : Env) (s : Tree) (o : Address) (b : Block) (hm : s.derivMem o = none)
    (hf : (s.derivFiles (hexEncode o.val)).config = none) (hb : s.main.getLastBlock = .ok (some b)) :
    ((Op.getDerivativeChain o).run E s).out = .ok () ∧
    anchor ((Op.getDerivativeChain o).run E s).final o = some (E.sha256 b.dump) := by
  have := getDeriv_new (E := E) (c := ⟨⟨(s.derivFiles (hexEncode o.val)).blocks,
    (s.derivFiles (hexEncode o.val)).heightReference, U256.zero, BEGINNING_DIFFICULTY, none⟩, b.hash E⟩) hm hb
    (by rw [hf]; rfl)
  show (Tree.getDerivativeChain E o s).out = _ ∧ anchor (Tree.getDerivativeChain E o s).final o = _
  rw [this]
  refine ⟨rfl, ?_⟩
  simp [anchor, Tree.putHandle]
  rfl

/-- C117 as long as the node runs, whatever happened to it before. (Missing: restarts.) -/
theorem C117_running_partial (E : Env) (s t : Tree) (o : Address) (g : Hash) (hl : Life E (.idle s)) (h : anchor s o = some g)
    (ht : Later E s t) : anchor t o = some g := by
  obtain ⟨hs, ho⟩ := anchor_settled hl h
  have : Held o g t ∧ IsOpen o t := by
    clear h hl
    induction ht with
    | refl => exact ⟨hs, ho⟩
    | call s' op _ ih => exact ⟨(settled_op E op ih.1).1, open_op E op ih.2⟩
  obtain ⟨m, hm⟩ := Option.isSome_iff_exists.mp this.2
  exact Option.map_eq_some_iff.mpr ⟨m, hm, this.1.1.mem m hm⟩

/-- C117 once the chain has a config file, that is, once a flush of it has begun: no crash, restart or call ever changes
the anchor after that. (Missing: chains never flushed.) -/
theorem C117_flushed_partial (E : Env) (s t : Tree) (o : Address) (g h : Hash) (hl : Life E (.idle s))
    (hg : anchor s o = some g) (hf : (s.derivFiles (hexEncode o.val)).config.isSome) (ht : Since E (.idle s) (.idle t))
    (hh : anchor t o = some h) : h = g := by
  obtain ⟨hs, _⟩ := anchor_settled hl hg
  obtain ⟨m, hm, e⟩ := Option.map_eq_some_iff.mp hh
  exact e.symm.trans ((since_settled hs hf ht).1.1.mem m hm)

/-! ### Nodes that lose their anchor -/

theorem fresh_last (E : Env) : (openTree E Disk.empty).final.main.getLastBlock = .ok (some (genesis E)) := by
  rw [(openTree_fresh E).2]
  have hb := bootChain_holds E BEGINNING_DIFFICULTY none
  unfold MainChain.getLastBlock MainChain.getLastRawBlock MainChain.findRawByHeight
  rw [lastIndex (Nat.le_refl 1)]
  simp only [Outcome.ok_bind]
  rw [hb.findRaw]
  exact decode_main (genesis E) trivial (.inr ⟨_, rfl⟩)

theorem getDeriv_main (E : Env) (s : Tree) (o : Address) : (Tree.getDerivativeChain E o s).final.main = s.main := by
  rcases Tree.getDeriv_cases E o s with ⟨_, e⟩ | ⟨_, ⟨_, _, e⟩ | ⟨_, _, _, _, e⟩⟩ <;> rw [e] <;> rfl

/-- Closing and opening a node whose main chain was never flushed. -/
theorem reopen_unflushed {E : Env} {s : Tree} (hl : Life E (.idle s)) (hc : s.main.chain.config = none) :
    ∃ t, t = (openTree E s.close).final ∧ Life E (.idle t) ∧ Since E (.idle s) (.idle t) ∧
      t.main.chain = bootChain E (Db.open' s.main.chain.blocks.cur) (Db.open' s.main.chain.heightReference.cur)
        BEGINNING_DIFFICULTY none ∧
      (∀ o, t.derivMem o = none) ∧
      ∀ o : Address, (t.derivFiles (hexEncode o.val)).blocks.cur = (s.derivFiles (hexEncode o.val)).blocks.cur ∧
        (t.derivFiles (hexEncode o.val)).heightReference.cur = (s.derivFiles (hexEncode o.val)).heightReference.cur ∧
        (t.derivFiles (hexEncode o.val)).config = (s.derivFiles (hexEncode o.val)).config := by
  have c1 : MainChain.readConfig s.close.config = .ok (U256.zero, BEGINNING_DIFFICULTY) := by
    show MainChain.readConfig s.main.chain.config = _
    rw [hc]; rfl
  obtain ⟨o3, f3⟩ := openTree_zero (E := E) c1
  refine ⟨_, rfl, .opened _ (.crashIdle s _ hl (close_is_crash E s hl)) o3,
    .opened _ (.crashIdle s _ .here (close_is_crash E s hl)) o3, ?_, fun o => ?_, fun o => ?_⟩
  · rw [f3]
    show bootChain E _ _ _ s.main.chain.config = _
    rw [hc]; rfl
  · rw [f3]; rfl
  · rw [f3]; exact ⟨rfl, rfl, rfl⟩

/-- Adding a first block above genesis. -/
theorem add_first (E : Env) (t : Tree) (b : Block) (hb : b.info.height = U256.one) (hm : b.IsMain)
    (e1 : t.main.chain.height = U256.one) :
    ((Op.addBlock b).run E t).final.main.getLastBlock = .ok (some b) := by
  obtain ⟨_, f4⟩ := add_ok E t b (by rw [e1]; exact hb) (by rw [e1]; decide)
  rw [f4]
  unfold MainChain.getLastBlock MainChain.getLastRawBlock MainChain.findRawByHeight
  rw [lastIndex (by show 1 ≤ t.main.chain.height.val + 1; omega), Outcome.ok_bind]
  have : (t.main.chain.put3 E b.dump ⟨t.main.chain.height.val + 1, by rw [e1]; decide⟩).findRawByHeight
      ⟨t.main.chain.height.val + 1 - 1, by have := t.main.chain.height.lt; omega⟩ = some b.dump := by
    unfold Chain.findRawByHeight
    rw [if_neg (by simp only [Chain.put3, e1]; decide)]
    show (Db.insert _ _ _).get _ = _
    rw [Db.get_insert, if_pos]
    exact congrArg (fun x : U256 => x.toBE.val) (U256.ext (by simp))
  show MainChain.decode ((t.main.chain.put3 E b.dump ⟨t.main.chain.height.val + 1, by rw [e1]; decide⟩).findRawByHeight
      ⟨t.main.chain.height.val + 1 - 1, by have := t.main.chain.height.lt; omega⟩) = _
  rw [this]
  exact decode_main b hm (.inl (by rw [hb]; decide))

theorem threeEnv_distinct : nextBlock.hash threeEnv ≠ nextBlock'.hash threeEnv ∧
    nextBlock.hash threeEnv ≠ (genesis threeEnv).hash threeEnv := by
  have g : (genesis threeEnv).dump ≠ nextBlock.dump ∧ (genesis threeEnv).dump ≠ nextBlock'.dump ∧
      nextBlock'.dump ≠ nextBlock.dump := by
    refine ⟨fun e => ?_, fun e => ?_, fun e => ?_⟩
    · cases Block.dump_inj e
    · cases Block.dump_inj e
    · have := congrArg (fun b : Block => b.info.timestamp) (Block.dump_inj e)
      revert this
      decide
  refine ⟨by simp only [Block.hash, threeEnv]; rw [if_pos trivial, if_neg g.2.2, if_pos trivial]; decide, ?_⟩
  have : (genesis threeEnv).hash threeEnv = BytesN.fill 32 0 := by
    show threeEnv.sha256 _ = _
    obtain ⟨d, hd⟩ : ∃ d, d = (genesis threeEnv).dump := ⟨_, rfl⟩
    rw [← hd] at g ⊢
    simp only [threeEnv]
    rw [if_neg g.1, if_neg g.2.1]
  rw [this]
  simp only [Block.hash, threeEnv]; rw [if_pos trivial]; decide

/-- C117 is false of the code. A derivative chain is opened on a fresh node: its anchor is the genesis block. The node is
closed, with nothing lost; opened again, it adds a block to the main chain and opens the derivative chain again: its
anchor is now that block. -/
theorem C117_refuted :
    (∀ (E : Env) (a : Block) (o : Address), a.info.height = U256.one → a.IsMain →
      ∃ s t, Life E (.idle s) ∧ Since E (.idle s) (.idle t) ∧ anchor s o = some ((genesis E).hash E) ∧
        anchor t o = some (a.hash E)) ∧
    ¬ C117_full := by
  have key : ∀ (E : Env) (a : Block) (o : Address), a.info.height = U256.one → a.IsMain →
      ∃ s t, Life E (.idle s) ∧ Since E (.idle s) (.idle t) ∧ anchor s o = some ((genesis E).hash E) ∧
        anchor t o = some (a.hash E) := by
    intro E a o ha hm
    obtain ⟨z, hz⟩ : ∃ z, z = (openTree E Disk.empty).final := ⟨_, rfl⟩
    have zl : Life E (.idle z) := by rw [hz]; exact life_fresh E
    have zlast : z.main.getLastBlock = .ok (some (genesis E)) := by rw [hz]; exact fresh_last E
    have zm : z.derivMem o = none := by rw [hz, (openTree_fresh E).2]; rfl
    have zf : (z.derivFiles (hexEncode o.val)).config = none := by rw [hz, (openTree_fresh E).2]; rfl
    have zc : z.main.chain.config = none := by rw [hz, (openTree_fresh E).2]; rfl
    obtain ⟨_, s2⟩ := C117_first_opened E z o _ zm zf zlast
    obtain ⟨s, hs⟩ : ∃ s, s = ((Op.getDerivativeChain o).run E z).final := ⟨_, rfl⟩
    rw [← hs] at s2
    have sl : Life E (.idle s) := by rw [hs]; exact .call z _ zl
    have smain : s.main = z.main := by rw [hs]; exact getDeriv_main E z o
    have sf : (s.derivFiles (hexEncode o.val)).config = none :=
      (by rw [hs]; exact (C104_frame E (.getDerivativeChain o) (.derivConfig o) (by simp [mayChange]) z).1.trans zf)
    obtain ⟨t, _, tl, ts, tmain, tm, tf⟩ := reopen_unflushed sl (by rw [smain]; exact zc)
    have t1 : t.main.chain.height = U256.one := by rw [tmain]; rfl
    have hlast := add_first E t a ha hm t1
    obtain ⟨u, hu⟩ : ∃ u, u = ((Op.addBlock a).run E t).final := ⟨_, rfl⟩
    rw [← hu] at hlast
    have um : u.derivMem o = none := by
      rw [hu]; exact (C104_frame E (.addBlock a) (.derivState o) (by simp [mayChange]) t).1.trans (tm o)
    have uf : (u.derivFiles (hexEncode o.val)).config = none := by
      rw [hu]
      exact (C104_frame E (.addBlock a) (.derivConfig o) (by simp [mayChange]) t).1.trans ((tf o).2.2.trans sf)
    exact ⟨s, _, sl, .call u (.getDerivativeChain o) (by rw [hu]; exact .call t _ ts), s2,
      (C117_first_opened E u o a um uf hlast).2⟩
  refine ⟨key, fun hf => ?_⟩
  obtain ⟨s, t, h1, h2, h3, h4⟩ := key threeEnv nextBlock ROOT_PUBLIC_ADDRESS rfl trivial
  exact threeEnv_distinct.2 (hf threeEnv s t _ _ _ h1 h3 h2 h4)

/-- Opening and flushing a derivative chain that has no directory yet. -/
theorem flush_new {E : Env} {z : Tree} {o : Address} {b : Block} (zm : z.derivMem o = none)
    (zf : z.derivFiles (hexEncode o.val) = DerivFiles.fresh) (zlast : z.main.getLastBlock = .ok (some b)) :
    ((Op.derivFlush o).run E z).out = .ok () ∧ ((Op.derivFlush o).run E z).final = Tree.putHandle o
      (DerivativeChain.flushed ⟨⟨Db.open' KV.empty, Db.open' KV.empty, U256.zero, BEGINNING_DIFFICULTY, none⟩, b.hash E⟩)
      (Tree.putHandle o ⟨⟨Db.open' KV.empty, Db.open' KV.empty, U256.zero, BEGINNING_DIFFICULTY, none⟩, b.hash E⟩ z) := by
  have hn := DerivativeChain.new_fresh (b.hash E)
  rw [← zf] at hn
  have hg := getDeriv_new (E := E) zm zlast hn
  have e : (Op.derivFlush o).run E z = (Tree.getDerivativeChain E o >>= fun _ => Tree.onDeriv o DerivativeChain.flush) z := rfl
  rw [e, Act.bind_ok hg]
  unfold Tree.onDeriv
  rw [Act.zoom_run, Tree.handle_put_self]
  simp only
  rw [(DerivativeChain.flush_run _).2, (DerivativeChain.flush_run _).1]
  exact ⟨rfl, rfl⟩

/-- A node as in `C117_flushed_partial`. -/
example (E : Env) (o : Address) : ∃ s, Life E (.idle s) ∧ anchor s o = some ((genesis E).hash E) ∧
    (s.derivFiles (hexEncode o.val)).config.isSome := by
  obtain ⟨_, h2⟩ := flush_new (E := E) (z := (openTree E Disk.empty).final) (o := o)
    (by rw [(openTree_fresh E).2]; rfl) (by rw [(openTree_fresh E).2]; rfl) (fresh_last E)
  refine ⟨_, .call _ (.derivFlush o) (life_fresh E), ?_, ?_⟩
  · rw [h2]; simp [anchor, Tree.putHandle, DerivativeChain.flushed]
  · rw [h2]; simp [Tree.putHandle, DerivativeChain.flushed]

/-! ## C118 -/

/-- C118 at full strength: when the first block of a derivative chain is emitted, it points at the chain's anchor. -/
def C118_full : Prop := ∀ (E : Env) (s : Tree) (pow : BytesN 32) (o : Address) (ts : UInt64) (d : DerivativeBlock),
  Life E (.idle s) → (Tree.emitDerivative E pow o ts s).out = .ok (.derivative d) → d.defaultInfo.height.val = 0 →
  anchor (Tree.emitDerivative E pow o ts s).final o = some d.defaultInfo.previousHash

/-- The block found by a hash has that hash. -/
theorem found_hash {E : Env} {m : MainChain} {bs : List Block} (h : Chain.Holds E m.chain (genesis E :: bs))
    {q : Hash} {b : Block} (hf : m.findByHash q = .ok (some b)) : b.hash E = q := by
  unfold MainChain.findByHash MainChain.findRawByHash at hf
  rcases h.findByHash q with ⟨i, hi, hq, e⟩ | ⟨_, e⟩
  · rw [e, Outcome.ok_bind] at hf
    cases hb : (genesis E :: bs)[i] with
    | derivative d =>
      rw [hb] at hf
      obtain ⟨e', he'⟩ := C11_main_block_read_back_partial.2.1 d
      simp [MainChain.decode, Block.dump, he'] at hf
    | transaction t =>
      have hm : (genesis E :: bs)[i].IsMain := by rw [hb]; trivial
      have hz : i ≠ 0 := by rintro rfl; cases hb
      rw [decode_main _ hm (.inl (by rw [h.heights i hi]; exact hz))] at hf
      cases hf; exact hq
    | summarize t =>
      have hm : (genesis E :: bs)[i].IsMain := by rw [hb]; trivial
      rw [decode_main _ hm (.inr ⟨t, hb⟩)] at hf
      cases hf; exact hq
  · rw [e, Outcome.ok_bind] at hf
    simp [MainChain.decode] at hf

theorem bind_ok_inv {α β : Type} {x : Outcome α} {f : α → Outcome β} {b : β} (h : (x >>= f) = .ok b) :
    ∃ a, x = .ok a ∧ f a = .ok b := by
  cases x with
  | ok a => exact ⟨a, rfl, h⟩
  | err e => cases h
  | panic e => cases h
  | ub => cases h

/-- A first block is built on the block that the anchor finds. -/
theorem first_checks {E : Env} {t : Tree} {pow : BytesN 32} {o : Address} {ts : UInt64} {d : DerivativeBlock}
    (h : derivChecks E t pow o ts = .ok d) (h0 : d.defaultInfo.height.val = 0) :
    ∃ b, t.main.findByHash (t.handle o).genesisHash = .ok (some b) ∧ d.defaultInfo.previousHash = b.hash E := by
  unfold derivChecks at h
  obtain ⟨last, h1, h⟩ := bind_ok_inv h
  obtain ⟨r, h2, h⟩ := bind_ok_inv h
  obtain ⟨good, h3, h⟩ := bind_ok_inv h
  cases good with
  | false => simp at h
  | true =>
    simp only [Bool.not_true, Bool.false_eq_true, if_false] at h
    obtain ⟨df, h4, h⟩ := bind_ok_inv h
    cases h
    cases last with
    | some block =>
      obtain ⟨k, hk, h2⟩ := bind_ok_inv h2
      cases h2
      unfold U256.add at hk
      split at hk
      · cases hk; simp [U256.one] at h0
      · cases hk
    | none =>
      obtain ⟨found, hf, h2⟩ := bind_ok_inv h2
      cases found with
      | none => cases h2
      | some b => cases h2; exact ⟨b, hf, rfl⟩

/-- A successful emission, step by step. -/
theorem emitDerivative_ok {E : Env} {s : Tree} {pow : BytesN 32} {o : Address} {ts : UInt64} {d : DerivativeBlock}
    (h : (Tree.emitDerivative E pow o ts s).out = .ok (.derivative d)) :
    ∃ t, t = (Tree.getDerivativeChain E o s).final ∧ IsOpen o t ∧ derivChecks E t pow o ts = .ok d ∧
      (Tree.emitDerivative E pow o ts s).final = (Tree.onDeriv o (DerivativeChain.addBlock E d) t).final := by
  rw [emitDerivative_checks] at h ⊢
  rcases Act.bind_cases (Tree.getDerivativeChain E o) (fun _ => Act.get >>= fun t =>
      Act.lift (derivChecks E t pow o ts) >>= fun b =>
        Tree.onDeriv o (DerivativeChain.addBlock E b) >>= fun _ => pure (Block.derivative b)) s with
    ⟨a, h1, h2, _, h4⟩ | ⟨_, _, _, h4⟩
  · refine ⟨_, rfl, getDeriv_open h1, ?_⟩
    rw [h4, Act.get_bind] at h
    rw [h2, Act.get_bind]
    cases hc : derivChecks E (Tree.getDerivativeChain E o s).final pow o ts with
    | err e => rw [hc] at h; cases h
    | panic e => rw [hc] at h; cases h
    | ub => rw [hc] at h; cases h
    | ok b =>
      rw [hc, Act.lift_ok_bind] at h
      rw [Act.lift_ok_bind]
      rcases Act.bind_cases (Tree.onDeriv o (DerivativeChain.addBlock E b)) (fun _ => pure (Block.derivative b))
        (Tree.getDerivativeChain E o s).final with ⟨_, _, k2, _, k4⟩ | ⟨_, _, _, k4⟩
      · rw [k4] at h
        cases h
        exact ⟨rfl, k2⟩
      · exact absurd h (k4 _)
  · exact absurd h (h4 _)

theorem anchor_open {t : Tree} {o : Address} (ho : IsOpen o t) : anchor t o = some (t.handle o).genesisHash := by
  obtain ⟨m, hm⟩ := Option.isSome_iff_exists.mp ho
  unfold anchor Tree.handle
  rw [hm]; rfl

theorem anchor_add {E : Env} {t : Tree} {o : Address} {d : DerivativeBlock} (hl : Life E (.idle t)) (ho : IsOpen o t) :
    anchor (Tree.onDeriv o (DerivativeChain.addBlock E d) t).final o = anchor t o := by
  have ha := anchor_open ho
  obtain ⟨h1, _⟩ := anchor_settled hl ha
  have h2 := (settled_derivAdd E d h1 ho).1
  have h3 : IsOpen o (Tree.onDeriv o (DerivativeChain.addBlock E d) t).final := by
    unfold Tree.onDeriv
    rw [Act.zoom_run]
    simp [IsOpen, Tree.putHandle]
  obtain ⟨m, hm⟩ := Option.isSome_iff_exists.mp h3
  rw [ha]
  exact Option.map_eq_some_iff.mpr ⟨m, hm, h2.1.mem m hm⟩

/-- C118 for nodes always flushed before going down. (Missing: nodes stopped without a flush.) -/
theorem C118_first_points_at_anchor_partial (E : Env) (s : Tree) (pow : BytesN 32) (o : Address) (ts : UInt64)
    (d : DerivativeBlock) (hs : FlushedLife E s) (hm : s.main.getHeight.val + 1 < U256.size)
    (hok : (Tree.emitDerivative E pow o ts s).out = .ok (.derivative d)) (h0 : d.defaultInfo.height.val = 0) :
    anchor (Tree.emitDerivative E pow o ts s).final o = some d.defaultInfo.previousHash := by
  obtain ⟨t, ht, ho, hc, hf⟩ := emitDerivative_ok hok
  obtain ⟨b, hb, hp⟩ := first_checks hc h0
  obtain ⟨bs, hbs⟩ := flushedLife_boot hs hm
  have hmain : t.main = s.main := by rw [ht]; exact getDeriv_main E s o
  rw [← hmain] at hbs
  rw [hp, found_hash hbs hb]
  have hl : Life E (.idle t) := by rw [ht]; exact .call s (.getDerivativeChain o) (flushedLife_life hs)
  rw [hf, anchor_add hl ho, anchor_open ho]

/-- The chain a derivative chain starts as. -/
def emptyDeriv (g : Hash) : DerivativeChain :=
  ⟨⟨Db.open' KV.empty, Db.open' KV.empty, U256.zero, BEGINNING_DIFFICULTY, none⟩, g⟩

/-- A first block. -/
def firstOf (prev : Hash) (pow : BytesN 32) (founder : Address) (ts : UInt64) (df : Hash) : DerivativeBlock :=
  ⟨{ timestamp := ts, pow := pow, previousHash := prev, height := U256.zero, difficulty := df, founder := founder }⟩

/-- A block is added, a derivative chain opened on it and flushed. The node is closed with nothing lost, but without a
flush of the main chain. Opened again, it adds another block in place of the first. -/
theorem replaced {E : Env} {a b : Block} (o : Address) (ha : a.info.height = U256.one)
    (hb : b.info.height = U256.one) (ham : a.IsMain) (hbm : b.IsMain) (hab : a.hash E ≠ b.hash E)
    (hag : a.hash E ≠ (genesis E).hash E) :
    ∃ u, Life E (.idle u) ∧ u.main.findByHash (a.hash E) = .ok (some b) ∧
      (Tree.getDerivativeChain E o u).out = .ok () ∧
      SameDeriv (emptyDeriv (a.hash E)) ((Tree.getDerivativeChain E o u).final.handle o) := by
  -- the fresh node with `a`
  have e0 : (openTree E Disk.empty).final.main.chain.height = U256.one := by rw [(openTree_fresh E).2]; rfl
  obtain ⟨_, f1⟩ := add_ok E (openTree E Disk.empty).final a (by rw [e0]; exact ha) (by rw [e0]; decide)
  have last1 := add_first E (openTree E Disk.empty).final a ha ham e0
  obtain ⟨s1, hs1⟩ : ∃ s, s = ((Op.addBlock a).run E (openTree E Disk.empty).final).final := ⟨_, rfl⟩
  rw [← hs1] at f1 last1
  have l1 : Life E (.idle s1) := by rw [hs1]; exact .call _ _ (life_fresh E)
  have m1 : s1.derivMem o = none := by rw [f1]; show (openTree E Disk.empty).final.derivMem o = _; rw [(openTree_fresh E).2]; rfl
  have d1 : s1.derivFiles (hexEncode o.val) = DerivFiles.fresh := by
    rw [f1]; show (openTree E Disk.empty).final.derivFiles _ = _; rw [(openTree_fresh E).2]; rfl
  -- the derivative chain, flushed
  obtain ⟨_, f2⟩ := flush_new (E := E) m1 d1 last1
  obtain ⟨c, hc⟩ : ∃ c : DerivativeChain, c = emptyDeriv (a.hash E) := ⟨_, rfl⟩
  rw [← emptyDeriv, ← hc] at f2
  obtain ⟨s2, hs2⟩ : ∃ s, s = ((Op.derivFlush o).run E s1).final := ⟨_, rfl⟩
  rw [← hs2] at f2
  have l2 : Life E (.idle s2) := by rw [hs2]; exact .call _ _ l1
  have main2 : s2.main = s1.main := by rw [f2]; rfl
  have d2 : s2.derivFiles (hexEncode o.val) = ⟨c.flushed.chain.blocks, c.flushed.chain.heightReference, some c.saved⟩ := by
    rw [f2]; simp [Tree.putHandle, DerivativeChain.flushed]
  -- opened again
  obtain ⟨t, _, tl, _, tmain, tm, tf⟩ := reopen_unflushed l2 (by
    rw [main2, f1]; show (openTree E Disk.empty).final.main.chain.config = _; rw [(openTree_fresh E).2]; rfl)
  have e1 : t.main.chain.height = U256.one := by rw [tmain]; rfl
  have r1 : t.main.chain.heightReference.get (a.hash E).val = some U256.one.toBE.val := by
    rw [tmain]
    show ((Db.open' s2.main.chain.heightReference.cur).insert _ _).get _ = _
    rw [Db.get_insert, if_neg (fun e => hag (Subtype.ext e).symm), Db.get_open, main2, f1]
    show (Db.insert _ _ _).get _ = _
    rw [Db.get_insert, if_pos (by rfl), e0]
  -- with `b`
  obtain ⟨_, f4⟩ := add_ok E t b (by rw [e1]; exact hb) (by rw [e1]; decide)
  have last4 := add_first E t b hb hbm e1
  obtain ⟨u, hu⟩ : ∃ u, u = ((Op.addBlock b).run E t).final := ⟨_, rfl⟩
  rw [← hu] at f4 last4
  have ul : Life E (.idle u) := by rw [hu]; exact .call _ _ tl
  have find4 : u.main.findByHash (a.hash E) = .ok (some b) := by
    have raw : u.main.findRawByHash (a.hash E) = .ok (some b.dump) := by
      rw [f4]
      unfold MainChain.findRawByHash Chain.findRawByHash
      have r2 : (t.main.chain.put3 E b.dump ⟨t.main.chain.height.val + 1, by rw [e1]; decide⟩).heightReference.get
          (a.hash E).val = some U256.one.toBE.val := by
        show (Db.insert _ _ _).get _ = _
        rw [Db.get_insert, ← show Block.hash E b = E.sha256 b.dump from rfl, if_neg (fun e => hab (Subtype.ext e).symm), r1]
      simp only [r2, fromBE_toBE, Outcome.ok_bind]
      unfold Chain.findRawByHeight
      rw [if_neg (by simp only [Chain.put3, e1]; decide)]
      show Outcome.ok ((Db.insert _ _ _).get _) = _
      rw [Db.get_insert, if_pos (by rw [e1])]
    unfold MainChain.findByHash
    rw [raw, Outcome.ok_bind]
    exact decode_main b hbm (.inl (by rw [hb]; decide))
  -- the derivative chain again
  have um : u.derivMem o = none := by rw [f4]; exact tm o
  have ud : u.derivFiles (hexEncode o.val) = t.derivFiles (hexEncode o.val) := by rw [f4]
  rw [← hc]
  exact ⟨u, ul, find4, getDeriv_saved (E := E) (v := u) (o := o) (c := c) um last4
    (by rw [ud, (tf o).1, d2]; rfl) (by rw [ud, (tf o).2.1, d2]; rfl) (by rw [ud, (tf o).2.2, d2])⟩

/-- A block is added, a derivative chain opened on it and flushed. The node is closed with nothing lost, but without a
flush of the main chain. Opened again, it adds another block in place of the first. The first block of the derivative
chain then points at that other block, while the chain's anchor is the first. -/
theorem C118_refuted :
    (∀ (E : Env) (a b : Block) (o : Address) (pow : BytesN 32) (ts : UInt64) (df : Hash), a.info.height = U256.one →
      b.info.height = U256.one → a.IsMain → b.IsMain → a.hash E ≠ b.hash E → a.hash E ≠ (genesis E).hash E →
      checkPow E (b.hash E) BEGINNING_DIFFICULTY [] pow.val = .ok true →
      recalculateDifficulty E b.info.timestamp ts BEGINNING_DIFFICULTY = .ok df →
      ∃ s d, Life E (.idle s) ∧ (Tree.emitDerivative E pow o ts s).out = .ok (.derivative d) ∧
        d.defaultInfo.height.val = 0 ∧ d.defaultInfo.previousHash = b.hash E ∧
        anchor (Tree.emitDerivative E pow o ts s).final o = some (a.hash E)) ∧
    ¬ C118_full := by
  have key : ∀ (E : Env) (a b : Block) (o : Address) (pow : BytesN 32) (ts : UInt64) (df : Hash), a.info.height = U256.one →
      b.info.height = U256.one → a.IsMain → b.IsMain → a.hash E ≠ b.hash E → a.hash E ≠ (genesis E).hash E →
      checkPow E (b.hash E) BEGINNING_DIFFICULTY [] pow.val = .ok true →
      recalculateDifficulty E b.info.timestamp ts BEGINNING_DIFFICULTY = .ok df →
      ∃ s d, Life E (.idle s) ∧ (Tree.emitDerivative E pow o ts s).out = .ok (.derivative d) ∧
        d.defaultInfo.height.val = 0 ∧ d.defaultInfo.previousHash = b.hash E ∧
        anchor (Tree.emitDerivative E pow o ts s).final o = some (a.hash E) := by
    intro E a b o pow ts df ha hb ham hbm hab hag hpow hdf
    obtain ⟨u, ul, find4, g1, g2⟩ := replaced o ha hb ham hbm hab hag
    obtain ⟨v, hv⟩ : ∃ v, v = (Tree.getDerivativeChain E o u).final := ⟨_, rfl⟩
    rw [← hv] at g2
    have vmain : v.main = u.main := by rw [hv]; exact getDeriv_main E u o
    have vopen : IsOpen o v := by rw [hv]; exact getDeriv_open g1
    have vl : Life E (.idle v) := by rw [hv]; exact .call u (.getDerivativeChain o) ul
    have hchk : derivChecks E v pow o ts = .ok (firstOf (b.hash E) pow o ts df) := by
      unfold derivChecks
      rw [g2.last, g2.genesisHash, vmain]
      have : DerivativeChain.getLastBlock (emptyDeriv (a.hash E)) = .ok none := rfl
      rw [this]
      simp only [emptyDeriv]
      simp only [Outcome.ok_bind, find4, hpow, hdf, Bool.not_true, Bool.false_eq_true, if_false]
      rfl
    obtain ⟨d, hd⟩ : ∃ d : DerivativeBlock, d = firstOf (b.hash E) pow o ts df := ⟨_, rfl⟩
    rw [← hd] at hchk
    have hadd : (Tree.onDeriv o (DerivativeChain.addBlock E d) v).out = .ok () := by
      unfold Tree.onDeriv
      rw [Act.zoom_run]
      unfold DerivativeChain.addBlock DerivativeChain.onChain
      rw [Act.zoom_run]
      have hh : (v.handle o).chain.height = U256.zero := by rw [g2.height]; rfl
      have hr := Chain.addBlock_right (E := E) (dump := d.dump) (s := (v.handle o).chain) (by rw [hh]; decide)
      rw [show d.defaultInfo.height = (v.handle o).chain.height from by rw [hh, hd]; rfl, hr]
    have run : Tree.emitDerivative E pow o ts u = (Tree.getDerivativeChain E o >>= fun _ => Act.get >>= fun t =>
      Act.lift (derivChecks E t pow o ts) >>= fun b =>
        Tree.onDeriv o (DerivativeChain.addBlock E b) >>= fun _ => pure (Block.derivative b)) u := by
      rw [emitDerivative_checks]
    have out : (Tree.emitDerivative E pow o ts u).out = .ok (.derivative d) := by
      rw [run]
      rcases Act.bind_cases (Tree.getDerivativeChain E o) (fun _ => Act.get >>= fun t =>
          Act.lift (derivChecks E t pow o ts) >>= fun b =>
            Tree.onDeriv o (DerivativeChain.addBlock E b) >>= fun _ => pure (Block.derivative b)) u with
        ⟨_, _, _, _, h4⟩ | ⟨h4, _⟩
      · rw [h4, ← hv, Act.get_bind, hchk, Act.lift_ok_bind]
        rcases Act.bind_cases (Tree.onDeriv o (DerivativeChain.addBlock E d)) (fun _ => pure (Block.derivative d)) v with
          ⟨_, _, _, _, k4⟩ | ⟨k4, _⟩
        · rw [k4]; rfl
        · exact absurd hadd (k4 ())
      · exact absurd g1 (h4 ())
    have anchorV : anchor v o = some (a.hash E) := by
      obtain ⟨m, hm⟩ := Option.isSome_iff_exists.mp vopen
      have : m.genesisHash = a.hash E := by
        have := g2.genesisHash
        unfold Tree.handle at this
        rw [hm] at this
        exact this
      unfold anchor
      rw [hm, ← this]; rfl
    refine ⟨u, d, ul, out, by rw [hd]; rfl, by rw [hd]; rfl, ?_⟩
    obtain ⟨t', ht', ho', hc', hf'⟩ := emitDerivative_ok out
    rw [← hv] at ht'
    subst ht'
    rw [hf', anchor_add vl vopen, anchorV]
  refine ⟨key, fun hf => ?_⟩
  obtain ⟨s, d, h1, h2, h3, h4, h5⟩ := key threeEnv nextBlock nextBlock' ROOT_PUBLIC_ADDRESS (BytesN.fill 32 0)
    (exInfo.timestamp + 601) BEGINNING_DIFFICULTY rfl rfl trivial trivial threeEnv_distinct.1 threeEnv_distinct.2
    (by decide +kernel) (by decide +kernel)
  have := hf threeEnv s _ _ _ d h1 h2 h3
  rw [h5, h4] at this
  exact threeEnv_distinct.1 (Option.some.inj this)

/-- A node as in `C118_first_points_at_anchor_partial`. -/
example : ∃ s d, FlushedLife zeroEnv s ∧ s.main.getHeight.val + 1 < U256.size ∧ (Tree.emitDerivative zeroEnv
    (BytesN.fill 32 0) (BytesN.fill 33 4) 1597925400 s).out = .ok (.derivative d) ∧ d.defaultInfo.height.val = 0 := by
  refine ⟨_, firstOf (BytesN.fill 32 0) (BytesN.fill 32 0) (BytesN.fill 33 4) 1597925400 BEGINNING_DIFFICULTY, .fresh, ?_, ?_, rfl⟩
  · rw [(openTree_fresh zeroEnv).2]; decide
  · rw [(openTree_fresh zeroEnv).2]; decide +kernel

end BCT.Props
