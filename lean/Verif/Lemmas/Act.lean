import Verif.Model.System
/-!
# Reasoning about effectful calls
-/

namespace BCT
namespace Act
variable {σ τ α β : Type}

theorem bind_def (x : Act σ α) (f : α → Act σ β) : (x >>= f) = bind x f := rfl
theorem pure_def (a : α) : (Pure.pure a : Act σ α) = pure a := rfl

@[simp] theorem pure_run (a : α) (s : σ) : (Pure.pure a : Act σ α) s = ⟨.ok a, s, []⟩ := rfl
@[simp] theorem get_run (s : σ) : (get : Act σ σ) s = ⟨.ok s, s, []⟩ := rfl
@[simp] theorem lift_run (o : Outcome α) (s : σ) : (lift o : Act σ α) s = ⟨o, s, []⟩ := rfl
@[simp] theorem step_run (f : σ → σ) (s : σ) : step f s = ⟨.ok (), f s, [f s]⟩ := rfl

theorem mapErr_run (e : Err) (x : Act σ α) (s : σ) :
    x.mapErr e s = ⟨(x s).out.mapErr e, (x s).final, (x s).trace⟩ := rfl
theorem zoom_run (part : τ → σ) (put : σ → τ → τ) (x : Act σ α) (t : τ) :
    x.zoom part put t =
      ⟨(x (part t)).out, put (x (part t)).final t, (x (part t)).trace.map (fun s => put s t)⟩ := rfl
theorem void_run (x : Act σ α) (s : σ) :
    x.void s = ⟨(x s).out >>= fun _ => .ok (), (x s).final, (x s).trace⟩ := rfl

theorem bind_ok {x : Act σ α} {f : α → Act σ β} {s s' : σ} {t : List σ} {a : α} (h : x s = ⟨.ok a, s', t⟩) :
    (x >>= f) s = ⟨(f a s').out, (f a s').final, t ++ (f a s').trace⟩ := by
  simp [bind_def, bind, h]

theorem bind_err {x : Act σ α} {f : α → Act σ β} {s s' : σ} {t : List σ} {e : Err} (h : x s = ⟨.err e, s', t⟩) :
    (x >>= f) s = ⟨.err e, s', t⟩ := by
  simp [bind_def, bind, h]

theorem bind_panic {x : Act σ α} {f : α → Act σ β} {s s' : σ} {t : List σ} {p : Panic}
    (h : x s = ⟨.panic p, s', t⟩) : (x >>= f) s = ⟨.panic p, s', t⟩ := by
  simp [bind_def, bind, h]

theorem bind_ub {x : Act σ α} {f : α → Act σ β} {s s' : σ} {t : List σ}
    (h : x s = ⟨.ub, s', t⟩) : (x >>= f) s = ⟨.ub, s', t⟩ := by
  simp [bind_def, bind, h]

@[simp] theorem get_bind (f : σ → Act σ β) (s : σ) : (get >>= f) s = f s s := by
  rw [bind_ok (get_run s)]; simp

@[simp] theorem lift_ok_bind (a : α) (f : α → Act σ β) : (lift (.ok a) >>= f) = f a := by
  funext s; rw [bind_ok (lift_run _ s)]; simp

@[simp] theorem lift_err_bind (e : Err) (f : α → Act σ β) : (lift (.err e) >>= f) = lift (.err e) := by
  funext s; rw [bind_err (lift_run _ s)]; rfl

@[simp] theorem lift_panic_bind (e : Panic) (f : α → Act σ β) : (lift (.panic e) >>= f) = lift (.panic e) := by
  funext s; rw [bind_panic (lift_run _ s)]; rfl

@[simp] theorem lift_ub_bind (f : α → Act σ β) : (lift .ub >>= f) = lift .ub := by
  funext s; rw [bind_ub (lift_run _ s)]; rfl

@[simp] theorem pure_bind' (a : α) (f : α → Act σ β) : ((Pure.pure a : Act σ α) >>= f) = f a := by
  funext s; rw [bind_ok (pure_run a s)]; simp

theorem step_bind (g : σ → σ) (f : Unit → Act σ β) (s : σ) :
    (step g >>= f) s = ⟨(f () (g s)).out, (f () (g s)).final, g s :: (f () (g s)).trace⟩ := by
  rw [bind_ok (step_run g s)]; simp

theorem bind_assoc' {γ : Type} (x : Act σ α) (f : α → Act σ β) (g : β → Act σ γ) :
    ((x >>= f) >>= g) = (x >>= fun a => f a >>= g) := by
  funext s
  simp only [bind_def, bind]
  cases h : (x s).out with
  | ok a => simp only; cases h2 : (f a (x s).final).out <;> simp
  | err e => rfl
  | panic e => rfl
  | ub => rfl

/-- Every result of a call is a result of its first part or of the continuation from where it ended. -/
theorem bind_cases (x : Act σ α) (f : α → Act σ β) (s : σ) :
    (∃ a, (x s).out = .ok a ∧ ((x >>= f) s).final = (f a (x s).final).final ∧
      ((x >>= f) s).trace = (x s).trace ++ (f a (x s).final).trace ∧
      ((x >>= f) s).out = (f a (x s).final).out) ∨
    ((∀ a, (x s).out ≠ .ok a) ∧ ((x >>= f) s).final = (x s).final ∧ ((x >>= f) s).trace = (x s).trace ∧
      ∀ b, ((x >>= f) s).out ≠ .ok b) := by
  simp only [bind_def, bind]
  cases h : (x s).out with
  | ok a => left; exact ⟨a, rfl, by simp, by simp, by simp⟩
  | err e => right; simp
  | panic e => right; simp
  | ub => right; simp

/-- A pre-order. -/
structure PreOrd (R : σ → σ → Prop) : Prop where
  refl : ∀ s, R s s
  trans : ∀ {a b c}, R a b → R b c → R a c

/-- The state left behind is related to the initial one. -/
def RelF (R : σ → σ → Prop) {α : Type} (x : Act σ α) : Prop := ∀ s, R s (x s).final

/-- The state left behind and every state passed through are related to the initial one. -/
def Rel (R : σ → σ → Prop) {α : Type} (x : Act σ α) : Prop := ∀ s, R s (x s).final ∧ ∀ t ∈ (x s).trace, R s t

/-- Families of calls closed under sequencing. -/
structure Closed (S : ∀ {α : Type}, Act σ α → Prop) : Prop where
  pure : ∀ {α : Type} (a : α), S (Pure.pure a : Act σ α)
  get : S (get : Act σ σ)
  lift : ∀ {α : Type} (o : Outcome α), S (lift o : Act σ α)
  bind : ∀ {α β : Type} {x : Act σ α} {f : α → Act σ β}, S x → (∀ a, S (f a)) → S (x >>= f)
  void : ∀ {α : Type} {x : Act σ α}, S x → S x.void
  mapErr : ∀ {α : Type} {x : Act σ α} (e : Err), S x → S (x.mapErr e)

theorem relF_closed {R : σ → σ → Prop} (h : PreOrd R) : Closed (fun {α} (x : Act σ α) => RelF R x) where
  pure a s := h.refl s
  get s := h.refl s
  lift o s := h.refl s
  bind := by
    intro α β x f hx hf s
    rcases bind_cases x f s with ⟨a, _, h2, _, _⟩ | ⟨_, h2, _, _⟩
    · rw [h2]; exact h.trans (hx s) (hf a _)
    · rw [h2]; exact hx s
  void hx s := hx s
  mapErr e hx s := hx s

theorem rel_closed {R : σ → σ → Prop} (h : PreOrd R) : Closed (fun {α} (x : Act σ α) => Rel R x) where
  pure a s := ⟨h.refl s, by simp⟩
  get s := ⟨h.refl s, by simp⟩
  lift o s := ⟨h.refl s, by simp⟩
  bind := by
    intro α β x f hx hf s
    rcases bind_cases x f s with ⟨a, _, h2, h3, _⟩ | ⟨_, h2, h3, _⟩
    · rw [h2, h3]
      refine ⟨h.trans (hx s).1 (hf a _).1, fun t ht => ?_⟩
      rcases List.mem_append.mp ht with ht | ht
      · exact (hx s).2 t ht
      · exact h.trans (hx s).1 ((hf a _).2 t ht)
    · rw [h2, h3]; exact hx s
  void hx s := hx s
  mapErr e hx s := hx s

theorem rel_step {R : σ → σ → Prop} {f : σ → σ} (h : ∀ s, R s (f s)) : Rel R (step f) := by
  intro s; simp [h]

theorem relF_step {R : σ → σ → Prop} {f : σ → σ} (h : ∀ s, R s (f s)) : RelF R (step f) := by
  intro s; simp [h]

theorem Rel.relF {R : σ → σ → Prop} {x : Act σ α} (h : Rel R x) : RelF R x := fun s => (h s).1

theorem relF_zoom {Q : τ → τ → Prop} {part : τ → σ} {put : σ → τ → τ} {x : Act σ α}
    {R : σ → σ → Prop} (hx : RelF R x) (h : ∀ t s, R (part t) s → Q t (put s t)) :
    RelF Q (x.zoom part put) := fun t => h t _ (hx _)

theorem rel_zoom {Q : τ → τ → Prop} {part : τ → σ} {put : σ → τ → τ} {x : Act σ α}
    {R : σ → σ → Prop} (hx : Rel R x) (h : ∀ t s, R (part t) s → Q t (put s t)) :
    Rel Q (x.zoom part put) := by
  intro t
  refine ⟨h t _ (hx _).1, fun u hu => ?_⟩
  obtain ⟨s, hs, rfl⟩ := List.mem_map.mp hu
  exact h t s ((hx _).2 s hs)

theorem Closed.forEach {S : ∀ {α : Type}, Act σ α → Prop} (C : Closed S) {l : List β} {f : β → Act σ Unit}
    (h : ∀ b, S (f b)) : S (Act.forEach l f) := by
  induction l with
  | nil => exact C.pure ()
  | cons b l ih => exact C.bind (h b) (fun _ => ih)

/-- A lens. -/
structure Lens (part : τ → σ) (put : σ → τ → τ) : Prop where
  part_put : ∀ s t, part (put s t) = s
  put_put : ∀ s s' t, put s (put s' t) = put s t
  put_part : ∀ t, put (part t) t = t

theorem zoom_bind {part : τ → σ} {put : σ → τ → τ} (L : Lens part put) (x : Act σ α) (f : α → Act σ β) :
    (x >>= f).zoom part put = (x.zoom part put >>= fun a => (f a).zoom part put) := by
  funext t
  simp only [bind_def, bind, zoom]
  cases h : (x (part t)).out <;> simp [L.part_put, L.put_put]

theorem zoom_pure {part : τ → σ} {put : σ → τ → τ} (L : Lens part put) (a : α) :
    (Pure.pure a : Act σ α).zoom part put = Pure.pure a := by
  funext t
  simp [zoom, L.put_part]

theorem zoom_forEach {part : τ → σ} {put : σ → τ → τ} (L : Lens part put) (l : List β) (f : β → Act σ Unit) :
    (Act.forEach l f).zoom part put = Act.forEach l (fun b => (f b).zoom part put) := by
  induction l with
  | nil => exact zoom_pure L ()
  | cons b l ih =>
    change (f b >>= fun _ => Act.forEach l f).zoom part put = _
    rw [zoom_bind L, ih]; rfl

end Act

theorem onMain_lens : Act.Lens (σ := MainChain) (τ := Tree) (·.main) (fun m t => { t with main := m }) :=
  ⟨fun _ _ => rfl, fun _ _ _ => rfl, fun _ => rfl⟩

/-- Blocks of the two kinds that belong on the main chain. -/
def Block.IsMain : Block → Prop
  | .derivative _ => False
  | _ => True

/-- The blocks a call may put on the main chain all satisfy `A`. -/
def Op.Adds (A : Block → Prop) : Op → Prop
  | .addBlock b => A b
  | .addNewBlock b _ => A b
  | .emitMain .. => ∀ b : Block, b.IsMain → A b
  | _ => True

/-- The building blocks all public calls are made of; `A` restricts the blocks put on the main chain. -/
structure Prims (E : Env) (A : Block → Prop) (S : ∀ {α : Type}, Act Tree α → Prop) : Prop where
  addBlock : ∀ b, A b → S (Tree.onMain (MainChain.addBlock E b))
  addTransaction : ∀ t, S (Tree.onMain (MainChain.addTransaction E t))
  mainFlush : S (Tree.onMain MainChain.flush)
  addAmount : ∀ o a, S (Tree.onSummary (Ledger.add o a))
  setAmount : ∀ o a, S (Tree.onSummary (Ledger.set o a))
  subAmount : ∀ o a, S (Tree.onSummary (Ledger.sub o a))
  sendAmount : ∀ s t a, s ≠ t → S (Tree.onSummary (Ledger.transfer s t a))
  addGas : ∀ o a, S (Tree.onGas (Ledger.add o a))
  subGas : ∀ o a, S (Tree.onGas (Ledger.sub o a))
  sendGas : ∀ s t a, S (Tree.onGas (Ledger.transfer s t a))
  flush : S Tree.flush
  rotate : S Tree.rotateDbs
  getDeriv : ∀ o, S (Tree.getDerivativeChain E o)
  derivAdd : ∀ o b, S (Tree.onDeriv o (DerivativeChain.addBlock E b))
  derivFlush : ∀ o, S (Tree.onDeriv o DerivativeChain.flush)

section
variable {E : Env} {A : Block → Prop} {S : ∀ {α : Type}, Act Tree α → Prop}

theorem Prims.sendAmount' (P : Prims E A S) (C : Act.Closed S) (s t : Bytes) (a : U256) :
    S (Tree.sendAmount s t a) := by
  unfold Tree.sendAmount
  split
  · exact C.pure ()
  · rename_i h; exact P.sendAmount s t a h

theorem Prims.addTransactions (P : Prims E A S) (C : Act.Closed S) (ts : List Transaction) :
    S (Tree.onMain (MainChain.addTransactions E ts)) := by
  unfold Tree.onMain MainChain.addTransactions
  rw [Act.zoom_forEach onMain_lens]
  exact C.forEach (fun t => P.addTransaction t)

theorem Prims.sendTransaction (P : Prims E A S) (C : Act.Closed S) (tx : Transaction) :
    S (Tree.sendTransaction E tx) := by
  unfold Tree.sendTransaction
  refine C.bind C.get fun t => C.bind (C.lift _) fun g => C.bind (C.lift _) fun a => C.bind (C.lift _) fun r => ?_
  split
  · exact C.lift _
  · refine C.bind (C.lift _) fun _ => C.bind (C.lift _) fun _ => C.bind (C.lift _) fun _ => C.bind (C.lift _) fun _ => ?_
    split
    · exact C.lift _
    · exact C.bind (P.addTransaction _) fun _ => C.bind (P.sendAmount' C _ _ _) fun _ => P.subGas _ _

theorem Prims.emitMain (P : Prims E A S) (C : Act.Closed S) (p : BytesN 32) (f : Address) (txs : List Hash)
    (ts : UInt64) (hA : ∀ b : Block, b.IsMain → A b) : S (Tree.emitMain E p f txs ts) := by
  have hs : ∀ b, A (.summarize b) := fun b => hA _ (by simp [Block.IsMain])
  have ht : ∀ b, A (.transaction b) := fun b => hA _ (by simp [Block.IsMain])
  unfold Tree.emitMain
  refine C.bind C.get fun t => C.bind (C.lift _) fun _ => C.bind (C.lift _) fun _ => C.bind (C.lift _) fun _ => ?_
  split
  · exact C.lift _
  · refine C.bind (C.lift _) fun _ => C.bind (C.lift _) fun _ => C.bind (C.lift _) fun _ => ?_
    split
    · split
      · rw [Act.lift_err_bind]; exact C.lift _
      · simp only [Act.bind_assoc', Act.pure_bind']
        exact C.bind (C.lift _) fun _ => C.bind P.rotate fun _ => C.bind (P.setAmount _ _) fun _ =>
          C.bind (P.addBlock _ (hs _)) fun _ => C.pure _
    · split
      · rw [Act.lift_err_bind]; exact C.lift _
      · simp only [Act.bind_assoc', Act.pure_bind']
        exact C.bind (C.lift _) fun _ => C.bind (P.addBlock _ (ht _)) fun _ => C.pure _

theorem Prims.emitDerivative (P : Prims E A S) (C : Act.Closed S) (p : BytesN 32) (f : Address)
    (ts : UInt64) : S (Tree.emitDerivative E p f ts) := by
  unfold Tree.emitDerivative
  refine C.bind (P.getDeriv _) fun _ => C.bind C.get fun t => C.bind (C.lift _) fun _ => C.bind (C.lift _) fun r =>
    C.bind (C.lift _) fun _ => ?_
  split
  · exact C.lift _
  · exact C.bind (C.lift _) fun _ => C.bind (P.derivAdd _ _) fun _ => C.pure _

/-- Every public call is made of the building blocks. -/
theorem Op.sat (P : Prims E A S) (C : Act.Closed S) (op : Op) (hop : op.Adds A) : S (op.run E) := by
  cases op with
  | addBlock b => exact P.addBlock b hop
  | addNewBlock b txs => exact C.bind (P.addBlock b hop) fun _ => P.addTransactions C txs
  | addTransaction t => exact P.addTransaction t
  | addTransactions ts => exact P.addTransactions C ts
  | addAmount o a => exact P.addAmount o a
  | setAmount o a => exact P.setAmount o a
  | subAmount o a => exact P.subAmount o a
  | sendAmount s t a => exact P.sendAmount' C s t a
  | addGas o a => exact P.addGas o a
  | subGas o a => exact P.subGas o a
  | sendGas s t a => exact P.sendGas s t a
  | sendTransaction t => exact P.sendTransaction C t
  | emitMain p f txs ts => exact C.void (P.emitMain C p f txs ts hop)
  | emitDerivative p f ts => exact C.void (P.emitDerivative C p f ts)
  | getDerivativeChain o => exact P.getDeriv o
  | derivAddBlock o b => exact C.bind (P.getDeriv o) fun _ => P.derivAdd o b
  | derivFlush o => exact C.bind (P.getDeriv o) fun _ => P.derivFlush o
  | mainFlush => exact P.mainFlush
  | flush => exact P.flush

end

end BCT
