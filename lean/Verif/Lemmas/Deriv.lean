import Verif.Lemmas.Open
/-!
# Derivative chains hold the list of their accepted blocks
-/

namespace BCT

theorem hexDigit_inj {a b : Nat} (ha : a < 16) (hb : b < 16) (h : hexDigit a = hexDigit b) : a = b := by
  have : ∀ a : Fin 16, ∀ b : Fin 16, hexDigit a.val = hexDigit b.val → a = b := by decide
  exact congrArg Fin.val (this ⟨a, ha⟩ ⟨b, hb⟩ h)

theorem hexEncode_inj : ∀ {a b : Bytes}, hexEncode a = hexEncode b → a = b
  | [], [], _ => rfl
  | [], _ :: _, h => by simp [hexEncode] at h
  | _ :: _, [], h => by simp [hexEncode] at h
  | x :: xs, y :: ys, h => by
    simp only [hexEncode, List.cons.injEq] at h
    obtain ⟨h1, h2, h3⟩ := h
    have hx := x.toNat_lt
    have hy := y.toNat_lt
    have e1 := hexDigit_inj (by omega) (by omega) h1
    have e2 := hexDigit_inj (by omega) (by omega) h2
    have : x = y := UInt8.toNat_inj.mp (by omega)
    rw [this, hexEncode_inj h3]

theorem hexEncode_address {a b : Address} (h : hexEncode a.val = hexEncode b.val) : a = b :=
  Subtype.ext (hexEncode_inj h)

namespace Tree

theorem handle_put_self (o : Address) (c : DerivativeChain) (t : Tree) : (putHandle o c t).handle o = c := by
  unfold handle putHandle; simp

theorem handle_put_other {o o' : Address} (c : DerivativeChain) (t : Tree) (h : o' ≠ o) :
    (putHandle o c t).handle o' = t.handle o' := by
  have h1 : hexEncode o'.val ≠ hexEncode o.val := fun e => h (hexEncode_address e)
  unfold handle putHandle; simp [h, h1]

theorem putHandle_mem_other {o o' : Address} (c : DerivativeChain) (t : Tree) (h : o' ≠ o) :
    (putHandle o c t).derivMem o' = t.derivMem o' ∧
    (putHandle o c t).derivFiles (hexEncode o'.val) = t.derivFiles (hexEncode o'.val) := by
  have h1 : hexEncode o'.val ≠ hexEncode o.val := fun e => h (hexEncode_address e)
  unfold putHandle; simp [h, h1]

theorem putHandle_mem_self (o : Address) (c : DerivativeChain) (t : Tree) :
    (putHandle o c t).derivMem o = some ⟨c.chain.height, c.chain.difficulty, c.genesisHash⟩ := by
  unfold putHandle; simp

end Tree

/-- Chains not opened yet have no files. -/
def DerivClean (t : Tree) : Prop := ∀ o, t.derivMem o = none → t.derivFiles (hexEncode o.val) = DerivFiles.fresh

/-- Blocks of the kind that belongs on derivative chains. -/
def Block.IsDeriv (b : Block) : Prop := ∃ d, b = .derivative d

/-- Every derivative chain of `t` continues the one of `s`. -/
def DerivGrows (E : Env) (s t : Tree) : Prop :=
  DerivClean s → DerivClean t ∧ ∀ o, Chain.Grows E Block.IsDeriv (s.handle o).chain (t.handle o).chain

theorem derivGrows_preord (E : Env) : Act.PreOrd (DerivGrows E) where
  refl _ h := ⟨h, fun _ => (Chain.grows_preord E _).refl _⟩
  trans h1 h2 h := ⟨(h2 (h1 h).1).1, fun o => (Chain.grows_preord E _).trans ((h1 h).2 o) ((h2 (h1 h).1).2 o)⟩

/-- The derivative chains are the same. -/
def DerivSame (s t : Tree) : Prop := t.derivFiles = s.derivFiles ∧ t.derivMem = s.derivMem

theorem derivSame_preord : Act.PreOrd DerivSame where
  refl _ := ⟨rfl, rfl⟩
  trans h1 h2 := ⟨h2.1.trans h1.1, h2.2.trans h1.2⟩

theorem DerivSame.handle {s t : Tree} (h : DerivSame s t) (o : Address) : t.handle o = s.handle o := by
  unfold Tree.handle; rw [h.1, h.2]

theorem DerivSame.grows {E : Env} {s t : Tree} (h : DerivSame s t) : DerivGrows E s t := by
  intro hc
  refine ⟨fun o ho => ?_, fun o => ?_⟩
  · rw [h.1]; exact hc o (by rw [← h.2]; exact ho)
  · rw [h.handle]; exact (Chain.grows_preord E _).refl _

theorem Tree.onMain_derivSame {α : Type} (x : Act MainChain α) : Act.Rel DerivSame (Tree.onMain x) :=
  Act.rel_zoom (Act.rel_true x) fun _ _ _ => derivSame_preord.refl _
theorem Tree.onSummary_derivSame {α : Type} (x : Act Db α) : Act.Rel DerivSame (Tree.onSummary x) :=
  Act.rel_zoom (Act.rel_true x) fun _ _ _ => derivSame_preord.refl _
theorem Tree.onGas_derivSame {α : Type} (x : Act Db α) : Act.Rel DerivSame (Tree.onGas x) :=
  Act.rel_zoom (Act.rel_true x) fun _ _ _ => derivSame_preord.refl _

theorem Tree.flush_derivSame : Act.Rel DerivSame Tree.flush := by
  have C := Act.rel_closed derivSame_preord
  unfold Tree.flush
  refine C.bind (Tree.onMain_derivSame _) fun _ => ?_
  refine C.bind (Act.rel_step fun _ => derivSame_preord.refl _) fun _ => ?_
  refine C.bind (Act.rel_step fun _ => derivSame_preord.refl _) fun _ => ?_
  refine C.bind (Act.rel_step fun _ => derivSame_preord.refl _) fun _ => ?_
  exact Act.rel_step fun _ => derivSame_preord.refl _

theorem Tree.rotate_derivSame : Act.Rel DerivSame Tree.rotateDbs := by
  have C := Act.rel_closed derivSame_preord
  unfold Tree.rotateDbs
  refine C.bind Tree.flush_derivSame fun _ => ?_
  refine C.bind (Act.rel_step fun _ => derivSame_preord.refl _) fun _ => ?_
  refine C.bind (Act.rel_step fun _ => derivSame_preord.refl _) fun _ => ?_
  refine C.bind (Act.rel_step fun _ => derivSame_preord.refl _) fun _ => ?_
  exact Act.rel_step fun _ => derivSame_preord.refl _

theorem putHandle_grows {E : Env} {o : Address} {c : DerivativeChain} {t : Tree}
    (h : Chain.Grows E Block.IsDeriv (t.handle o).chain c.chain) : DerivGrows E t (Tree.putHandle o c t) := by
  intro hc
  refine ⟨fun o' ho' => ?_, fun o' => ?_⟩
  · by_cases he : o' = o
    · subst he; rw [Tree.putHandle_mem_self] at ho'; cases ho'
    · rw [(Tree.putHandle_mem_other c t he).2]
      rw [(Tree.putHandle_mem_other c t he).1] at ho'
      exact hc o' ho'
  · by_cases he : o' = o
    · subst he; rw [Tree.handle_put_self]; exact h
    · rw [Tree.handle_put_other c t he]; exact (Chain.grows_preord E _).refl _

theorem Tree.onDeriv_relF {α : Type} {E : Env} {o : Address} {x : Act DerivativeChain α}
    (hx : Act.RelF (fun a b : DerivativeChain => Chain.Grows E Block.IsDeriv a.chain b.chain) x) :
    Act.RelF (DerivGrows E) (Tree.onDeriv o x) :=
  Act.relF_zoom hx fun _ _ h => putHandle_grows h

theorem DerivativeChain.flush_same :
    Act.Rel (fun a b : DerivativeChain => Chain.Same a.chain b.chain) DerivativeChain.flush := by
  have P : Act.PreOrd (fun a b : DerivativeChain => Chain.Same a.chain b.chain) :=
    ⟨fun _ => Chain.same_preord.refl _, fun h1 h2 => Chain.same_preord.trans h1 h2⟩
  have C := Act.rel_closed P
  have W : ∀ f, Act.Rel (fun a b : DerivativeChain => Chain.Same a.chain b.chain) (DerivativeChain.writeConfig f) :=
    fun f => Act.rel_step fun _ => ⟨rfl, rfl, rfl⟩
  unfold DerivativeChain.flush DerivativeChain.dumpConfig
  exact C.bind (C.bind (W _) fun _ => C.bind (W _) fun _ => C.bind (W _) fun _ => W _) fun _ =>
    C.bind (Act.rel_step fun _ => ⟨rfl, rfl, rfl⟩) fun _ => Act.rel_step fun _ => ⟨rfl, rfl, rfl⟩

/-- What `get_derivative_chain` does. -/
theorem Tree.getDeriv_cases (E : Env) (o : Address) (s : Tree) :
    ((s.derivMem o).isSome = true ∧ Tree.getDerivativeChain E o s = ⟨.ok (), s, []⟩) ∨
    (s.derivMem o = none ∧ ((∃ out, (∀ u, out ≠ .ok u) ∧ Tree.getDerivativeChain E o s = ⟨out, s, []⟩) ∨
      ∃ b c, s.main.getLastBlock = .ok (some b) ∧
        DerivativeChain.new (b.hash E) (s.derivFiles (hexEncode o.val)).blocks
          (s.derivFiles (hexEncode o.val)).heightReference (s.derivFiles (hexEncode o.val)).config = .ok c ∧
        Tree.getDerivativeChain E o s = ⟨.ok (), Tree.putHandle o c s, [Tree.putHandle o c s]⟩)) := by
  unfold Tree.getDerivativeChain
  rw [Act.get_bind]
  cases hm : s.derivMem o with
  | some m => left; simp
  | none =>
    right
    refine ⟨rfl, ?_⟩
    simp only [Option.isSome_none, Bool.false_eq_true, if_false]
    cases hl : s.main.getLastBlock with
    | err e => left; exact ⟨.err e, by simp, by simp⟩
    | panic e => left; exact ⟨.panic e, by simp, by simp⟩
    | ub => left; exact ⟨.ub, by simp, by simp⟩
    | ok b =>
      cases b with
      | none => left; exact ⟨.panic .unwrap, by simp, by simp⟩
      | some b =>
        simp only [Outcome.ofOption_some, Act.lift_ok_bind]
        cases hn : DerivativeChain.new (b.hash E) (s.derivFiles (hexEncode o.val)).blocks
          (s.derivFiles (hexEncode o.val)).heightReference (s.derivFiles (hexEncode o.val)).config with
        | err e => left; exact ⟨.err e, by simp, by simp⟩
        | panic e => left; exact ⟨.panic e, by simp, by simp⟩
        | ub => left; exact ⟨.ub, by simp, by simp⟩
        | ok c => right; exact ⟨b, c, rfl, hn, by simp⟩

theorem DerivativeChain.new_fresh (g : Hash) :
    DerivativeChain.new g DerivFiles.fresh.blocks DerivFiles.fresh.heightReference DerivFiles.fresh.config =
      .ok ⟨⟨Db.open' KV.empty, Db.open' KV.empty, U256.zero, BEGINNING_DIFFICULTY, none⟩, g⟩ := rfl

theorem Tree.handle_closed {s : Tree} {o : Address} (h : s.derivMem o = none)
    (hf : s.derivFiles (hexEncode o.val) = DerivFiles.fresh) :
    (s.handle o).chain = ⟨Db.open' KV.empty, Db.open' KV.empty, U256.zero, BEGINNING_DIFFICULTY, none⟩ := by
  unfold Tree.handle; rw [h, hf]; rfl

theorem Tree.getDeriv_grows (E : Env) (o : Address) : Act.RelF (DerivGrows E) (Tree.getDerivativeChain E o) := by
  intro s
  rcases Tree.getDeriv_cases E o s with ⟨_, h⟩ | ⟨hm, ⟨out, _, h⟩ | ⟨b, c, _, hc, h⟩⟩
  · rw [h]; exact (derivGrows_preord E).refl s
  · rw [h]; exact (derivGrows_preord E).refl s
  · rw [h]
    intro hcl
    refine putHandle_grows ?_ hcl
    have hf := hcl o hm
    rw [hf, DerivativeChain.new_fresh] at hc
    cases hc
    rw [Tree.handle_closed hm hf]
    exact (Chain.grows_preord E _).refl _

theorem derivGrows_prims (E : Env) : Prims E (fun _ => True) (fun {α} (x : Act Tree α) => Act.RelF (DerivGrows E) x) := by
  have key : ∀ {α : Type} {x : Act Tree α}, Act.Rel DerivSame x → Act.RelF (DerivGrows E) x :=
    fun h => (h.mono fun _ _ h => h.grows).relF
  refine ⟨fun _ _ => key (Tree.onMain_derivSame _), fun _ => key (Tree.onMain_derivSame _), key (Tree.onMain_derivSame _),
    fun _ _ => key (Tree.onSummary_derivSame _),
    fun _ _ => key (Tree.onSummary_derivSame _), fun _ _ => key (Tree.onSummary_derivSame _),
    fun _ _ _ _ => key (Tree.onSummary_derivSame _), fun _ _ => key (Tree.onGas_derivSame _),
    fun _ _ => key (Tree.onGas_derivSame _), fun _ _ _ => key (Tree.onGas_derivSame _), key Tree.flush_derivSame,
    key Tree.rotate_derivSame, fun o => Tree.getDeriv_grows E o, fun o b => ?_, fun o => ?_⟩
  · refine Tree.onDeriv_relF (Act.relF_zoom (part := fun m : DerivativeChain => m.chain)
      (put := fun c m => { m with chain := c })
      (Chain.addBlock_grows (E := E) (b := .derivative b) ⟨b, rfl⟩) (fun _ _ h => h))
  · exact Tree.onDeriv_relF (DerivativeChain.flush_same.mono fun _ _ h => h.grows).relF

theorem Op.adds_true (op : Op) : op.Adds (fun _ => True) := by cases op <;> simp [Op.Adds]

theorem Op.derivGrows (E : Env) (op : Op) : Act.RelF (DerivGrows E) (op.run E) :=
  Op.sat (derivGrows_prims E) (Act.relF_closed (derivGrows_preord E)) op op.adds_true

theorem emptyChain_holds (E : Env) (d : Hash) (c : Option Bytes) :
    Chain.Holds E ⟨Db.open' KV.empty, Db.open' KV.empty, U256.zero, d, c⟩ [] := by
  have hg : ∀ k, (Db.open' KV.empty).get k = none := fun k => by rw [Db.get_open, KV.get_empty]
  refine ⟨rfl, ?_, ?_, ?_, ?_, ?_⟩
  · intro i h; exact absurd h (by simp)
  · intro i h; exact absurd h (by simp)
  · intro k v h; simp [hg] at h
  · intro k v h; simp [hg] at h
  · intro i h; exact absurd h (by simp)

theorem run_derivClean {E : Env} {A : Op → Prop} {s : Tree} (hr : RunWith E A s) : DerivClean s := by
  induction hr with
  | fresh =>
    rw [(openTree_fresh E).2]
    intro o _; rfl
  | call s op _ _ ih => exact (Op.derivGrows E op s ih).1

theorem run_derivHolds {E : Env} {A : Op → Prop} {s : Tree} (hr : RunWith E A s) (o : Address)
    (hm : (s.handle o).chain.height.val + 1 < U256.size) :
    ∃ ds : List DerivativeBlock, Chain.Holds E (s.handle o).chain (ds.map Block.derivative) := by
  have key : DerivGrows E (openTree E Disk.empty).final s := by
    clear hm
    induction hr with
    | fresh => exact (derivGrows_preord E).refl _
    | call s op _ _ ih => exact (derivGrows_preord E).trans ih (Op.derivGrows E op s)
  have h0 : DerivClean (openTree E Disk.empty).final := run_derivClean (E := E) (A := A) .fresh
  have hh : Chain.Holds E ((openTree E Disk.empty).final.handle o).chain [] := by
    rw [Tree.handle_closed (by rw [(openTree_fresh E).2]; rfl) (h0 o (by rw [(openTree_fresh E).2]; rfl))]
    exact emptyChain_holds E _ _
  obtain ⟨new, h1, h2⟩ := ((key h0).2 o).2 hm _ hh
  have : ∃ ds : List DerivativeBlock, new = ds.map Block.derivative := by
    clear h1
    induction new with
    | nil => exact ⟨[], rfl⟩
    | cons b l ih =>
      obtain ⟨ds, hds⟩ := ih (fun x hx => h2 x (List.mem_cons_of_mem _ hx))
      obtain ⟨d, rfl⟩ := h2 b List.mem_cons_self
      exact ⟨d :: ds, by rw [hds]; rfl⟩
  obtain ⟨ds, rfl⟩ := this
  exact ⟨ds, h1⟩

theorem later_derivGrows {E : Env} {s t : Tree} (h : Later E s t) : DerivGrows E s t := by
  induction h with
  | refl => exact (derivGrows_preord E).refl _
  | call s' op _ ih => exact (derivGrows_preord E).trans ih (Op.derivGrows E op s')

end BCT
