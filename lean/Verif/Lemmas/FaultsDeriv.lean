import Verif.Lemmas.Deriv
import Verif.Lemmas.Faults
/-!
# Derivative chains on nodes whose calls may be cut short
-/

namespace BCT

/-- The chain has accepted the blocks `bs`, which are as `P` says. -/
structure Chain.KeepsOf (P : Block → Prop) (c : Chain) (bs : List Block) : Prop where
  keeps : c.Keeps bs
  all : ∀ b ∈ bs, P b

/-- One effect on a chain whose blocks are as `P` says. -/
def Chain.StepOf (E : Env) (P : Block → Prop) (s t : Chain) : Prop :=
  Chain.Step1 E s t ∧ (t.height ≠ s.height → ∃ b, P b ∧ b.info.height = s.height ∧
    s.blocks.get s.height.toBE.val = some b.dump)

/-- The blocks kept by `s` are kept by `t`. -/
def Chain.ExtendsOf (P : Block → Prop) (s t : Chain) : Prop := ∀ bs, s.KeepsOf P bs → ∃ new, t.KeepsOf P (bs ++ new)

theorem Chain.extendsOf_preord (P : Block → Prop) : Act.PreOrd (Chain.ExtendsOf P) where
  refl s bs h := ⟨[], by simpa using h⟩
  trans h1 h2 bs h := by
    obtain ⟨n1, h1⟩ := h1 bs h
    obtain ⟨n2, h2⟩ := h2 _ h1
    exact ⟨n1 ++ n2, by simpa using h2⟩

theorem Chain.stepOf_same {E : Env} {P : Block → Prop} {s t : Chain} (h : Chain.Same s t) : Chain.StepOf E P s t :=
  ⟨.same h, fun e => absurd h.2.2 e⟩

theorem Chain.StepOf.extends {E : Env} {P : Block → Prop} {s t : Chain} (h : Chain.StepOf E P s t) :
    Chain.ExtendsOf P s t := by
  intro bs hb
  obtain ⟨h1, h2⟩ := h
  obtain ⟨new, hn⟩ := h1.extends bs hb.keeps
  have hl := hn.len
  rw [List.length_append, hb.keeps.len] at hl
  by_cases he : t.height = s.height
  · rw [he] at hl
    have : new = [] := List.eq_nil_of_length_eq_zero (by omega)
    subst this
    exact ⟨[], hn, by simpa using hb.all⟩
  · obtain ⟨b, p, e1, e2⟩ := h2 he
    cases h1 with
    | same h => exact absurd h.2.2 he
    | block _ _ _ _ h => exact absurd h he
    | ref _ _ _ _ _ h => exact absurd h he
    | height b' _ e3 _ e4 e5 e6 =>
      refine ⟨[b], ⟨?_, ?_, ?_, hn.refs⟩, ?_⟩
      · rw [List.length_append, hb.keeps.len, e6]; rfl
      · intro i hi
        by_cases hi' : i < bs.length
        · rw [List.getElem_append_left hi']; exact hb.keeps.heights i hi'
        · have hle : bs.length = i := by simp at hi; omega
          rw [List.getElem_append_right (by omega)]
          simp only [hle, Nat.sub_self, List.getElem_cons_zero]
          rw [e1, ← hle, hb.keeps.len]
      · intro i hi
        unfold Db.get
        rw [e4]
        by_cases hi' : i < bs.length
        · rw [List.getElem_append_left hi']; exact hb.keeps.stored i hi'
        · have hle : bs.length = i := by simp at hi; omega
          rw [List.getElem_append_right (by omega)]
          simp only [hle, Nat.sub_self, List.getElem_cons_zero]
          rw [← hle, hb.keeps.len]
          exact e2
      · intro x hx
        rcases List.mem_append.mp hx with hx | hx
        · exact hb.all x hx
        · rw [List.mem_singleton.mp hx]; exact p

theorem Chain.addBlock_stepsOf (E : Env) {P : Block → Prop} {b : Block} (p : P b) :
    Act.Steps Eq (Chain.StepOf E P) (Chain.addBlock E b.info.height b.dump) := by
  intro s
  by_cases hb : b.info.height = s.height
  · have s1 : Chain.StepOf E P s (s.put1 b.dump) :=
      ⟨.block b hb (fun q => by simp [put1]) rfl rfl, fun e => absurd rfl e⟩
    have s2 : Chain.StepOf E P (s.put1 b.dump) (s.put2 E b.dump) :=
      ⟨.ref b hb (by simp [put1]) rfl (fun q => Db.get_insert _ _ _ _) rfl, fun e => absurd rfl e⟩
    rw [hb]
    by_cases hm : s.height.val + 1 < U256.size
    · rw [addBlock_right hm]
      have s3 : Chain.StepOf E P (s.put2 E b.dump) (s.put3 E b.dump ⟨s.height.val + 1, hm⟩) :=
        ⟨.height b hb (by simp [put2]) (by simp [put2, Block.hash]) rfl rfl rfl, fun _ => ⟨b, p, hb, by simp [put2]⟩⟩
      exact ⟨by simp [s1, s2, s3], _, by simp, rfl⟩
    · rw [addBlock_max hm]
      exact ⟨by simp [s1, s2], _, by simp, rfl⟩
  · rw [addBlock_wrong hb]
    exact ⟨by simp, _, by simp, rfl⟩

theorem Chain.addBlock_extendsOf (E : Env) {P : Block → Prop} {b : Block} (p : P b) :
    Act.Rel (Chain.ExtendsOf P) (Chain.addBlock E b.info.height b.dump) := by
  intro s
  obtain ⟨h1, m, h2, h3⟩ := Chain.addBlock_stepsOf E p s
  have hall : ∀ t ∈ s :: (Chain.addBlock E b.info.height b.dump s).trace, Chain.ExtendsOf P s t := fun t ht =>
    Act.chain_reach (Chain.extendsOf_preord P) (fun _ _ h => h.extends) h1 ht
  exact ⟨h3 ▸ hall m (List.mem_of_getLast? h2), fun t ht => hall t (List.mem_cons_of_mem _ ht)⟩

/-- The blocks of every derivative chain are kept. -/
def DerivExt (s t : Tree) : Prop :=
  DerivClean s → DerivClean t ∧ ∀ o, Chain.ExtendsOf Block.IsDeriv (s.handle o).chain (t.handle o).chain

theorem derivExt_preord : Act.PreOrd DerivExt where
  refl _ h := ⟨h, fun _ => (Chain.extendsOf_preord _).refl _⟩
  trans h1 h2 h := ⟨(h2 (h1 h).1).1, fun o => (Chain.extendsOf_preord _).trans ((h1 h).2 o) ((h2 (h1 h).1).2 o)⟩

theorem Chain.Same.extendsOf {P : Block → Prop} {s t : Chain} (h : Chain.Same s t) : Chain.ExtendsOf P s t :=
  (Chain.stepOf_same (E := ⟨fun _ => ⟨List.replicate 32 0, by simp⟩, true⟩) h).extends

theorem DerivSame.ext {s t : Tree} (h : DerivSame s t) : DerivExt s t := by
  intro hc
  refine ⟨fun o ho => ?_, fun o => ?_⟩
  · rw [h.1]; exact hc o (by rw [← h.2]; exact ho)
  · rw [h.handle]; exact (Chain.extendsOf_preord _).refl _

theorem putHandle_ext {o : Address} {c : DerivativeChain} {t : Tree}
    (h : Chain.ExtendsOf Block.IsDeriv (t.handle o).chain c.chain) : DerivExt t (Tree.putHandle o c t) := by
  intro hc
  refine ⟨fun o' ho' => ?_, fun o' => ?_⟩
  · by_cases he : o' = o
    · subst he; rw [Tree.putHandle_mem_self] at ho'; cases ho'
    · rw [(Tree.putHandle_mem_other c t he).2]
      rw [(Tree.putHandle_mem_other c t he).1] at ho'
      exact hc o' ho'
  · by_cases he : o' = o
    · subst he; rw [Tree.handle_put_self]; exact h
    · rw [Tree.handle_put_other c t he]; exact (Chain.extendsOf_preord _).refl _

theorem Tree.onDeriv_ext {α : Type} {o : Address} {x : Act DerivativeChain α}
    (hx : Act.Rel (fun a b : DerivativeChain => Chain.ExtendsOf Block.IsDeriv a.chain b.chain) x) :
    Act.Rel DerivExt (Tree.onDeriv o x) :=
  Act.rel_zoom hx fun _ _ h => putHandle_ext h

theorem Tree.getDeriv_ext (E : Env) (o : Address) : Act.Rel DerivExt (Tree.getDerivativeChain E o) := by
  intro s
  rcases Tree.getDeriv_cases E o s with ⟨_, h⟩ | ⟨hm, ⟨out, _, h⟩ | ⟨b, c, _, hc, h⟩⟩
  · rw [h]; exact ⟨derivExt_preord.refl s, by simp⟩
  · rw [h]; exact ⟨derivExt_preord.refl s, by simp⟩
  · rw [h]
    have key : DerivExt s (Tree.putHandle o c s) := by
      intro hcl
      refine putHandle_ext ?_ hcl
      have hf := hcl o hm
      rw [hf, DerivativeChain.new_fresh] at hc
      cases hc
      rw [Tree.handle_closed hm hf]
      exact (Chain.extendsOf_preord _).refl _
    exact ⟨key, fun t ht => by rw [List.mem_singleton.mp ht]; exact key⟩

theorem derivExt_prims (E : Env) : Prims E (fun _ => True) (fun {α} (x : Act Tree α) => Act.Rel DerivExt x) := by
  have key : ∀ {α : Type} {x : Act Tree α}, Act.Rel DerivSame x → Act.Rel DerivExt x :=
    fun h => h.mono fun _ _ h => h.ext
  refine ⟨fun _ _ => key (Tree.onMain_derivSame _), fun _ => key (Tree.onMain_derivSame _), key (Tree.onMain_derivSame _),
    fun _ _ => key (Tree.onSummary_derivSame _),
    fun _ _ => key (Tree.onSummary_derivSame _), fun _ _ => key (Tree.onSummary_derivSame _),
    fun _ _ _ _ => key (Tree.onSummary_derivSame _), fun _ _ => key (Tree.onGas_derivSame _),
    fun _ _ => key (Tree.onGas_derivSame _), fun _ _ _ => key (Tree.onGas_derivSame _), key Tree.flush_derivSame,
    key Tree.rotate_derivSame, fun o => Tree.getDeriv_ext E o, fun o b => ?_, fun o => ?_⟩
  · refine Tree.onDeriv_ext (Act.rel_zoom (part := fun m : DerivativeChain => m.chain)
      (put := fun c m => { m with chain := c })
      (Chain.addBlock_extendsOf E (b := .derivative b) ⟨b, rfl⟩) (fun _ _ h => h))
  · exact Tree.onDeriv_ext (DerivativeChain.flush_same.mono fun _ _ h => h.extendsOf)

theorem Op.derivExt (E : Env) (op : Op) : Act.Rel DerivExt (op.run E) :=
  Op.sat (derivExt_prims E) (Act.rel_closed derivExt_preord) op op.adds_true

theorem faultyLater_derivExt {E : Env} {s t : Tree} (h : FaultyLater E s t) : DerivExt s t := by
  induction h with
  | refl => exact derivExt_preord.refl _
  | call s' op _ ih => exact derivExt_preord.trans ih (Op.derivExt E op s').1
  | cut s' t op _ ht ih => exact derivExt_preord.trans ih ((Op.derivExt E op s').2 t ht)

theorem fresh_derivClean (E : Env) : DerivClean (openTree E Disk.empty).final :=
  run_derivClean (E := E) (A := fun _ => True) .fresh

/-- Every derivative chain of a node whose calls may have been cut short keeps the blocks it has accepted. -/
theorem faultyRun_derivKeeps {E : Env} {s : Tree} (h : FaultyRun E s) (o : Address) :
    ∃ bs, (s.handle o).chain.KeepsOf Block.IsDeriv bs := by
  have h0 := fresh_derivClean E
  have hh : Chain.KeepsOf Block.IsDeriv ((openTree E Disk.empty).final.handle o).chain [] := by
    rw [Tree.handle_closed (by rw [(openTree_fresh E).2]; rfl) (h0 o (by rw [(openTree_fresh E).2]; rfl))]
    exact ⟨(emptyChain_holds E _ _).keeps, by simp⟩
  obtain ⟨new, h1⟩ := (faultyLater_derivExt h h0).2 o _ hh
  exact ⟨_, h1⟩

end BCT
