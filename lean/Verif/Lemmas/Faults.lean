import Mathlib.Data.List.Chain
import Verif.Model.Faults
import Verif.Lemmas.Life
/-!
# Calls step by step
-/

namespace BCT
namespace Act
variable {σ τ α β : Type}

/-- Consecutive states of a run are related by `R`; the run ends in the last of them, up to `Q`. -/
def Steps (Q R : σ → σ → Prop) {α : Type} (x : Act σ α) : Prop :=
  ∀ s, List.IsChain R (s :: (x s).trace) ∧ ∃ l, (s :: (x s).trace).getLast? = some l ∧ Q l (x s).final

theorem steps_closed {Q R : σ → σ → Prop} (hQ : PreOrd Q) (hQR : ∀ {a b c}, Q a b → R b c → R a c) :
    Closed (fun {α} (x : Act σ α) => Steps Q R x) where
  pure a s := ⟨by simp, s, by simp, hQ.refl s⟩
  get s := ⟨by simp, s, by simp, hQ.refl s⟩
  lift o s := ⟨by simp, s, by simp, hQ.refl s⟩
  bind := by
    intro α β x f hx hf s
    rcases bind_cases x f s with ⟨a, _, h2, h3, _⟩ | ⟨_, h2, h3, _⟩
    · rw [h2, h3]
      obtain ⟨c1, m, l1, q1⟩ := hx s
      obtain ⟨c2, n, l2, q2⟩ := hf a (x s).final
      rw [← List.cons_append]
      generalize (f a (x s).final).final = fin at *
      generalize (f a (x s).final).trace = tr2 at *
      generalize (x s).final = mid at *
      generalize (x s).trace = tr1 at *
      refine ⟨?_, ?_⟩
      · rw [List.isChain_append]
        refine ⟨c1, (List.isChain_cons.mp c2).2, fun u hu v hv => ?_⟩
        rw [l1] at hu
        cases hu
        exact hQR q1 ((List.isChain_cons.mp c2).1 v hv)
      · cases tr2 with
        | nil =>
          simp at l2
          subst l2
          exact ⟨m, by simpa using l1, hQ.trans q1 q2⟩
        | cons c tr2 =>
          refine ⟨n, ?_, q2⟩
          rw [List.getLast?_append]
          simp [List.getLast?_cons] at l2 ⊢
          exact l2
    · rw [h2, h3]; exact hx s
  void hx s := hx s
  mapErr e hx s := hx s

theorem steps_step {Q R : σ → σ → Prop} (hQ : PreOrd Q) {f : σ → σ} (h : ∀ s, R s (f s)) : Steps Q R (step f) :=
  fun s => ⟨by simp [h], f s, by simp, hQ.refl _⟩

theorem steps_zoom {Q R : σ → σ → Prop} {Q' R' : τ → τ → Prop} {part : τ → σ} {put : σ → τ → τ} {x : Act σ α}
    (L : Lens part put) (hx : Steps Q R x) (hq : ∀ t u v, Q u v → Q' (put u t) (put v t))
    (hr : ∀ t u v, R u v → R' (put u t) (put v t)) : Steps Q' R' (x.zoom part put) := by
  intro t
  obtain ⟨c, m, l, q⟩ := hx (part t)
  rw [zoom_run]
  have e : t :: (x (part t)).trace.map (fun s => put s t) = (part t :: (x (part t)).trace).map (fun s => put s t) := by
    simp [L.put_part]
  simp only [e]
  refine ⟨?_, put m t, ?_, hq t _ _ q⟩
  · rw [List.isChain_map]
    exact c.imp fun u v huv => hr t u v huv
  · rw [List.getLast?_map, l]; rfl

/-- A call that does not touch what `Q` looks at. -/
theorem steps_of_rel {Q R : σ → σ → Prop} (hs : ∀ {a b}, Q a b → Q b a) (hQ : PreOrd Q) (hQR : ∀ {a b}, Q a b → R a b)
    {x : Act σ α} (hx : Rel Q x) : Steps Q R x := by
  intro s
  have hall : ∀ t ∈ s :: (x s).trace, Q s t := by
    intro t ht
    rcases List.mem_cons.mp ht with rfl | ht
    · exact hQ.refl _
    · exact (hx s).2 t ht
  refine ⟨?_, ?_⟩
  · rw [List.isChain_iff_getElem]
    intro i hi
    exact hQR (hQ.trans (hs (hall _ (List.getElem_mem _))) (hall _ (List.getElem_mem _)))
  · obtain ⟨m, hm⟩ : ∃ m, (s :: (x s).trace).getLast? = some m := ⟨_, List.getLast?_eq_getLast_of_ne_nil (by simp)⟩
    exact ⟨m, hm, hQ.trans (hs (hall m (List.mem_of_getLast? hm))) (hx s).1⟩

/-- What holds along a chain of related states. -/
theorem chain_reach {R : σ → σ → Prop} {P : σ → σ → Prop} (hP : PreOrd P) (h : ∀ a b, R a b → P a b) {s t : σ}
    {l : List σ} (hc : List.IsChain R (s :: l)) (ht : t ∈ s :: l) : P s t := by
  induction l generalizing s with
  | nil => simp at ht; subst ht; exact hP.refl _
  | cons u l ih =>
    rcases List.mem_cons.mp ht with rfl | ht
    · exact hP.refl _
    · have := List.isChain_cons_cons.mp hc
      exact hP.trans (h _ _ this.1) (ih this.2 ht)

end Act

/-! ### One effect on the main chain -/

/-- What one effect does to the main chain. -/
inductive Chain.Step1 (E : Env) (s t : Chain) : Prop where
  | same : Chain.Same s t → Chain.Step1 E s t
  | block (b : Block) : b.info.height = s.height →
      (∀ q, t.blocks.get q = if s.height.toBE.val = q then some b.dump else s.blocks.get q) →
      t.heightReference.cur = s.heightReference.cur → t.height = s.height → Chain.Step1 E s t
  | ref (b : Block) : b.info.height = s.height → s.blocks.get s.height.toBE.val = some b.dump →
      t.blocks.cur = s.blocks.cur →
      (∀ q, t.heightReference.get q = if (b.hash E).val = q then some s.height.toBE.val else s.heightReference.get q) →
      t.height = s.height → Chain.Step1 E s t
  | height (b : Block) : b.info.height = s.height →
      s.blocks.get s.height.toBE.val = some b.dump → s.heightReference.get (b.hash E).val = some s.height.toBE.val →
      t.blocks.cur = s.blocks.cur → t.heightReference.cur = s.heightReference.cur →
      t.height.val = s.height.val + 1 → Chain.Step1 E s t

theorem Chain.addBlock_steps (E : Env) (b : Block) :
    Act.Steps Eq (Chain.Step1 E) (Chain.addBlock E b.info.height b.dump) := by
  intro s
  by_cases hb : b.info.height = s.height
  · have s1 : Chain.Step1 E s (s.put1 b.dump) := 
      .block b hb (fun q => by simp [put1]) rfl rfl
    have s2 : Chain.Step1 E (s.put1 b.dump) (s.put2 E b.dump) :=
      .ref b hb (by simp [put1]) rfl (fun q => Db.get_insert _ _ _ _) rfl
    rw [hb]
    by_cases hm : s.height.val + 1 < U256.size
    · rw [addBlock_right hm]
      have s3 : Chain.Step1 E (s.put2 E b.dump) (s.put3 E b.dump ⟨s.height.val + 1, hm⟩) :=
        .height b hb (by simp [put2]) (by simp [put2, Block.hash]) rfl rfl rfl
      exact ⟨by simp [s1, s2, s3], _, by simp, rfl⟩
    · rw [addBlock_max hm]
      exact ⟨by simp [s1, s2], _, by simp, rfl⟩
  · rw [addBlock_wrong hb]
    exact ⟨by simp, _, by simp, rfl⟩

/-- What one effect does to a node's main chain. -/
def MainStep (E : Env) (s t : Tree) : Prop := Chain.Step1 E s.main.chain t.main.chain

theorem onChain_lens : Act.Lens (fun m : MainChain => m.chain) (fun c m => { m with chain := c }) :=
  ⟨fun _ _ => rfl, fun _ _ _ => rfl, fun _ => rfl⟩

theorem MainSame.symm {s t : Tree} (h : MainSame s t) : MainSame t s := ⟨h.1.symm, h.2.1.symm, h.2.2.symm⟩

theorem MainSame.step {E : Env} {a b c : Tree} (h : MainSame a b) (hs : MainStep E b c) : MainStep E a c := by
  obtain ⟨h1, h2, h3⟩ := h
  have g1 : ∀ q, b.main.chain.blocks.get q = a.main.chain.blocks.get q := fun q => by unfold Db.get; rw [h1]
  have g2 : ∀ q, b.main.chain.heightReference.get q = a.main.chain.heightReference.get q := fun q => by
    unfold Db.get; rw [h2]
  cases hs with
  | same h => exact .same (Chain.same_preord.trans ⟨h1, h2, h3⟩ h)
  | block x e1 e2 e3 e4 =>
    simp only [h3, g1] at e1 e2 e4
    exact .block x e1 e2 (e3.trans h2) e4
  | ref x e1 e2 e3 e4 e5 =>
    simp only [h3, g1, g2] at e1 e2 e4 e5
    exact .ref x e1 e2 (e3.trans h1) e4 e5
  | height x e1 e2 e3 e4 e5 e6 =>
    simp only [h3, g1, g2] at e1 e2 e3 e6
    exact .height x e1 e2 e3 (e4.trans h1) (e5.trans h2) e6

theorem main_steps (E : Env) : Prims E (fun _ => True) (fun {α} (x : Act Tree α) => Act.Steps MainSame (MainStep E) x) := by
  have key : ∀ {α : Type} {x : Act Tree α}, Act.Rel MainSame x → Act.Steps MainSame (MainStep E) x :=
    fun h => Act.steps_of_rel MainSame.symm mainSame_preord (fun h => .same h) h
  refine ⟨fun b hb => ?_, fun t => ?_, ?_, fun _ _ => key (Tree.onSummary_mainSame _),
    fun _ _ => key (Tree.onSummary_mainSame _), fun _ _ => key (Tree.onSummary_mainSame _),
    fun _ _ _ _ => key (Tree.onSummary_mainSame _), fun _ _ => key (Tree.onGas_mainSame _),
    fun _ _ => key (Tree.onGas_mainSame _), fun _ _ _ => key (Tree.onGas_mainSame _), key Tree.flush_mainSame,
    key Tree.rotate_mainSame, fun _ => key (Tree.getDeriv_mainSame _ _), fun _ _ => key (Tree.onDeriv_mainSame _ _),
    fun _ => key (Tree.onDeriv_mainSame _ _)⟩
  · refine Act.steps_zoom (Q := Eq) (R := fun a b : MainChain => Chain.Step1 E a.chain b.chain) onMain_lens ?_
      (fun _ _ _ h => h ▸ mainSame_preord.refl _) (fun _ _ _ h => h)
    exact Act.steps_zoom (Q := Eq) onChain_lens (Chain.addBlock_steps E b) (fun _ _ _ h => h ▸ rfl) (fun _ _ _ h => h)
  · refine key (Act.rel_zoom (R := fun a b : MainChain => Chain.Same a.chain b.chain) ?_ (fun _ _ h => h))
    exact Act.rel_step fun _ => Chain.same_preord.refl _
  · exact key (Act.rel_zoom MainChain.flush_same fun _ _ h => h)

/-- Calls step by step. -/
theorem Op.steps (E : Env) (op : Op) : Act.Steps MainSame (MainStep E) (op.run E) :=
  Op.sat (main_steps E) (Act.steps_closed mainSame_preord MainSame.step) op op.adds_true

/-! ### The accepted blocks -/

/-- The chain has accepted the blocks `bs`: they are stored in order of height; references lead to heights up to the
chain's height. -/
structure Chain.Keeps (c : Chain) (bs : List Block) : Prop where
  len : bs.length = c.height.val
  heights : ∀ (i : Nat) (h : i < bs.length), bs[i].info.height.val = i
  stored : ∀ (i : Nat) (h : i < bs.length), c.blocks.get (beBytes 32 i) = some bs[i].dump
  refs : ∀ k v, c.heightReference.get k = some v → ∃ i, i ≤ c.height.val ∧ v = beBytes 32 i

/-- The blocks kept by `s` are kept by `t`. -/
def Chain.Extends (s t : Chain) : Prop := ∀ bs, s.Keeps bs → ∃ new, t.Keeps (bs ++ new)

theorem Chain.extends_preord : Act.PreOrd Chain.Extends where
  refl s bs h := ⟨[], by simpa using h⟩
  trans h1 h2 bs h := by
    obtain ⟨n1, h1⟩ := h1 bs h
    obtain ⟨n2, h2⟩ := h2 _ h1
    exact ⟨n1 ++ n2, by simpa using h2⟩

theorem Chain.Keeps.lt {c : Chain} {bs : List Block} (h : c.Keeps bs) {i : Nat} (hi : i < bs.length) : i < 256 ^ 32 := by
  have := c.height.lt; rw [h.len] at hi; unfold U256.size at this; omega

theorem Chain.Step1.extends {E : Env} {s t : Chain} (h : Chain.Step1 E s t) : s.Extends t := by
  intro bs hb
  have hsz : s.height.val < 256 ^ 32 := s.height.lt
  have hl := hb.len
  cases h with
  | same h =>
    obtain ⟨h1, h2, h3⟩ := h
    refine ⟨[], ?_⟩
    rw [List.append_nil]
    refine ⟨h3 ▸ hb.len, hb.heights, ?_, ?_⟩
    · unfold Db.get; rw [h1]; exact hb.stored
    · unfold Db.get; rw [h2, h3]; exact hb.refs
  | block b e1 e2 e3 e4 =>
    refine ⟨[], ?_⟩
    rw [List.append_nil]
    refine ⟨e4 ▸ hb.len, hb.heights, fun i hi => ?_, ?_⟩
    · rw [e2, if_neg, hb.stored i hi]
      intro e
      have := beBytes_inj hsz (hb.lt hi) e
      omega
    · unfold Db.get; rw [e3, e4]; exact hb.refs
  | ref b e1 e2 e3 e4 e5 =>
    refine ⟨[], ?_⟩
    rw [List.append_nil]
    refine ⟨e5 ▸ hb.len, hb.heights, ?_, fun k v hv => ?_⟩
    · unfold Db.get; rw [e3]; exact hb.stored
    · rw [e4] at hv
      rw [e5]
      split at hv
      · cases hv; exact ⟨s.height.val, Nat.le_refl _, rfl⟩
      · exact hb.refs k v hv
  | height b e1 e2 e3 e4 e5 e6 =>
    refine ⟨[b], ?_, fun i hi => ?_, fun i hi => ?_, fun k v hv => ?_⟩
    · simp [hb.len, e6]
    · by_cases hlt : i < bs.length
      · rw [List.getElem_append_left hlt]; exact hb.heights i hlt
      · rw [List.getElem_append_right (by omega)]
        simp only [List.getElem_singleton, e1]
        simp at hi; omega
    · unfold Db.get; rw [e4]
      by_cases hlt : i < bs.length
      · rw [List.getElem_append_left hlt]; exact hb.stored i hlt
      · rw [List.getElem_append_right (by omega)]
        simp only [List.getElem_singleton]
        have : i = s.height.val := by simp at hi; omega
        rw [this]; exact e2
    · have hv' : s.heightReference.get k = some v := by
        rw [← hv]; unfold Db.get; rw [e5]
      obtain ⟨i, hi, e⟩ := hb.refs k v hv'
      exact ⟨i, by omega, e⟩

/-- Everything a call passes through, and what it ends in, keeps the blocks. -/
theorem Op.extends (E : Env) (op : Op) (s t : Tree) (ht : t = (op.run E s).final ∨ t ∈ (op.run E s).trace) :
    s.main.chain.Extends t.main.chain := by
  obtain ⟨hc, l, hl, hq⟩ := Op.steps E op s
  have hP : Act.PreOrd (fun a b : Tree => a.main.chain.Extends b.main.chain) :=
    ⟨fun _ => Chain.extends_preord.refl _, fun a b => Chain.extends_preord.trans a b⟩
  rcases ht with rfl | ht
  · have h1 : s.main.chain.Extends l.main.chain :=
      Act.chain_reach (P := fun a b : Tree => a.main.chain.Extends b.main.chain) hP (fun _ _ h => Chain.Step1.extends h) hc
        (List.mem_of_getLast? hl)
    exact Chain.extends_preord.trans h1 (Chain.Step1.extends (E := E) (.same hq))
  · exact Act.chain_reach (P := fun a b : Tree => a.main.chain.Extends b.main.chain) hP
      (fun _ _ h => Chain.Step1.extends h) hc (List.mem_cons_of_mem _ ht)

theorem faultyLater_extends {E : Env} {s t : Tree} (h : FaultyLater E s t) : s.main.chain.Extends t.main.chain := by
  induction h with
  | refl => exact Chain.extends_preord.refl _
  | call s' op _ ih => exact Chain.extends_preord.trans ih (Op.extends E op s' _ (.inl rfl))
  | cut s' t op _ ht ih => exact Chain.extends_preord.trans ih (Op.extends E op s' t (.inr ht))

theorem Chain.Holds.keeps {E : Env} {c : Chain} {bs : List Block} (h : c.Holds E bs) : c.Keeps bs :=
  ⟨h.len, h.heights, h.stored, fun k v hv => by
    obtain ⟨i, hi, e, _⟩ := h.refs k v hv
    exact ⟨i, by rw [← h.len]; omega, e⟩⟩

/-! ### References to the accepted blocks -/

/-- The accepted block is referred to under its hash, unless one of the states held another byte string with the same
digest. -/
def RefKept (E : Env) (seen : List Tree) (c : Chain) (bs : List Block) : Prop :=
  ∀ (i : Nat) (h : i < bs.length), c.heightReference.get (bs[i].hash E).val = some (beBytes 32 i) ∨
    ∃ u ∈ seen, ∃ q raw, u.main.chain.blocks.get q = some raw ∧ raw ≠ bs[i].dump ∧ E.sha256 raw = E.sha256 bs[i].dump

/-- What is known of the main chain. -/
def Kept (E : Env) (seen : List Tree) (s : Tree) : Prop := ∃ bs, s.main.chain.Keeps bs ∧ RefKept E seen s.main.chain bs

theorem RefKept.mono {E : Env} {seen seen' : List Tree} {c : Chain} {bs : List Block} (h : RefKept E seen c bs)
    (hs : ∀ u ∈ seen, u ∈ seen') : RefKept E seen' c bs := by
  intro i hi
  rcases h i hi with h | ⟨u, hu, h⟩
  · exact .inl h
  · exact .inr ⟨u, hs u hu, h⟩

theorem MainStep.kept {E : Env} {seen : List Tree} {s t : Tree} (h : MainStep E s t) (hk : Kept E seen s) :
    Kept E (seen ++ [s]) t := by
  obtain ⟨bs, hb, hr⟩ := hk
  have hr' : RefKept E (seen ++ [s]) s.main.chain bs := hr.mono fun u hu => List.mem_append_left _ hu
  obtain ⟨new, hn⟩ := Chain.Step1.extends h bs hb
  have hl := hb.len
  cases h with
  | same h =>
    have : new = [] := by
      have := hn.len
      rw [h.2.2, List.length_append] at this
      exact List.eq_nil_of_length_eq_zero (by omega)
    subst this
    rw [List.append_nil] at hn
    refine ⟨bs, hn, fun i hi => ?_⟩
    unfold Db.get
    rw [h.2.1]
    exact hr' i hi
  | block b e1 e2 e3 e4 =>
    have : new = [] := by
      have := hn.len
      rw [e4, List.length_append] at this
      exact List.eq_nil_of_length_eq_zero (by omega)
    subst this
    rw [List.append_nil] at hn
    refine ⟨bs, hn, fun i hi => ?_⟩
    unfold Db.get
    rw [e3]
    exact hr' i hi
  | ref b e1 e2 e3 e4 e5 =>
    have : new = [] := by
      have := hn.len
      rw [e5, List.length_append] at this
      exact List.eq_nil_of_length_eq_zero (by omega)
    subst this
    rw [List.append_nil] at hn
    refine ⟨bs, hn, fun i hi => ?_⟩
    rw [e4]
    split
    · rename_i e
      refine .inr ⟨s, by simp, _, b.dump, e2, fun ed => ?_, Subtype.ext e⟩
      have := Block.dump_inj ed
      have h2 := hb.heights i hi
      rw [← this, e1] at h2
      omega
    · exact hr' i hi
  | height b e1 e2 e3 e4 e5 e6 =>
    obtain ⟨b', rfl⟩ : ∃ b', new = [b'] := by
      have := hn.len
      rw [e6, List.length_append] at this
      exact List.length_eq_one_iff.mp (by omega)
    have hbd : b' = b := by
      have := hn.stored bs.length (by simp)
      rw [List.getElem_append_right (by omega)] at this
      simp only [Nat.sub_self, List.getElem_cons_zero] at this
      have e : t.main.chain.blocks.get (beBytes 32 bs.length) = some b.dump := by
        unfold Db.get; rw [e4, hl]; exact e2
      rw [e] at this
      exact (Block.dump_inj (Option.some.inj this)).symm
    subst hbd
    refine ⟨bs ++ [b'], hn, fun i hi => ?_⟩
    unfold Db.get
    rw [e5]
    by_cases hlt : i < bs.length
    · rw [List.getElem_append_left hlt]; exact hr' i hlt
    · rw [List.getElem_append_right (by omega)]
      have : i = s.main.chain.height.val := by simp at hi; omega
      simp only [List.getElem_singleton]
      rw [this]; exact .inl e3

theorem kept_along {E : Env} {l : List Tree} {seen : List Tree} {s t : Tree} (hc : List.IsChain (MainStep E) (s :: l ++ [t]))
    (hk : Kept E seen s) : Kept E (seen ++ s :: l) t := by
  induction l generalizing s seen with
  | nil => exact MainStep.kept (List.isChain_cons_cons.mp hc).1 hk
  | cons u l ih =>
    have h := List.isChain_cons_cons.mp hc
    have := ih h.2 (MainStep.kept h.1 hk)
    simpa using this

theorem Kept.same {E : Env} {seen : List Tree} {s t : Tree} (h : MainSame s t) (hk : Kept E seen s) : Kept E seen t := by
  obtain ⟨bs, hb, hr⟩ := hk
  obtain ⟨h1, h2, h3⟩ := h
  refine ⟨bs, ⟨h3 ▸ hb.len, hb.heights, ?_, ?_⟩, fun i hi => ?_⟩
  · unfold Db.get; rw [h1]; exact hb.stored
  · unfold Db.get; rw [h2, h3]; exact hb.refs
  · unfold Db.get; rw [h2]; exact hr i hi

theorem Kept.more {E : Env} {seen seen' : List Tree} {s : Tree} (hk : Kept E seen s) (hs : ∀ u ∈ seen, u ∈ seen') :
    Kept E seen' s := by
  obtain ⟨bs, hb, hr⟩ := hk
  exact ⟨bs, hb, hr.mono hs⟩

theorem fresh_holds (E : Env) : Chain.Holds E (openTree E Disk.empty).final.main.chain [genesis E] := by
  rw [(openTree_fresh E).2]; exact bootChain_holds E _ _

theorem fresh_kept (E : Env) : Kept E [] (openTree E Disk.empty).final := by
  have h := fresh_holds E
  refine ⟨[genesis E], h.keeps, fun i hi => .inl ?_⟩
  obtain ⟨v, hv⟩ := h.found i hi
  obtain ⟨j, hj, e, _⟩ := h.refs _ _ hv
  have h1 : i = 0 := by simp at hi; omega
  have h2 : j = 0 := by simp at hj; omega
  subst h1 h2
  rw [hv, e]

theorem faultyHistory_kept {E : Env} {seen : List Tree} {s : Tree} (h : FaultyHistory E seen s) : Kept E seen s := by
  induction h with
  | fresh => exact fresh_kept E
  | call seen s op _ ih =>
    obtain ⟨hc, l, hl, hq⟩ := Op.steps E op s
    refine Kept.same hq ?_
    rcases List.eq_nil_or_concat (op.run E s).trace with h0 | ⟨tr, u, hu⟩
    · rw [h0] at hl ⊢
      simp at hl
      subst hl
      exact ih.more fun u hu => List.mem_append_left _ hu
    · rw [List.concat_eq_append] at hu
      rw [hu] at hl hc ⊢
      rw [← List.cons_append, List.getLast?_append] at hl
      simp at hl
      subst hl
      exact (kept_along (by simpa using hc) ih).more fun v hv => by
        simp only [List.mem_append, List.mem_cons] at hv ⊢
        tauto
  | cut seen s t op before after _ htr ih =>
    obtain ⟨hc, _⟩ := Op.steps E op s
    rw [htr] at hc
    refine kept_along ?_ ih
    have : s :: (before ++ t :: after) = (s :: before ++ [t]) ++ after := by simp
    rw [this] at hc
    exact hc.left_of_append

theorem faultyHistory_run {E : Env} {seen : List Tree} {s : Tree} (h : FaultyHistory E seen s) : FaultyRun E s := by
  induction h with
  | fresh => exact .refl
  | call seen s op _ ih => exact .call _ op ih
  | cut seen s t op b a _ e ih => exact .cut _ t op ih (by rw [e]; simp)

theorem faultyRun_history {E : Env} {s : Tree} (h : FaultyRun E s) : ∃ seen, FaultyHistory E seen s := by
  unfold FaultyRun at h
  induction h with
  | refl => exact ⟨_, .fresh⟩
  | call s' op _ ih => obtain ⟨seen, ih⟩ := ih; exact ⟨_, .call _ _ op ih⟩
  | cut s' t op _ ht ih =>
    obtain ⟨seen, ih⟩ := ih
    obtain ⟨b, a, e⟩ := List.append_of_mem ht
    exact ⟨_, .cut _ _ t op b a ih e⟩

theorem faultyRun_keeps {E : Env} {s : Tree} (h : FaultyRun E s) : ∃ bs, s.main.chain.Keeps bs := by
  obtain ⟨new, h⟩ := faultyLater_extends h _ (fresh_holds E).keeps
  exact ⟨_, h⟩

/-! ### Stores -/

/-- An invariant of nodes whose calls may be cut short. -/
theorem faultyLife_inv {E : Env} {P : Tree → Prop} {Q : Disk → Prop} (h0 : Q Disk.empty) (hb : ∀ d, Q d → P d.boot)
    (hn : Act.Rel (fun s t => P s → P t) (Tree.new E))
    (ho : ∀ op : Op, Act.Rel (fun s t => P s → P t) (op.run E))
    (hc : ∀ t d, P t → Crash t d → Q d) {m : Moment} (h : FaultyLife E m) :
    match m with
    | .idle t => P t
    | .busy t => P t
    | .down d => Q d := by
  induction h with
  | start => exact h0
  | opening d t _ ht ih => exact (hn d.boot).2 t ht (hb d ih)
  | opened d _ _ ih => exact (hn d.boot).1 (hb d ih)
  | running s t op _ ht ih => exact (ho op s).2 t ht ih
  | call s op _ ih => exact (ho op s).1 ih
  | cut s t op _ ht ih => exact (ho op s).2 t ht ih
  | crashIdle s d _ hd ih => exact hc s d ih hd
  | crashBusy s d _ hd ih => exact hc s d ih hd

theorem faultyLife_storeInv {E : Env} {m : Moment} (h : FaultyLife E m) :
    match m with
    | .idle t => StoreInv E t
    | .busy t => StoreInv E t
    | .down d => DiskInv E d := by
  refine faultyLife_inv (P := StoreInv E) (Q := DiskInv E) ?_ ?_ ?_ (Op.storeInv E) ?_ h
  · exact ⟨fun k v h => by simp [Disk.empty] at h, KV.dec_empty, KV.dec_empty, KV.dec_empty, KV.dec_empty⟩
  · intro d h
    exact ⟨Db.all_open h.txs, Db.all_open h.summary, Db.all_open h.oldSummary, Db.all_open h.gas, Db.all_open h.oldGas⟩
  · refine Tree.new_rel (Act.inv_preord _) (fun _ h => ⟨h.txs, h.summary, h.oldSummary, h.gas, h.oldGas⟩)
      (fun _ _ _ h => ⟨h.txs, h.summary, h.oldSummary, h.gas, h.oldGas⟩) (storeInv_prims.addBlock _ trivial)
      (storeInv_prims.setAmount _ _)
  · intro t d h hc
    exact ⟨h.txs.2 _ hc.transactions, h.summary.2 _ hc.summary, h.oldSummary.2 _ hc.oldSummary, h.gas.2 _ hc.gas,
      h.oldGas.2 _ hc.oldGas⟩

theorem faultyRun_life {E : Env} {s : Tree} (h : FaultyRun E s) : FaultyLife E (.idle s) := by
  unfold FaultyRun at h
  induction h with
  | refl => exact .opened _ .start (openTree_fresh E).1
  | call s' op _ ih => exact .call _ op ih
  | cut s' t op _ ht ih => exact .cut _ t op ih ht

theorem faultyLater_life {E : Env} {s t : Tree} (hs : FaultyLife E (.idle s)) (h : FaultyLater E s t) :
    FaultyLife E (.idle t) := by
  induction h with
  | refl => exact hs
  | call s' op _ ih => exact .call _ op ih
  | cut s' t op _ ht ih => exact .cut _ t op ih ht

theorem run_faultyRun {E : Env} {s : Tree} (h : Run E s) : FaultyRun E s := by
  induction h with
  | fresh => exact .refl
  | call s op _ _ ih => exact .call _ op ih

end BCT
