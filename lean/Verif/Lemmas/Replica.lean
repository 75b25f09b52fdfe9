import Verif.Lemmas.Emit
import Verif.Lemmas.Inject
/-!
# Chains as the blocks added to them
-/

namespace BCT

/-- Adding the blocks `bs` one after the other to `s`, each at the next height, gives the contents of `t`. -/
def Chain.Adds (E : Env) : Chain → List Block → Chain → Prop
  | s, [], t => Same s t
  | s, b :: bs, t => b.info.height = s.height ∧ s.height.val + 1 < U256.size ∧
      Adds E (Chain.addBlock E b.info.height b.dump s).final bs t

namespace Chain

theorem addBlock_congr {E : Env} {s t : Chain} {b : Block} (h : Same s t) (hb : b.info.height = s.height)
    (hm : s.height.val + 1 < U256.size) :
    Same (Chain.addBlock E b.info.height b.dump s).final (Chain.addBlock E b.info.height b.dump t).final := by
  obtain ⟨h1, h2, h3⟩ := h
  have hm' : t.height.val + 1 < U256.size := by rw [h3]; exact hm
  have hb' : b.info.height = t.height := by rw [h3]; exact hb
  have e1 : (Chain.addBlock E b.info.height b.dump s).final = s.put3 E b.dump ⟨s.height.val + 1, hm⟩ := by
    rw [hb, addBlock_right hm]
  have e2 : (Chain.addBlock E b.info.height b.dump t).final = t.put3 E b.dump ⟨t.height.val + 1, hm'⟩ := by
    rw [hb', addBlock_right hm']
  rw [e1, e2]
  refine ⟨?_, ?_, ?_⟩
  · simp only [put3, Db.insert, Db.commit, h1, h3]
  · simp only [put3, Db.insert, Db.commit, h2, h3]
  · simp only [put3, h3]

theorem Same.symm {s t : Chain} (h : Same s t) : Same t s := ⟨h.1.symm, h.2.1.symm, h.2.2.symm⟩

theorem Adds.of_same {E : Env} : ∀ {s s' t : Chain} {bs : List Block}, Same s s' → Adds E s' bs t → Adds E s bs t
  | _, _, _, [], h, ha => same_preord.trans h ha
  | _, _, _, _ :: _, h, ⟨h1, h2, h3⟩ => by
    rw [h.2.2] at h1 h2
    exact ⟨h1, h2, h3.of_same (addBlock_congr h h1 h2)⟩

theorem Adds.trans {E : Env} : ∀ {s a t : Chain} {bs cs : List Block}, Adds E s bs a → Adds E a cs t → Adds E s (bs ++ cs) t
  | _, _, _, [], _, h, ha => ha.of_same h
  | _, _, _, _ :: _, _, ⟨h1, h2, h3⟩, ha => ⟨h1, h2, h3.trans ha⟩

theorem Adds.holds {E : Env} : ∀ {s t : Chain} {bs l : List Block}, Holds E s l → Adds E s bs t → Holds E t (l ++ bs)
  | _, _, [], l, h, ha => by rw [List.append_nil]; exact h.same ha
  | _, _, b :: bs, l, h, ⟨h1, h2, h3⟩ => by
    have := h3.holds (h.addBlock h1 h2)
    rwa [List.append_assoc] at this

/-- `t` is what adding some blocks to `s` gives. -/
def Built (E : Env) (s t : Chain) : Prop :=
  s.height.val ≤ t.height.val ∧ (t.height.val + 1 < U256.size → ∃ bs, Adds E s bs t)

theorem built_preord (E : Env) : Act.PreOrd (Built E) where
  refl s := ⟨Nat.le_refl _, fun _ => ⟨[], same_preord.refl s⟩⟩
  trans := by
    rintro a b c ⟨h1, h2⟩ ⟨h3, h4⟩
    refine ⟨Nat.le_trans h1 h3, fun hc => ?_⟩
    obtain ⟨n1, hn1⟩ := h2 (by omega)
    obtain ⟨n2, hn2⟩ := h4 hc
    exact ⟨n1 ++ n2, hn1.trans hn2⟩

theorem Same.built {E : Env} {s t : Chain} (h : Same s t) : Built E s t :=
  ⟨by rw [h.2.2]; exact Nat.le_refl _, fun _ => ⟨[], h⟩⟩

theorem addBlock_built {E : Env} (b : Block) : Act.RelF (Built E) (Chain.addBlock E b.info.height b.dump) := by
  intro s
  by_cases hb : b.info.height = s.height
  · by_cases hm : s.height.val + 1 < U256.size
    · refine ⟨?_, fun _ => ⟨[b], hb, hm, same_preord.refl _⟩⟩
      rw [hb, addBlock_right hm]; simp [put3]
    · rw [hb, addBlock_max hm]
      exact ⟨Nat.le_refl _, fun h => absurd h hm⟩
  · rw [addBlock_wrong hb]; exact (built_preord E).refl s

end Chain

/-- The same for the node's main chain. -/
def MainBuilt (E : Env) (s t : Tree) : Prop := Chain.Built E s.main.chain t.main.chain

theorem mainBuilt_preord (E : Env) : Act.PreOrd (MainBuilt E) where
  refl _ := (Chain.built_preord E).refl _
  trans h1 h2 := (Chain.built_preord E).trans h1 h2

theorem mainBuilt_prims (E : Env) :
    Prims E (fun _ => True) (fun {α} (x : Act Tree α) => Act.RelF (MainBuilt E) x) := by
  have key : ∀ {α : Type} {x : Act Tree α}, Act.Rel MainSame x → Act.RelF (MainBuilt E) x :=
    fun h => (h.mono fun _ _ h => h.built).relF
  refine ⟨fun b _ => ?_, fun t => ?_, ?_, fun _ _ => key (Tree.onSummary_mainSame _),
    fun _ _ => key (Tree.onSummary_mainSame _), fun _ _ => key (Tree.onSummary_mainSame _),
    fun _ _ _ _ => key (Tree.onSummary_mainSame _), fun _ _ => key (Tree.onGas_mainSame _),
    fun _ _ => key (Tree.onGas_mainSame _), fun _ _ _ => key (Tree.onGas_mainSame _), key Tree.flush_mainSame,
    key Tree.rotate_mainSame, fun _ => key (Tree.getDeriv_mainSame _ _), fun _ _ => key (Tree.onDeriv_mainSame _ _),
    fun _ => key (Tree.onDeriv_mainSame _ _)⟩
  · refine Act.relF_zoom (R := fun a b : MainChain => Chain.Built E a.chain b.chain) ?_ (fun _ _ h => h)
    exact Act.relF_zoom (part := fun m : MainChain => m.chain) (put := fun c m => { m with chain := c })
      (Chain.addBlock_built b) (fun _ _ h => h)
  · refine key (Act.rel_zoom (R := fun a b : MainChain => Chain.Same a.chain b.chain) ?_ (fun _ _ h => h))
    exact Act.rel_step fun _ => Chain.same_preord.refl _
  · exact key (Act.rel_zoom MainChain.flush_same fun _ _ h => h)

/-- The chain of a running node is the fresh node's with some blocks added. -/
theorem run_built {E : Env} {s : Tree} (hr : Run E s) : MainBuilt E (openTree E Disk.empty).final s := by
  induction hr with
  | fresh => exact (mainBuilt_preord E).refl _
  | call s op _ _ ih =>
    exact (mainBuilt_preord E).trans ih (Op.sat (mainBuilt_prims E) (Act.relF_closed (mainBuilt_preord E)) op op.adds_true s)

theorem addTxs_mainSame (E : Env) (ts : List Transaction) : Act.Rel MainSame (Tree.onMain (MainChain.addTransactions E ts)) := by
  have C := Act.rel_closed mcSame_preord
  unfold Tree.onMain MainChain.addTransactions
  exact Act.rel_zoom (C.forEach fun t => Act.rel_step fun _ => Chain.same_preord.refl _) fun _ _ h => h

theorem addTxs_ok (E : Env) : ∀ (ts : List Transaction) (m : MainChain), (MainChain.addTransactions E ts m).out = .ok ()
  | [], _ => rfl
  | t :: ts, m => by
    show ((MainChain.addTransaction E t >>= fun _ => MainChain.addTransactions E ts) m).out = _
    have h : MainChain.addTransaction E t m = ⟨.ok (), _, _⟩ := rfl
    rw [Act.bind_ok h]
    exact addTxs_ok E ts _

/-- Adding a block of the right height together with its transactions. -/
theorem addNewBlock_right (E : Env) (s : Tree) (b : Block) (txs : List Transaction) (hb : b.info.height = s.main.chain.height)
    (hm : s.main.chain.height.val + 1 < U256.size) :
    ((Op.addNewBlock b txs).run E s).out = .ok () ∧
    Chain.Same (Chain.addBlock E b.info.height b.dump s.main.chain).final ((Op.addNewBlock b txs).run E s).final.main.chain := by
  have h1 : (Tree.onMain (MainChain.addBlock E b) s).out = .ok () := by
    show (Chain.addBlock E b.info.height b.dump s.main.chain).out = _
    rw [hb, Chain.addBlock_right hm]
  have h2 : (Tree.onMain (MainChain.addBlock E b) s).final.main.chain =
      (Chain.addBlock E b.info.height b.dump s.main.chain).final := rfl
  change ((Tree.addNewBlock E b txs) s).out = _ ∧ Chain.Same _ (Tree.addNewBlock E b txs s).final.main.chain
  unfold Tree.addNewBlock
  rw [Act.bind_ok (x := Tree.onMain (MainChain.addBlock E b)) (s := s) (s' := (Tree.onMain (MainChain.addBlock E b) s).final)
    (t := (Tree.onMain (MainChain.addBlock E b) s).trace) (a := ()) (by rw [← h1])]
  refine ⟨addTxs_ok E txs _, ?_⟩
  rw [← h2]
  exact (addTxs_mainSame E txs _).1

end BCT
