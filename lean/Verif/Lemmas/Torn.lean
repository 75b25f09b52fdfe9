import Verif.Lemmas.DurableCrash
import Verif.Spec.Torn
/-!
# Dying in the middle of writing things out
-/

namespace BCT
open BCT.Props

/-- All that may be left of the one may be left of the other, but for the configuration files. -/
structure Tree.Sub (s t : Tree) : Prop where
  blocks : s.main.chain.blocks.Less t.main.chain.blocks
  refs : s.main.chain.heightReference.Less t.main.chain.heightReference
  txs : s.main.transactions.Less t.main.transactions
  summary : s.summary.Less t.summary
  oldSummary : s.oldSummary.Less t.oldSummary
  gas : s.gas.Less t.gas
  oldGas : s.oldGas.Less t.oldGas
  deriv : ∀ n, (s.derivFiles n).blocks.Less (t.derivFiles n).blocks ∧
    (s.derivFiles n).heightReference.Less (t.derivFiles n).heightReference

theorem Tree.sub_refl (t : Tree) : t.Sub t :=
  ⟨Db.less_refl _, Db.less_refl _, Db.less_refl _, Db.less_refl _, Db.less_refl _, Db.less_refl _, Db.less_refl _,
    fun _ => ⟨Db.less_refl _, Db.less_refl _⟩⟩

theorem Tree.Less.sub {s t : Tree} (h : s.Less t) : s.Sub t :=
  ⟨h.chain.1, h.chain.2.1, h.txs, h.summary, h.oldSummary, h.gas, h.oldGas, fun n => ⟨(h.deriv n).1, (h.deriv n).2.1⟩⟩

theorem Db.less_flush {d : Db} (h : d.Sound) : d.flush.Less d := fun m hm => by
  rw [List.mem_singleton.mp hm]; exact h

/-- What is left, with the configuration files of another moment. -/
def Disk.counting (d : Disk) (t : Tree) : Disk :=
  { d with config := t.main.chain.config, deriv := fun n => { d.deriv n with config := (t.derivFiles n).config } }

theorem Tree.Sub.crash {s t : Tree} (h : s.Sub t) {d : Disk} (hc : Crash s d) : Crash t (d.counting t) where
  blocks := h.blocks _ hc.blocks
  heightReference := h.refs _ hc.heightReference
  transactions := h.txs _ hc.transactions
  config := rfl
  summary := h.summary _ hc.summary
  oldSummary := h.oldSummary _ hc.oldSummary
  gas := h.gas _ hc.gas
  oldGas := h.oldGas _ hc.oldGas
  deriv n := ⟨(h.deriv n).1 _ (hc.deriv n).1, (h.deriv n).2 _ (hc.deriv n).2.1, rfl⟩

section
variable {E : Env} {f : Spec.Frail}

theorem FitsData.counting {l : Spec.Frail.Left E f} {d : Disk} (t : Tree) (h : FitsData E f l d) : FitsData E f l (d.counting t) :=
  ⟨h.blocks, h.refs, h.txs, h.coins, h.gas, h.oldCoins, h.oldGas, h.deriv⟩

theorem FitsData.uncounting {l : Spec.Frail.Left E f} {d : Disk} {t : Tree} (h : FitsData E f l (d.counting t)) : FitsData E f l d :=
  ⟨h.blocks, h.refs, h.txs, h.coins, h.gas, h.oldCoins, h.oldGas, h.deriv⟩

end

/-! ## The flushes, step by step -/

/-- The main chain's configuration file is written. -/
def Tree.wrote (t : Tree) (c : Bytes) : Tree :=
  { t with main := { t.main with chain := { t.main.chain with config := some c } } }

/-- What the file says. -/
def Tree.newConfig (t : Tree) : Bytes := t.main.chain.height.toBE.val ++ t.main.chain.difficulty.val

/-- A moment at which the file is not complete. -/
def Tree.Cut (u : Tree) : Prop := ∃ c, u.main.chain.config = some c ∧ c.length < 64

/-- A moment at which the file is complete, and the databases are on the way. -/
structure Tree.Wrote (t u : Tree) : Prop where
  config : u.main.chain.config = some t.newConfig
  sub : u.Sub t
  files : ∀ n, (u.derivFiles n).config = (t.derivFiles n).config

theorem cut_empty (t : Tree) : (t.wrote []).Cut := ⟨[], rfl, by decide⟩
theorem cut_height (t : Tree) : (t.wrote t.main.chain.height.toBE.val).Cut :=
  ⟨_, rfl, by have := t.main.chain.height.toBE.property; omega⟩

theorem wrote_flush {t u : Tree} (hs : Sound t) (hu : u ∈ (Tree.flush t).trace) : u.Cut ∨ t.Wrote u := by
  have key : ∀ u : Tree, u.main.chain.config = some t.newConfig → u.derivFiles = t.derivFiles →
      (u.main.chain.blocks = t.main.chain.blocks ∨ u.main.chain.blocks = t.main.chain.blocks.flush) →
      (u.main.chain.heightReference = t.main.chain.heightReference ∨ u.main.chain.heightReference = t.main.chain.heightReference.flush) →
      (u.main.transactions = t.main.transactions ∨ u.main.transactions = t.main.transactions.flush) →
      (u.summary = t.summary ∨ u.summary = t.summary.flush) → (u.oldSummary = t.oldSummary ∨ u.oldSummary = t.oldSummary.flush) →
      (u.gas = t.gas ∨ u.gas = t.gas.flush) → (u.oldGas = t.oldGas ∨ u.oldGas = t.oldGas.flush) → t.Wrote u := by
    intro u h0 hd h1 h2 h3 h4 h5 h6 h7
    have go : ∀ {a b : Db}, b.Sound → (a = b ∨ a = b.flush) → a.Less b := by
      rintro a b hb (rfl | rfl)
      · exact Db.less_refl _
      · exact Db.less_flush hb
    exact ⟨h0, ⟨go hs.blocks h1, go hs.heightReference h2, go hs.transactions h3, go hs.summary h4, go hs.oldSummary h5,
      go hs.gas h6, go hs.oldGas h7, fun n => by rw [hd]; exact ⟨Db.less_refl _, Db.less_refl _⟩⟩, fun n => by rw [hd]⟩
  have ht : (Tree.flush t).trace = t.wrote [] :: t.wrote t.main.chain.height.toBE.val :: (Tree.flush t).trace.drop 2 := rfl
  rw [ht] at hu
  rcases List.mem_cons.mp hu with rfl | hu
  · exact .inl (cut_empty t)
  rcases List.mem_cons.mp hu with rfl | hu
  · exact .inl (cut_height t)
  right
  have hall : ∀ v ∈ (Tree.flush t).trace.drop 2, t.Wrote v := by
    have : (Tree.flush t).trace.drop 2 = [(Tree.flush t).trace[2]'(by show 2 < 10; decide), (Tree.flush t).trace[3]'(by show 3 < 10; decide),
      (Tree.flush t).trace[4]'(by show 4 < 10; decide), (Tree.flush t).trace[5]'(by show 5 < 10; decide), (Tree.flush t).trace[6]'(by show 6 < 10; decide),
      (Tree.flush t).trace[7]'(by show 7 < 10; decide), (Tree.flush t).trace[8]'(by show 8 < 10; decide), (Tree.flush t).trace[9]'(by show 9 < 10; decide)] := rfl
    rw [this]
    simp only [List.forall_mem_cons, List.not_mem_nil, false_implies, implies_true, and_true]
    refine ⟨?_, ?_, ?_, ?_, ?_, ?_, ?_, ?_⟩ <;>
      exact key _ rfl rfl (by first | exact .inl rfl | exact .inr rfl) (by first | exact .inl rfl | exact .inr rfl)
        (by first | exact .inl rfl | exact .inr rfl) (by first | exact .inl rfl | exact .inr rfl)
        (by first | exact .inl rfl | exact .inr rfl) (by first | exact .inl rfl | exact .inr rfl)
        (by first | exact .inl rfl | exact .inr rfl)
  exact hall u hu

theorem flush_final_mem (t : Tree) : (Tree.flush t).final ∈ (Tree.flush t).trace := by
  have : (Tree.flush t).trace = (Tree.flush t).trace.take 9 ++ [(Tree.flush t).final] := rfl
  rw [this]; simp

theorem mainFlush_mem {t u : Tree} (hu : u ∈ (Tree.onMain MainChain.flush t).trace ∨ u = (Tree.onMain MainChain.flush t).final) :
    u ∈ (Tree.flush t).trace := by
  have h1 : (Tree.flush t).trace = (Tree.onMain MainChain.flush t).trace ++ (Tree.flush t).trace.drop 6 := rfl
  have h2 : (Tree.onMain MainChain.flush t).trace = (Tree.onMain MainChain.flush t).trace.take 5 ++ [(Tree.onMain MainChain.flush t).final] := rfl
  rw [h1]
  apply List.mem_append_left
  rcases hu with hu | rfl
  · exact hu
  · rw [h2]; simp

/-- Right after the file is complete. -/
theorem wrote_mem (t : Tree) : t.wrote t.newConfig ∈ (Tree.onMain MainChain.flush t).trace ∧ t.wrote t.newConfig ∈ (Tree.flush t).trace := by
  have h1 : (Tree.flush t).trace = (Tree.onMain MainChain.flush t).trace ++ (Tree.flush t).trace.drop 6 := rfl
  have h2 : (Tree.onMain MainChain.flush t).trace = t.wrote [] :: t.wrote t.main.chain.height.toBE.val :: t.wrote t.newConfig ::
    (Tree.onMain MainChain.flush t).trace.drop 3 := rfl
  have : t.wrote t.newConfig ∈ (Tree.onMain MainChain.flush t).trace := by rw [h2]; simp
  exact ⟨this, by rw [h1]; exact List.mem_append_left _ this⟩

theorem wrote_wrote (t : Tree) : t.Wrote (t.wrote t.newConfig) := ⟨rfl, ⟨Db.less_refl _, Db.less_refl _,
  Db.less_refl _, Db.less_refl _, Db.less_refl _, Db.less_refl _, Db.less_refl _, fun _ => ⟨Db.less_refl _, Db.less_refl _⟩⟩, fun _ => rfl⟩

/-! ### Derivative chains -/

/-- What the file of a derivative chain says. -/
def DerivativeChain.newConfig (c : DerivativeChain) : Bytes := c.chain.height.toBE.val ++ c.chain.difficulty.val ++ c.genesisHash.val

/-- The configuration file of a derivative chain is written. -/
def Tree.wroteOf (t : Tree) (o : Address) (c : Bytes) : Tree :=
  Tree.putHandle o ⟨{ (t.handle o).chain with config := some c }, (t.handle o).genesisHash⟩ t

/-- A moment at which the file is not complete; nothing else has changed. -/
structure Tree.CutOf (t u : Tree) (o : Address) : Prop where
  cut : ∃ c, (u.derivFiles (hexEncode o.val)).config = some c ∧ c.length < 96
  config : u.main.chain.config = t.main.chain.config
  sub : u.Sub t
  files : ∀ n, n ≠ hexEncode o.val → (u.derivFiles n).config = (t.derivFiles n).config

/-- A moment at which the file is complete. -/
structure Tree.WroteOf (t u : Tree) (o : Address) : Prop where
  wrote : (u.derivFiles (hexEncode o.val)).config = some (t.handle o).newConfig
  config : u.main.chain.config = t.main.chain.config
  sub : u.Sub t
  files : ∀ n, n ≠ hexEncode o.val → (u.derivFiles n).config = (t.derivFiles n).config

theorem sub_putHandle {t : Tree} {o : Address} {c : DerivativeChain} (h1 : c.chain.blocks.Less (t.handle o).chain.blocks)
    (h2 : c.chain.heightReference.Less (t.handle o).chain.heightReference) : (Tree.putHandle o c t).Sub t := by
  refine ⟨Db.less_refl _, Db.less_refl _, Db.less_refl _, Db.less_refl _, Db.less_refl _, Db.less_refl _, Db.less_refl _, fun n => ?_⟩
  simp only [Tree.putHandle]
  split
  · rename_i e; subst e; exact ⟨h1, h2⟩
  · exact ⟨Db.less_refl _, Db.less_refl _⟩

theorem files_putHandle {t : Tree} {o : Address} {c : DerivativeChain} (n : Bytes) (h : n ≠ hexEncode o.val) :
    (Tree.putHandle o c t).derivFiles n = t.derivFiles n := by
  simp only [Tree.putHandle]; rw [if_neg h]

theorem config_putHandle {t : Tree} {o : Address} {c : DerivativeChain} :
    ((Tree.putHandle o c t).derivFiles (hexEncode o.val)).config = c.chain.config := by
  rw [putHandle_files_self]

theorem wrote_derivFlush {t u : Tree} {o : Address} (hs : Sound t) (hu : u ∈ (Tree.onDeriv o DerivativeChain.flush t).trace) :
    t.CutOf u o ∨ t.WroteOf u o := by
  obtain ⟨s1, s2⟩ := hs.deriv (hexEncode o.val)
  obtain ⟨c, hc, rfl⟩ : ∃ c ∈ (DerivativeChain.flush (t.handle o)).trace, Tree.putHandle o c t = u := List.mem_map.mp hu
  have key : ∀ c : DerivativeChain, (c.chain.blocks = (t.handle o).chain.blocks ∨ c.chain.blocks = (t.handle o).chain.blocks.flush) →
      (c.chain.heightReference = (t.handle o).chain.heightReference ∨ c.chain.heightReference = (t.handle o).chain.heightReference.flush) →
      (Tree.putHandle o c t).Sub t := by
    intro c h1 h2
    refine sub_putHandle ?_ ?_
    · rcases h1 with h | h <;> rw [h]
      · exact Db.less_refl _
      · exact Db.less_flush s1
    · rcases h2 with h | h <;> rw [h]
      · exact Db.less_refl _
      · exact Db.less_flush s2
  have cut : ∀ (c : DerivativeChain) (b : Bytes), c.chain.config = some b → b.length < 96 →
      c.chain.blocks = (t.handle o).chain.blocks → c.chain.heightReference = (t.handle o).chain.heightReference → t.CutOf (Tree.putHandle o c t) o :=
    fun c b h1 h2 h3 h4 => ⟨⟨b, by rw [config_putHandle]; exact h1, h2⟩, rfl, key c (.inl h3) (.inl h4),
      fun n hn => by rw [files_putHandle n hn]⟩
  have wr : ∀ c : DerivativeChain, c.chain.config = some (t.handle o).newConfig →
      (c.chain.blocks = (t.handle o).chain.blocks ∨ c.chain.blocks = (t.handle o).chain.blocks.flush) →
      (c.chain.heightReference = (t.handle o).chain.heightReference ∨ c.chain.heightReference = (t.handle o).chain.heightReference.flush) →
      t.WroteOf (Tree.putHandle o c t) o :=
    fun c h1 h2 h3 => ⟨by rw [config_putHandle]; exact h1, rfl, key c h2 h3, fun n hn => by rw [files_putHandle n hn]⟩
  have l1 : (t.handle o).chain.height.toBE.val.length = 32 := (t.handle o).chain.height.toBE.property
  have l2 : (t.handle o).chain.difficulty.val.length = 32 := (t.handle o).chain.difficulty.property
  have ht : (DerivativeChain.flush (t.handle o)).trace = [(DerivativeChain.flush (t.handle o)).trace[0]'(by show 0 < 6; decide),
      (DerivativeChain.flush (t.handle o)).trace[1]'(by show 1 < 6; decide), (DerivativeChain.flush (t.handle o)).trace[2]'(by show 2 < 6; decide),
      (DerivativeChain.flush (t.handle o)).trace[3]'(by show 3 < 6; decide), (DerivativeChain.flush (t.handle o)).trace[4]'(by show 4 < 6; decide),
      (DerivativeChain.flush (t.handle o)).trace[5]'(by show 5 < 6; decide)] := rfl
  rw [ht] at hc
  simp only [List.mem_cons, List.not_mem_nil, or_false] at hc
  rcases hc with rfl | rfl | rfl | rfl | rfl | rfl
  · exact .inl (cut _ [] rfl (by decide) rfl rfl)
  · exact .inl (cut _ (t.handle o).chain.height.toBE.val rfl (by omega) rfl rfl)
  · exact .inl (cut _ ((t.handle o).chain.height.toBE.val ++ (t.handle o).chain.difficulty.val) rfl
      (by rw [List.length_append]; omega) rfl rfl)
  · exact .inr (wr _ rfl (.inl rfl) (.inl rfl))
  · exact .inr (wr _ rfl (.inr rfl) (.inl rfl))
  · exact .inr (wr _ rfl (.inr rfl) (.inr rfl))

theorem derivFlush_final_mem (t : Tree) (o : Address) :
    (Tree.onDeriv o DerivativeChain.flush t).final ∈ (Tree.onDeriv o DerivativeChain.flush t).trace := by
  have : (Tree.onDeriv o DerivativeChain.flush t).trace = (Tree.onDeriv o DerivativeChain.flush t).trace.take 5 ++
    [(Tree.onDeriv o DerivativeChain.flush t).final] := rfl
  rw [this]; simp

theorem wroteOf_mem (t : Tree) (o : Address) : t.wroteOf o (t.handle o).newConfig ∈ (Tree.onDeriv o DerivativeChain.flush t).trace := by
  have : (Tree.onDeriv o DerivativeChain.flush t).trace = (Tree.onDeriv o DerivativeChain.flush t).trace.take 3 ++
    t.wroteOf o (t.handle o).newConfig :: (Tree.onDeriv o DerivativeChain.flush t).trace.drop 4 := rfl
  rw [this]; simp

theorem wroteOf_wroteOf (t : Tree) (o : Address) : t.WroteOf (t.wroteOf o (t.handle o).newConfig) o ∧
    t.Sub (t.wroteOf o (t.handle o).newConfig) := by
  refine ⟨⟨config_putHandle, rfl, sub_putHandle (Db.less_refl _) (Db.less_refl _), fun n hn => by unfold Tree.wroteOf; rw [files_putHandle n hn]⟩, ?_⟩
  refine ⟨Db.less_refl _, Db.less_refl _, Db.less_refl _, Db.less_refl _, Db.less_refl _, Db.less_refl _, Db.less_refl _, fun n => ?_⟩
  simp only [Tree.wroteOf, Tree.putHandle]
  split
  · rename_i e; subst e; exact ⟨Db.less_refl _, Db.less_refl _⟩
  · exact ⟨Db.less_refl _, Db.less_refl _⟩

end BCT
