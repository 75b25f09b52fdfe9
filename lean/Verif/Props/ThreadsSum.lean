import Verif.Props.Order
import Verif.Props.ThreadsPay
/-!
# C178: what threads' calls come to
-/

namespace BCT.Props
open BCT

/-! ## Statement -/

/-- What threads call. -/
inductive Deal where
  | send (tx : Transaction)
  | brief (x : Brief)
  | lookup (l : Node.Lookup)
  | add (b : Block)
  | flush

/-- The call in a thread. -/
def Deal.prog (E : Env) : Deal → Prog Node Reply
  | .send tx => do Node.sendTransaction E tx; pure .nothing
  | .brief x => x.prog E
  | .lookup l => do let r ← l.prog; pure (.block r)
  | .add b => do Node.addBlock E b; pure .nothing
  | .flush => do Node.flush; pure .nothing

/-- The call does not overwrite a balance. -/
def Deal.Adds : Deal → Prop
  | .brief (.setAmount ..) => False
  | _ => True

/-- The call made alone, if it is one that moves coins or gas. -/
def Deal.op : Deal → Option Op
  | .send tx => some (.sendTransaction tx)
  | .brief (.addAmount o n) => some (.addAmount o n)
  | .brief (.subAmount o n) => some (.subAmount o n)
  | .brief (.sendAmount a b n) => some (.sendAmount a b n)
  | .brief (.addGas o n) => some (.addGas o n)
  | .brief (.subGas o n) => some (.subGas o n)
  | .brief (.sendGas a b n) => some (.sendGas a b n)
  | _ => none

/-- What the call adds to the coins of an account. -/
def Deal.coins (d : Deal) (k : Bytes) : Int := d.op.elim 0 fun op => coinDelta op k

/-- What the call adds to the gas of an account. -/
def Deal.gas (d : Deal) (k : Bytes) : Int := d.op.elim 0 fun op => gasDelta op k

/-- The call has returned `Ok`. -/
def cameThrough {σ α : Type} : Prog σ α → Bool
  | .done (.ok _) => true
  | _ => false

/-- The call has panicked. -/
def blewUp {σ α : Type} : Prog σ α → Prop
  | .done (.panic _) => True
  | _ => False

/-! ## One call -/

/-- The call still to be made adds `dC` to the coins at once, unless it has (`took`), and `dG` to the gas by the step with which
it returns `Ok`. Only a call with `S` may add to the coins before. -/
def Booked {α : Type} (dC dG : Bytes → Int) (S : Prop) : Prog Node α → Bool → Prop
  | .done o, took => (cameThrough (Prog.done (σ := Node) o) = true → took = true) ∧
      (took = true → cameThrough (Prog.done (σ := Node) o) = true ∨ (S ∧ blewUp (Prog.done (σ := Node) o)))
  | .step next rest, took => (took = true → S) ∧ ∀ n n', Readable n → next n = some n' → Readable n' ∧
      ∃ took', (took = true → took' = true) ∧
      (∀ k, ((n'.data.summary.cur.amt k).val : Int) = (n.data.summary.cur.amt k).val + if took = false ∧ took' = true then dC k else 0) ∧
      (∀ k, ((n'.data.gas.cur.amt k).val : Int) = (n.data.gas.cur.amt k).val + if cameThrough (rest n) = true then dG k else 0) ∧
      Booked dC dG S (rest n) took'

section
variable {α β : Type} {dC dG : Bytes → Int} {S : Prop}

theorem Booked.through {p : Prog Node α} {t : Bool} (h : Booked dC dG S p t) : cameThrough p = true → t = true := by
  cases p with
  | done o => exact h.1
  | step next rest => intro h1; cases h1

theorem booked_dead {o : Outcome α} (h : cameThrough (Prog.done (σ := Node) o) = false) : Booked dC dG S (.done o) false :=
  ⟨fun h1 => (by rw [h] at h1; cases h1), fun h1 => (by cases h1)⟩

theorem readable_same {n n' : Node} (h : NoMoney n n') (hr : Readable n) : Readable n' :=
  ⟨by rw [h.1]; exact hr.1, by rw [h.2]; exact hr.2⟩

theorem booked_quiet {p : Prog Node α} {f : α → Prog Node β} (hp : p.Guar NoMoney) (hf : ∀ a, Booked dC dG S (f a) false) :
    Booked dC dG S (p >>= f) false := by
  change Booked dC dG S (Prog.bind p f) false
  induction p with
  | done o =>
    cases o with
    | ok a => exact hf a
    | err e => exact booked_dead rfl
    | panic e => exact booked_dead rfl
    | ub => exact booked_dead rfl
  | step next rest ih =>
    refine ⟨fun h => (by cases h), fun n n' hn hs => ?_⟩
    obtain ⟨h1, h2⟩ := hp n n' hs
    have h3 := ih n h2
    refine ⟨readable_same h1 hn, false, fun h => h, fun k => ?_, fun k => ?_, h3⟩
    · rw [h1.2]; simp
    · have : cameThrough (Prog.bind (rest n) f) ≠ true := fun h => by cases h3.through h
      change _ = _ + if cameThrough (Prog.bind (rest n) f) = true then _ else _
      rw [h1.1, if_neg this]; simp

theorem booked_idle {p : Prog Node α} (hp : p.Guar NoMoney) : Booked (fun _ => 0) (fun _ => 0) S p (cameThrough p) := by
  induction p with
  | done o => exact ⟨fun h => h, fun h => .inl h⟩
  | step next rest ih =>
    refine ⟨fun h => (by cases h), fun n n' hn hs => ?_⟩
    obtain ⟨h1, h2⟩ := hp n n' hs
    refine ⟨readable_same h1 hn, cameThrough (rest n), fun h => (by cases h), fun k => ?_, fun k => ?_, ih n h2⟩
    · rw [h1.2]; simp
    · rw [h1.1]; simp

theorem booked_err (e : Err) : Booked dC dG S (Prog.lift (.err e) : Prog Node α) false := booked_dead rfl

theorem came_map {σ : Type} {p : Prog σ α} {h : α → β} : cameThrough (Prog.bind p fun a => .done (.ok (h a))) = cameThrough p := by
  cases p with
  | done o => cases o <;> rfl
  | step _ _ => rfl

theorem booked_map {p : Prog Node α} {t : Bool} (h : α → β) (hp : Booked dC dG S p t) :
    Booked dC dG S (p >>= fun a => pure (h a)) t := by
  change Booked dC dG S (Prog.bind p fun a => .done (.ok (h a))) t
  induction p generalizing t with
  | done o => cases o <;> exact hp
  | step next rest ih =>
    refine ⟨hp.1, fun n n' hn hs => ?_⟩
    obtain ⟨h1, t', h2, h3, h4, h5⟩ := hp.2 n n' hn hs
    refine ⟨h1, t', h2, h3, fun k => ?_, ih n h5⟩
    change _ = _ + if cameThrough (Prog.bind (rest n) _) = true then _ else _
    rw [came_map]
    exact h4 k

end

/-- The call on the databases does all or nothing. -/
def AllOrNothing (x : Act Tree Unit) (dC dG : Bytes → Int) : Prop := ∀ t : Tree, t.gas.cur.Dec → t.summary.cur.Dec →
  ((x t).out = .ok () ∧ (x t).final.gas.cur.Dec ∧ (x t).final.summary.cur.Dec ∧
    (∀ k, (((x t).final.summary.cur.amt k).val : Int) = (t.summary.cur.amt k).val + dC k) ∧
    (∀ k, (((x t).final.gas.cur.amt k).val : Int) = (t.gas.cur.amt k).val + dG k)) ∨
  ((∃ e, (x t).out = .panic e) ∧ (x t).final = t)

theorem booked_act {x : Act Tree Unit} {dC dG : Bytes → Int} {S : Prop} (h : AllOrNothing x dC dG) :
    Booked dC dG S (Node.onTree x) false := by
  refine ⟨fun h => (by cases h), fun n n' hn hs => ?_⟩
  cases hs
  change _ ∧ ∃ t', _ ∧ _ ∧ (∀ k, _ = _ + if cameThrough (Prog.done (σ := Node) ((x n.data).out)) = true then _ else _) ∧
    Booked dC dG S (Prog.done (σ := Node) ((x n.data).out)) t'
  rcases h n.data hn.1 hn.2 with ⟨h1, h2, h3, h4, h5⟩ | ⟨⟨e, h1⟩, h2⟩
  · rw [h1]
    refine ⟨⟨h2, h3⟩, true, fun h => (by cases h), fun k => ?_, fun k => ?_, fun _ => rfl, fun _ => .inl rfl⟩
    · rw [if_pos ⟨rfl, rfl⟩]; exact h4 k
    · change _ = _ + if true = true then _ else _
      rw [if_pos rfl]; exact h5 k
  · rw [h1]
    have h3 : (x.zoom (·.data) (fun t (n : Node) => { n with data := t }) n).final.data = n.data := h2
    refine ⟨?_, false, fun h => h, fun k => ?_, fun k => ?_, (fun h => by cases h), fun h => by cases h⟩
    · unfold Readable
      rw [h3]; exact hn
    · rw [h3]; simp
    · rw [h3]; simp [cameThrough]

theorem whole_addAmount (o : Bytes) (n : U256) : AllOrNothing (Tree.addAmount o n) (coinDelta (.addAmount o n)) fun _ => 0 := by
  intro t hg hs
  unfold Tree.addAmount Tree.onSummary
  rw [Act.zoom_run]
  rcases Ledger.add_run hs o n with ⟨hlt, e⟩ | ⟨_, e⟩ <;> rw [e]
  · exact .inl ⟨rfl, hg, hs.insert _ _, (shift_insert _ _ _ _ (by simp)).amt, fun k => by simp⟩
  · exact .inr ⟨⟨_, rfl⟩, rfl⟩

theorem whole_subAmount (o : Bytes) (n : U256) : AllOrNothing (Tree.subAmount o n) (coinDelta (.subAmount o n)) fun _ => 0 := by
  intro t hg hs
  unfold Tree.subAmount Tree.onSummary
  rw [Act.zoom_run]
  rcases Ledger.sub_run hs o n with ⟨hle, e⟩ | ⟨_, e⟩ <;> rw [e]
  · exact .inl ⟨rfl, hg, hs.insert _ _, (shift_insert _ _ _ _ (by simp only; omega)).amt, fun k => by simp⟩
  · exact .inr ⟨⟨_, rfl⟩, rfl⟩

theorem whole_addGas (o : Bytes) (n : U256) : AllOrNothing (Tree.addGas o n) (fun _ => 0) (gasDelta (.addGas o n)) := by
  intro t hg hs
  unfold Tree.addGas Tree.onGas
  rw [Act.zoom_run]
  rcases Ledger.add_run hg o n with ⟨hlt, e⟩ | ⟨_, e⟩ <;> rw [e]
  · exact .inl ⟨rfl, hg.insert _ _, hs, (fun k => by simp), (shift_insert _ _ _ _ (by simp)).amt⟩
  · exact .inr ⟨⟨_, rfl⟩, rfl⟩

theorem whole_subGas (o : Bytes) (n : U256) : AllOrNothing (Tree.subGas o n) (fun _ => 0) (gasDelta (.subGas o n)) := by
  intro t hg hs
  unfold Tree.subGas Tree.onGas
  rw [Act.zoom_run]
  rcases Ledger.sub_run hg o n with ⟨hle, e⟩ | ⟨_, e⟩ <;> rw [e]
  · exact .inl ⟨rfl, hg.insert _ _, hs, (fun k => by simp), (shift_insert _ _ _ _ (by simp only; omega)).amt⟩
  · exact .inr ⟨⟨_, rfl⟩, rfl⟩

theorem whole_sendAmount (a b : Bytes) (n : U256) :
    AllOrNothing (Tree.sendAmount a b n) (moveDelta a b n.val) fun _ => 0 := by
  intro t hg hs
  unfold Tree.sendAmount
  by_cases hab : a = b
  · rw [if_pos hab]
    exact .inl ⟨rfl, hg, hs, fun k => by
      have : moveDelta a b n.val k = 0 := if_pos hab
      rw [this]; simp [pure, Act.pure], fun k => by simp [pure, Act.pure]⟩
  · rw [if_neg hab]
    unfold Tree.onSummary
    rw [Act.zoom_run]
    rcases Ledger.transfer_run hs a b n with ⟨h, hlt, e⟩ | ⟨h, e⟩ | ⟨h, hlt, e⟩ <;> rw [e]
    · exact .inl ⟨rfl, hg, Ledger.moved_dec hs _ _ _ _, (shift_moved hab h hlt).amt, fun k => by simp⟩
    · exact .inr ⟨⟨_, rfl⟩, rfl⟩
    · exact .inr ⟨⟨_, rfl⟩, rfl⟩

theorem whole_sendGas (a b : Bytes) (n : U256) : AllOrNothing (Tree.sendGas a b n) (fun _ => 0) (gasDelta (.sendGas a b n)) := by
  intro t hg hs
  unfold Tree.sendGas Tree.onGas
  rw [Act.zoom_run]
  rcases Ledger.transfer_run hg a b n with ⟨h, hlt, e⟩ | ⟨h, e⟩ | ⟨h, hlt, e⟩ <;> rw [e]
  · refine .inl ⟨rfl, Ledger.moved_dec hg _ _ _ _, hs, (fun k => by simp), ?_⟩
    by_cases hab : a = b
    · subst hab
      have h2 : gasDelta (.sendGas a a n) = fun k => if k = a then (n.val : Int) else 0 := funext fun k => if_pos rfl
      rw [h2]
      exact (shift_moved_self hlt).amt
    · have h2 : gasDelta (.sendGas a b n) = moveDelta a b n.val := funext fun k => if_neg hab
      rw [h2]
      exact (shift_moved hab h hlt).amt
  · exact .inr ⟨⟨_, rfl⟩, rfl⟩
  · exact .inr ⟨⟨_, rfl⟩, rfl⟩

/-- The coins of the transaction, then its gas. -/
theorem booked_pay {dC dG : Bytes → Int} {x y : Act Tree Unit} (hx : AllOrNothing x dC fun _ => 0)
    (hy : AllOrNothing y (fun _ => 0) dG) : Booked dC dG True (Node.onTree x >>= fun _ => Node.onTree y) false := by
  refine ⟨fun h => (by cases h), fun n n' hn hs => ?_⟩
  cases hs
  change _ ∧ ∃ t', _ ∧ _ ∧ (∀ k, _ = _ + if cameThrough (Prog.bind (Prog.done (σ := Node) ((x n.data).out))
    fun _ => Node.onTree y) = true then _ else _) ∧
    Booked dC dG True (Prog.bind (Prog.done (σ := Node) ((x n.data).out)) fun _ => Node.onTree y) t'
  rcases hx n.data hn.1 hn.2 with ⟨h1, h2, h3, h4, h5⟩ | ⟨⟨e, h1⟩, h2⟩
  · rw [h1]
    refine ⟨⟨h2, h3⟩, true, fun h => (by cases h), fun k => ?_, fun k => ?_, ?_⟩
    · rw [if_pos ⟨rfl, rfl⟩]; exact h4 k
    · change _ = _ + if false = true then _ else _
      rw [if_neg (by simp)]; exact h5 k
    refine ⟨fun _ => trivial, fun m m' hm hs => ?_⟩
    cases hs
    change _ ∧ ∃ t', _ ∧ _ ∧ (∀ k, _ = _ + if cameThrough (Prog.done (σ := Node) ((y m.data).out)) = true then _ else _) ∧
      Booked dC dG True (Prog.done (σ := Node) ((y m.data).out)) t'
    rcases hy m.data hm.1 hm.2 with ⟨g1, g2, g3, g4, g5⟩ | ⟨⟨e, g1⟩, g2⟩
    · rw [g1]
      refine ⟨⟨g2, g3⟩, true, fun h => h, fun k => ?_, fun k => ?_, fun _ => rfl, fun _ => .inl rfl⟩
      · rw [if_neg (by simp)]; exact g4 k
      · change _ = _ + if true = true then _ else _
        rw [if_pos rfl]; exact g5 k
    · rw [g1]
      have g3 : (y.zoom (·.data) (fun t (n : Node) => { n with data := t }) m).final.data = m.data := g2
      refine ⟨?_, true, fun h => h, fun k => ?_, fun k => ?_, (fun h => by cases h), fun _ => .inr ⟨trivial, trivial⟩⟩
      · unfold Readable
        rw [g3]; exact hm
      · rw [g3]; simp
      · rw [g3]; simp [cameThrough]
  · rw [h1]
    have h3 : (x.zoom (·.data) (fun t (n : Node) => { n with data := t }) n).final.data = n.data := h2
    refine ⟨?_, false, fun h => h, fun k => ?_, fun k => ?_, (fun h => by cases h), fun h => by cases h⟩
    · unfold Readable
      rw [h3]; exact hn
    · rw [h3]; simp
    · rw [h3]; simp [cameThrough, Prog.bind]

theorem booked_send (E : Env) (tx : Transaction) :
    Booked (coinDelta (.sendTransaction tx)) (gasDelta (.sendTransaction tx)) True (Node.sendTransaction E tx) false := by
  have hm := noMoney_main
  unfold Node.sendTransaction
  refine booked_quiet (Node.guar_read hm.refl _) fun _ => booked_quiet (Node.guar_read hm.refl _) fun _ => ?_
  cases hg : BYTE_GAS_PRICE.mulNat tx.getDumpSize with
  | err e => exact booked_dead rfl
  | panic e => exact booked_dead rfl
  | ub => exact booked_dead rfl
  | ok g =>
  have hgv : g.val = 625000000000 * tx.getDumpSize := by
    unfold U256.mulNat at hg
    split at hg
    · have := Outcome.ok.inj hg
      rw [← this]; rfl
    · cases hg
  change Booked _ _ _ (if _ then _ else _) _
  split
  · exact booked_err _
  refine booked_quiet (Node.guar_getLastBlock hm.refl) fun _ => booked_quiet (Prog.guar_lift _) fun _ =>
    booked_quiet (Prog.guar_lift _) fun _ => booked_quiet (Prog.guar_lift _) fun _ => ?_
  split
  · exact booked_err _
  refine booked_quiet (Node.guar_addTransaction hm E tx) fun _ => booked_pay (whole_sendAmount _ _ _) ?_
  have h : gasDelta (.sendTransaction tx) = gasDelta (.subGas tx.sender.val g) := funext fun k => by
    change (if _ then _ else _) = (if _ then _ else _)
    rw [hgv]
  rw [h]
  exact whole_subGas _ _

theorem noMoney_lookup (l : Node.Lookup) : l.prog.Guar NoMoney := by
  have hm := noMoney_main
  have hf : ∀ k, (Node.findRawByHeight k).Guar NoMoney := fun k => by
    unfold Node.findRawByHeight
    refine .bind (Node.guar_readHeight hm.refl) fun _ => ?_
    split
    · exact Prog.guar_pure _
    · exact Node.guar_read hm.refl _
  cases l with
  | byHeight k => exact hf k
  | byHash h =>
    refine .bind (Node.guar_read hm.refl _) fun r => ?_
    cases r with
    | none => exact Prog.guar_pure _
    | some v => exact .bind (Prog.guar_lift _) fun _ => hf _
  | last => exact .bind (Node.guar_readHeight hm.refl) fun _ => .bind (Prog.guar_lift _) fun _ => hf _

theorem Booked.weaken {α : Type} {dC dG : Bytes → Int} {S S' : Prop} (h : S → S') {p : Prog Node α} {t : Bool}
    (hp : Booked dC dG S p t) : Booked dC dG S' p t := by
  induction p generalizing t with
  | done o => exact ⟨hp.1, fun h1 => (hp.2 h1).imp id fun h2 => ⟨h h2.1, h2.2⟩⟩
  | step next rest ih =>
    refine ⟨fun h1 => h (hp.1 h1), fun n n' hn hs => ?_⟩
    obtain ⟨h1, t', h2, h3, h4, h5⟩ := hp.2 n n' hn hs
    exact ⟨h1, t', h2, h3, h4, ih n h5⟩

theorem booked_deal (E : Env) (d : Deal) (h : d.Adds) : Booked d.coins d.gas (∃ tx, d = .send tx) (d.prog E) false := by
  have hm := noMoney_main
  cases d with
  | send tx => exact booked_map _ ((booked_send E tx).weaken fun _ => ⟨tx, rfl⟩)
  | lookup l =>
    have hc : cameThrough l.prog = false := by cases l <;> rfl
    have := booked_idle (S := ∃ tx, Deal.lookup l = .send tx) (noMoney_lookup l)
    rw [hc] at this
    exact booked_map _ this
  | add b => exact booked_map _ (booked_idle (p := Node.addBlock E b) (Node.guar_addBlock hm E b))
  | flush =>
    exact booked_map _ (booked_idle (p := Node.flush)
      (Node.guar_flush hm (fun _ => ⟨rfl, rfl⟩) (fun _ => ⟨rfl, rfl⟩) (fun _ => ⟨rfl, rfl⟩) (fun _ => ⟨rfl, rfl⟩)))
  | brief x =>
    cases x with
    | addTransaction t => exact booked_map _ (booked_idle (p := Node.addTransaction E t) (Node.guar_addTransaction hm E t))
    | addAmount o n => exact booked_map _ (booked_act (whole_addAmount o n))
    | subAmount o n => exact booked_map _ (booked_act (whole_subAmount o n))
    | setAmount o n => exact h.elim
    | sendAmount a b n => exact booked_map _ (booked_act (whole_sendAmount a b n))
    | getAmount o => exact booked_map _ (booked_idle (p := Node.read fun t => t.getAmount o) (Node.guar_read hm.refl _))
    | addGas o n => exact booked_map _ (booked_act (whole_addGas o n))
    | subGas o n => exact booked_map _ (booked_act (whole_subGas o n))
    | sendGas a b n => exact booked_map _ (booked_act (whole_sendGas a b n))
    | getGas o => exact booked_map _ (booked_idle (p := Node.read fun t => t.getGas o) (Node.guar_read hm.refl _))

/-! ## All threads -/

section
variable {ι : Type} [DecidableEq ι] [Fintype ι]

/-- A sum in which one term goes from nothing to `δ`. -/
theorem sum_gain (P P' : ι → Bool) (δ : ι → Int) (i : ι) (hi : P i = true → P' i = true) (ho : ∀ j, j ≠ i → P' j = P j) :
    (∑ j, if P' j = true then δ j else 0) = (∑ j, if P j = true then δ j else 0) + if P i = false ∧ P' i = true then δ i else 0 := by
  rw [← Finset.add_sum_erase _ _ (Finset.mem_univ i), ← Finset.add_sum_erase (Finset.univ) (fun j => if P j = true then δ j else 0)
    (Finset.mem_univ i)]
  have : ∑ j ∈ Finset.univ.erase i, (if P' j = true then δ j else 0) = ∑ j ∈ Finset.univ.erase i, if P j = true then δ j else 0 :=
    Finset.sum_congr rfl fun j hj => by rw [ho j (Finset.ne_of_mem_erase hj)]
  rw [this]
  cases h1 : P i <;> cases h2 : P' i <;> simp
  · exact Int.add_comm _ _
  · rw [hi h1] at h2; cases h2

theorem exec_booked {E : Env} {s : Tree} (hs : Readable ⟨s, false⟩) {call : ι → Deal} (hc : ∀ i, (call i).Adds)
    {log : List (Event ι Node)} {c : Config ι Node Reply} (h : Exec ⟨⟨s, false⟩, fun i => (call i).prog E⟩ log c) :
    Readable c.shared ∧ ∃ took : ι → Bool,
      (∀ k, ((c.shared.data.summary.cur.amt k).val : Int) = (s.summary.cur.amt k).val + ∑ i, if took i = true then (call i).coins k else 0) ∧
      (∀ k, ((c.shared.data.gas.cur.amt k).val : Int) =
        (s.gas.cur.amt k).val + ∑ i, if cameThrough (c.threads i) = true then (call i).gas k else 0) ∧
      ∀ i, Booked (call i).coins (call i).gas (∃ tx, call i = .send tx) (c.threads i) (took i) := by
  induction h with
  | refl =>
    have hb := fun i => booked_deal E (call i) (hc i)
    refine ⟨hs, fun _ => false, fun k => by simp, fun k => ?_, hb⟩
    have : ∀ i, cameThrough ((call i).prog E) ≠ true := fun i h => by cases (hb i).through h
    simp [this]
  | @step log c i next rest s' _ hi hn ih =>
    obtain ⟨hr, took, h1, h2, h3⟩ := ih
    have h4 := h3 i
    rw [hi] at h4
    obtain ⟨g1, t', g2, g3, g4, g5⟩ := h4.2 _ _ hr hn
    refine ⟨g1, Function.update took i t', fun k => ?_, fun k => ?_, fun j => ?_⟩
    · rw [sum_gain took _ (fun j => (call j).coins k) i (by rw [Function.update_self]; exact g2)
        (fun j hj => Function.update_of_ne hj _ _), Function.update_self]
      have := g3 k
      have := h1 k
      simp only at *
      omega
    · have hnot : cameThrough (c.threads i) = false := by rw [hi]; rfl
      have e := sum_gain (fun j => cameThrough (c.threads j)) (fun j => cameThrough (Function.update c.threads i (rest c.shared) j))
        (fun j => (call j).gas k) i (fun h => by rw [hnot] at h; cases h) (fun j hj => by rw [Function.update_of_ne hj])
      rw [Function.update_self, hnot] at e
      simp only [true_and] at e
      simp only
      rw [e]
      have := g4 k
      have := h2 k
      omega
    · by_cases hj : j = i
      · subst hj
        simp only [Function.update_self]
        exact g5
      · simp only [Function.update_of_ne hj]
        exact h3 j

/-- C178: at every moment, under every schedule, each account's gas is what it was plus what the calls that have returned `Ok` add
to it, and its coins are what they were plus what these calls add, and some calls of `send_transaction` that are under way or have
panicked. -/
theorem C178_sum (E : Env) (s : Tree) (hr : Run E s) (f g : Spec.Accounts) (hf : Shows s.summary f) (hg : Shows s.gas g)
    (call : ι → Deal) (hc : ∀ i, (call i).Adds) (log : List (Event ι Node)) (c : Config ι Node Reply)
    (h : Exec ⟨⟨s, false⟩, fun i => (call i).prog E⟩ log c) :
    ∃ f' g', Shows c.shared.data.summary f' ∧ Shows c.shared.data.gas g' ∧
      (∀ k, (g' k : Int) = g k + ∑ i, if cameThrough (c.threads i) = true then (call i).gas k else 0) ∧
      ∃ took : ι → Bool, (∀ k, (f' k : Int) = f k + ∑ i, if took i = true then (call i).coins k else 0) ∧
        ∀ i, (cameThrough (c.threads i) = true → took i = true) ∧
          (took i = true → cameThrough (c.threads i) = true ∨
            ((∃ tx, call i = .send tx) ∧ (¬ hasEnded (c.threads i) ∨ blewUp (c.threads i)))) := by
  have hi := run_storeInv hr
  have ef := shows_eq hf
  have eg := shows_eq hg
  subst ef eg
  obtain ⟨h1, took, h2, h3, h4⟩ := exec_booked (E := E) ⟨hi.gas.1, hi.summary.1⟩ hc h
  refine ⟨_, _, shows_amt h1.2, shows_amt h1.1, h3, took, h2, fun i => ⟨(h4 i).through, fun ht => ?_⟩⟩
  have h5 := h4 i
  cases hp : c.threads i with
  | done o =>
    rw [hp] at h5
    exact (h5.2 ht).imp id fun h6 => ⟨h6.1, .inr h6.2⟩
  | step next rest =>
    rw [hp] at h5
    exact .inr ⟨h5.1 ht, .inl fun ⟨o, ho⟩ => by cases ho⟩

/-- When every call has returned `Ok`, each account is what it was plus what the calls add to it. -/
theorem C178_all (E : Env) (s : Tree) (hr : Run E s) (f g : Spec.Accounts) (hf : Shows s.summary f) (hg : Shows s.gas g)
    (call : ι → Deal) (hc : ∀ i, (call i).Adds) (log : List (Event ι Node)) (c : Config ι Node Reply)
    (h : Exec ⟨⟨s, false⟩, fun i => (call i).prog E⟩ log c) (hall : ∀ i, ∃ r, c.threads i = .done (.ok r)) :
    ∃ f' g', Shows c.shared.data.summary f' ∧ Shows c.shared.data.gas g' ∧
      (∀ k, (f' k : Int) = f k + ∑ i, (call i).coins k) ∧ ∀ k, (g' k : Int) = g k + ∑ i, (call i).gas k := by
  have ht : ∀ i, cameThrough (c.threads i) = true := fun i => by
    obtain ⟨r, e⟩ := hall i
    rw [e]; rfl
  obtain ⟨f', g', h1, h2, h3, took, h4, h5⟩ := C178_sum E s hr f g hf hg call hc log c h
  refine ⟨f', g', h1, h2, fun k => ?_, fun k => ?_⟩
  · rw [h4]
    simp [(h5 _).1 (ht _)]
  · rw [h3]
    simp [ht]

end

/-! ## Example -/

/-- The calls of the example: a transaction, and gas for its sender. -/
def payAndFuel (b : Bool) : Deal := if b then .send exTx else .brief (.addGas exTx.sender.val U256.one)

/-- The sender of a transaction is given gas while it is under way. -/
theorem payAndFuel_run (E : Env) : ∃ s last log c, Run E s ∧ Shows s.summary (fundedCoins U256.zero) ∧ Shows s.gas fundedGas ∧
    s.main.getLastBlock = .ok (some last) ∧ recalculateFee last.info.difficulty = .ok (U256.ofNat 62500) ∧
    Exec ⟨⟨s, false⟩, fun b => (payAndFuel b).prog E⟩ log c ∧ ∀ i, ∃ r, c.threads i = .done (.ok r) := by
  obtain ⟨s, h1, h2, h3, h4, l, h5, h6⟩ := funded E U256.zero
  have hsize : exTx.getDumpSize = 145 := by decide +kernel
  obtain ⟨v, hv⟩ : ∃ v : U256, v.val = 625000000000 * exTx.getDumpSize := ⟨U256.ofNat 90625000000000, by rw [hsize]; decide⟩
  have hi := run_storeInv h1
  have ef := shows_eq h2
  have eg := shows_eq h3
  have hr := send_checks_run E s exTx _ _ h2 h3 (funded_affordable _ h5 h6 exTx rfl rfl (by decide)) v hv
  have x0 : Exec ⟨⟨s, false⟩, fun b => (payAndFuel b).prog E⟩ [] ⟨⟨s, false⟩, fun b => (payAndFuel b).prog E⟩ := .refl
  obtain ⟨l1, x1⟩ := x0.go true rfl (hr.bind replied)
  have x2 := x1.act true (x := Tree.onMain (MainChain.addTransaction E exTx)) (a := ())
    (f := fun _ => (Node.onTree (Tree.sendAmount exTx.sender.val exTx.receiver.val exTx.amount) >>= fun _ => payStep exTx v) >>=
      replied) (Function.update_self _ _ _) rfl
  have hg0 : (s.gas.cur.amt exTx.sender.val).val = 1000000000000000000 := by
    have := funded_gas
    rw [eg] at this
    exact this
  obtain ⟨t1, ht1⟩ : ∃ t1, t1 = (Tree.onMain (MainChain.addTransaction E exTx) s).final := ⟨_, rfl⟩
  have ht1g : t1.gas = s.gas := by rw [ht1]; rfl
  have ht1s : t1.summary = s.summary := by rw [ht1]; rfl
  simp only [← ht1] at x2
  have hc1 : exTx.amount.val ≤ (t1.summary.cur.amt exTx.sender.val).val := by
    have := funded_sender U256.zero
    rw [ef] at this
    simp only at this
    rw [ht1s, this]; decide
  have hc2 : (t1.summary.cur.amt exTx.receiver.val).val + exTx.amount.val < U256.size := by
    have := funded_receiver U256.zero
    rw [ef] at this
    simp only at this
    rw [ht1s, this]; decide
  obtain ⟨m1, m2⟩ := sendAmount_ok (n := t1) (tx := exTx) (by rw [ht1s]; exact hi.summary.1) exTx_ne hc1 hc2
  have x3 := x2.act true (x := Tree.sendAmount exTx.sender.val exTx.receiver.val exTx.amount) (a := ())
    (f := fun _ => payStep exTx v >>= replied) (by rw [Function.update_self]; exact bind_assoc_prog _ _ _) m1
  obtain ⟨t2, ht2⟩ : ∃ t2, t2 = (Tree.sendAmount exTx.sender.val exTx.receiver.val exTx.amount t1).final := ⟨_, rfl⟩
  have ht2g : t2.gas = s.gas := by rw [ht2, m2]; exact ht1g
  simp only [← ht2] at x3
  have hd2 : t2.gas.cur.Dec := by rw [ht2g]; exact hi.gas.1
  have ha : (Tree.addGas exTx.sender.val U256.one t2).out = .ok () ∧
      (Tree.addGas exTx.sender.val U256.one t2).final.gas.cur.Dec ∧
      ((Tree.addGas exTx.sender.val U256.one t2).final.gas.cur.amt exTx.sender.val).val = 1000000000000000001 := by
    have one : U256.one.val = 1 := rfl
    unfold Tree.addGas Tree.onGas
    rw [Act.zoom_run]
    rcases Ledger.add_run hd2 exTx.sender.val U256.one with ⟨hlt, e⟩ | ⟨hlt, _⟩
    · rw [e]
      refine ⟨rfl, hd2.insert _ _, ?_⟩
      change ((t2.gas.cur.insert exTx.sender.val _).amt exTx.sender.val).val = _
      rw [KV.amt_insert, if_pos rfl]
      simp only
      rw [ht2g, hg0, one]
    · rw [ht2g, hg0, one] at hlt
      exact absurd (by decide) hlt
  have x4 := x3.act false (x := Tree.addGas exTx.sender.val U256.one) (a := ()) (f := fun _ => pure .nothing) (by
    rw [Function.update_of_ne (by decide), Function.update_of_ne (by decide), Function.update_of_ne (by decide)]
    rfl) ha.1
  obtain ⟨t3, ht3⟩ : ∃ t3, t3 = (Tree.addGas exTx.sender.val U256.one t2).final := ⟨_, rfl⟩
  rw [← ht3] at ha
  simp only [← ht3] at x4
  have hb : (Tree.subGas exTx.sender.val v t3).out = .ok () := by
    unfold Tree.subGas Tree.onGas
    rw [Act.zoom_run]
    rcases Ledger.sub_run ha.2.1 exTx.sender.val v with ⟨_, e⟩ | ⟨hlt, _⟩
    · rw [e]
    · rw [ha.2.2, hv, hsize] at hlt
      omega
  have x5 := x4.act true (x := Tree.subGas exTx.sender.val v) (a := ()) (f := replied) (by
    rw [Function.update_of_ne (by decide), Function.update_self]; rfl) hb
  refine ⟨s, l, _, _, h1, h2, h3, h5, h6, x5, fun i => ?_⟩
  cases i
  · exact ⟨.nothing, by simp only [Function.update_of_ne (show false ≠ true by decide), Function.update_self]; rfl⟩
  · exact ⟨.nothing, by simp only [Function.update_self]; rfl⟩

/-- The hypotheses of `C178_all` are met. -/
example (E : Env) : ∃ s f g log c, Run E s ∧ Shows s.summary f ∧ Shows s.gas g ∧ (∀ i, (payAndFuel i).Adds) ∧
    Exec ⟨⟨s, false⟩, fun b => (payAndFuel b).prog E⟩ log c ∧ ∀ i, ∃ r, c.threads i = .done (.ok r) := by
  obtain ⟨s, _, log, c, h1, h2, h3, _, _, h6, h7⟩ := payAndFuel_run E
  exact ⟨s, _, _, log, c, h1, h2, h3, fun i => by cases i <;> exact trivial, h6, h7⟩

end BCT.Props
