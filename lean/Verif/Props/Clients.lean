import Verif.Props.Reads
import Verif.Props.Damage
/-!
# C173: clients that share nothing do not notice each other
-/

namespace BCT.Props
open BCT

/-! ## What a call works with, entry by entry -/

/-- The parts looked up by key; they are split into their entries. -/
def Part.Keyed : Part → Prop
  | .coins | .gas | .transactions => True
  | _ => False

/-- What a node consists of, the balances and the stored transactions entry by entry. -/
inductive Cell where
  | coin (account : Bytes)
  | fuel (account : Bytes)
  | stored (key : Bytes)
  /-- any other part, as a whole -/
  | other (p : Part)

/-- The cell has the same contents in both states. -/
def Cell.Same : Cell → Tree → Tree → Prop
  | .coin k, s, t => t.summary.cur.get k = s.summary.cur.get k
  | .fuel k, s, t => t.gas.cur.get k = s.gas.cur.get k
  | .stored k, s, t => t.main.transactions.cur.get k = s.main.transactions.cur.get k
  | .other p, s, t => ¬ p.Keyed → p.Same s t

/-- The accounts whose coins a call works with. A main block without transactions may be the block of an epoch, which
commits to all of them. -/
def Op.coinAccounts : Op → Bytes → Prop
  | .addAmount o _, k => k = o
  | .setAmount o _, k => k = o
  | .subAmount o _, k => k = o
  | .sendAmount o o' _, k => k = o ∨ k = o'
  | .sendTransaction t, k => k = t.sender.val ∨ k = t.receiver.val
  | .emitMain _ _ txs _, _ => txs = []
  | _, _ => False

/-- The accounts whose gas a call works with. The block of an epoch commits to all of them, so it is counted here,
although it changes none. -/
def Op.fuelAccounts : Op → Bytes → Prop
  | .addGas o _, k => k = o
  | .subGas o _, k => k = o
  | .sendGas o o' _, k => k = o ∨ k = o'
  | .sendTransaction t, k => k = t.sender.val
  | .emitMain _ _ txs _, _ => txs = []
  | _, _ => False

/-- The keys under which a call stores transactions. No call reads them. -/
def Op.storesAt (E : Env) : Op → Bytes → Prop
  | .addNewBlock _ txs, k => ∃ t ∈ txs, k = (E.sha256 t.dump).val
  | .addTransaction t, k => k = (E.sha256 t.dump).val
  | .addTransactions txs, k => ∃ t ∈ txs, k = (E.sha256 t.dump).val
  | .sendTransaction t, k => k = (E.sha256 t.dump).val
  | _, _ => False

/-- What a call may read. -/
def Op.reads : Op → Cell → Prop
  | op, .coin k => Op.coinAccounts op k
  | op, .fuel k => Op.fuelAccounts op k
  | _, .stored _ => False
  | .emitMain _ _ txs _, .other p => p = .blocks ∨ p = .height ∨ (txs = [] ∧ p = .difficulty)
  | op, .other p => ¬ p.Keyed ∧ mayRead op p

/-- What a call may change. -/
def Op.writes (E : Env) : Op → Cell → Prop
  | op, .coin k => Op.coinAccounts op k
  | op, .fuel k => Op.fuelAccounts op k
  | op, .stored k => Op.storesAt E op k
  | .emitMain _ _ txs _, .other p => p = .blocks ∨ p = .references ∨ p = .height ∨
      (txs = [] ∧ (p = .config ∨ p = .oldCoins ∨ p = .oldGas))
  | op, .other p => ¬ p.Keyed ∧ mayChange op p

/-- Neither call changes anything the other works with. -/
def Detached (E : Env) (a b : Op) : Prop := ∀ c,
  (Op.writes E a c → ¬ Op.reads b c ∧ ¬ Op.writes E b c) ∧ (Op.writes E b c → ¬ Op.reads a c ∧ ¬ Op.writes E a c)

/-- The two nodes have the same contents in all cells in `Q`. -/
def CellsAgree (Q : Cell → Prop) (s t : Tree) : Prop := ∀ c, Q c → c.Same s t

theorem cell_preord (c : Cell) : Act.PreOrd c.Same where
  refl s := by
    cases c with
    | other p => exact fun _ => (same_preord p).refl s
    | _ => exact rfl
  trans := by
    intro a b d h1 h2
    cases c with
    | other p => exact fun hp => (same_preord p).trans (h1 hp) (h2 hp)
    | _ => exact Eq.trans h2 h1

theorem cell_symm {c : Cell} {s t : Tree} (h : c.Same s t) : c.Same t s := by
  cases c with
  | other p =>
    intro hp
    have := h hp
    cases p with
    | derivBlocks o => exact ⟨this.1.symm, this.2.symm⟩
    | _ => exact Eq.symm this
  | _ => exact Eq.symm h

/-- A part that stays as it is, seen cell by cell. -/
theorem cell_of_coins {s t : Tree} (h : Part.coins.Same s t) (k : Bytes) : (Cell.coin k).Same s t := by
  simp only [Cell.Same, show t.summary.cur = s.summary.cur from h]

theorem cell_of_gas {s t : Tree} (h : Part.gas.Same s t) (k : Bytes) : (Cell.fuel k).Same s t := by
  simp only [Cell.Same, show t.gas.cur = s.gas.cur from h]

theorem cell_of_stored {s t : Tree} (h : Part.transactions.Same s t) (k : Bytes) : (Cell.stored k).Same s t := by
  simp only [Cell.Same, show t.main.transactions.cur = s.main.transactions.cur from h]

/-- All cells together are all parts. -/
theorem parts_of_cells {s t : Tree} (h : ∀ c : Cell, c.Same s t) (p : Part) : p.Same s t := by
  cases p with
  | coins => exact KV.ext_get fun k => h (.coin k)
  | gas => exact KV.ext_get fun k => h (.fuel k)
  | transactions => exact KV.ext_get fun k => h (.stored k)
  | _ => exact h (.other _) id

/-! ## A call changes only the cells it may change -/

/-- A closure that leaves the entries outside `K` alone. -/
def TidyClosure (K : Bytes → Prop) (c : KV → Outcome KV) : Prop := ∀ m r, c m = .ok r → ∀ k, ¬ K k → r.get k = m.get k

section
variable {K : Bytes → Prop}

theorem tidyClosure_lift {α : Type} {g : KV → Outcome α} {f : α → KV → Outcome KV} (hf : ∀ a, TidyClosure K (f a)) :
    TidyClosure K fun m => g m >>= fun a => f a m := by
  intro m r h
  simp only at h
  cases hg : g m with
  | ok a => rw [hg] at h; exact hf a m r h
  | err e => rw [hg] at h; cases h
  | panic e => rw [hg] at h; cases h
  | ub => rw [hg] at h; cases h

theorem tidyClosure_ite {p : Prop} [Decidable p] {c d : KV → Outcome KV} (hc : TidyClosure K c) (hd : TidyClosure K d) :
    TidyClosure K fun m => if p then c m else d m := by
  split <;> assumption

theorem tidyClosure_err (e : Err) : TidyClosure K fun _ => .err e := fun _ _ h => by cases h

theorem tidyClosure_insert {o : Bytes} (ho : K o) (v : Bytes) : TidyClosure K fun m => .ok (m.insert o v) := fun m r h k hk => by
  cases h
  have h1 : o ≠ k := fun e => hk (e ▸ ho)
  rw [KV.get_insert, if_neg h1]

theorem tidyClosure_insert₂ {o o' : Bytes} (ho : K o) (ho' : K o') (v v' : Bytes) :
    TidyClosure K fun m => .ok ((m.insert o v).insert o' v') := fun m r h k hk => by
  cases h
  have h1 : o ≠ k := fun e => hk (e ▸ ho)
  have h2 : o' ≠ k := fun e => hk (e ▸ ho')
  rw [KV.get_insert, if_neg h2, KV.get_insert, if_neg h1]

local macro "walk_tidy" : tactic => `(tactic| repeat' first
  | exact tidyClosure_err _
  | exact tidyClosure_insert (by assumption) _
  | exact tidyClosure_insert₂ (by assumption) (by assumption) _ _
  | refine tidyClosure_ite ?_ ?_
  | refine tidyClosure_lift fun _ => ?_)

theorem tidyClosure_add {o : Bytes} (ho : K o) (a : U256) : TidyClosure K (Ledger.addClosure o a) := by
  unfold Ledger.addClosure
  walk_tidy

theorem tidyClosure_set {o : Bytes} (ho : K o) (a : U256) : TidyClosure K (Ledger.setClosure o a) := by
  unfold Ledger.setClosure
  walk_tidy

theorem tidyClosure_sub {o : Bytes} (ho : K o) (a : U256) : TidyClosure K (Ledger.subClosure o a) := by
  unfold Ledger.subClosure
  walk_tidy

theorem tidyClosure_transfer {o o' : Bytes} (ho : K o) (ho' : K o') (a : U256) : TidyClosure K (Ledger.transferClosure o o' a) := by
  unfold Ledger.transferClosure
  walk_tidy

theorem tidyClosure_transact {c : KV → Outcome KV} (hc : TidyClosure K c) (k : Bytes) (hk : ¬ K k) :
    Act.Rel (fun d d' : Db => d'.cur.get k = d.cur.get k) (Ledger.transact c) := by
  intro d
  cases h : c d.cur with
  | ok m =>
    rw [Ledger.transact_ok h]
    exact ⟨hc _ _ h k hk, fun t ht => by rw [List.mem_singleton.mp ht]; exact hc _ _ h k hk⟩
  | err e => rw [Ledger.transact_err h]; exact ⟨rfl, fun _ ht => by cases ht⟩
  | panic e => rw [Ledger.transact_panic h]; exact ⟨rfl, fun _ ht => by cases ht⟩
  | ub => rw [Ledger.transact_ub h]; exact ⟨rfl, fun _ ht => by cases ht⟩

theorem onSummary_cell {c : KV → Outcome KV} (hc : TidyClosure K c) (k : Bytes) (hk : ¬ K k) :
    Act.Rel (Cell.coin k).Same (Tree.onSummary (Ledger.transact c)) :=
  Act.rel_zoom (tidyClosure_transact hc k hk) fun _ _ h => h

theorem onGas_cell {c : KV → Outcome KV} (hc : TidyClosure K c) (k : Bytes) (hk : ¬ K k) :
    Act.Rel (Cell.fuel k).Same (Tree.onGas (Ledger.transact c)) :=
  Act.rel_zoom (tidyClosure_transact hc k hk) fun _ _ h => h

theorem sendAmount_cell {o o' : Bytes} (ho : K o) (ho' : K o') (a : U256) (k : Bytes) (hk : ¬ K k) :
    Act.Rel (Cell.coin k).Same (Tree.sendAmount o o' a) := by
  unfold Tree.sendAmount
  split
  · exact (Act.rel_closed (cell_preord _)).pure ()
  · exact onSummary_cell (tidyClosure_transfer ho ho' a) k hk

end

theorem addTransaction_cell (E : Env) (t : Transaction) (k : Bytes) (hk : k ≠ (E.sha256 t.dump).val) :
    Act.Rel (Cell.stored k).Same (Tree.onMain (MainChain.addTransaction E t)) := by
  have key : Act.Rel (fun m n : MainChain => n.transactions.cur.get k = m.transactions.cur.get k)
      (MainChain.addTransaction E t) := Act.rel_step fun m => by
    show (m.transactions.cur.insert _ _).get k = _
    rw [KV.get_insert, if_neg fun e => hk e.symm]
  exact Act.rel_zoom key fun _ _ h => h

theorem addTransactions_cell (E : Env) (k : Bytes) : ∀ (ts : List Transaction), (∀ t ∈ ts, k ≠ (E.sha256 t.dump).val) →
    Act.Rel (Cell.stored k).Same (Tree.onMain (MainChain.addTransactions E ts)) := by
  unfold Tree.onMain MainChain.addTransactions
  simp only [Act.zoom_forEach onMain_lens]
  have C := Act.rel_closed (cell_preord (.stored k))
  intro ts
  induction ts with
  | nil => exact fun _ => C.pure ()
  | cons t ts ih =>
    exact fun h => C.bind (addTransaction_cell E t k (h t (List.mem_cons_self ..))) fun _ =>
      ih fun u hu => h u (List.mem_cons_of_mem _ hu)

/-- A relation between whole parts gives one between cells. -/
theorem rel_coin {α : Type} {x : Act Tree α} (h : Act.Rel Part.coins.Same x) (k : Bytes) : Act.Rel (Cell.coin k).Same x :=
  fun s => ⟨cell_of_coins (h s).1 k, fun t ht => cell_of_coins ((h s).2 t ht) k⟩

theorem rel_fuel {α : Type} {x : Act Tree α} (h : Act.Rel Part.gas.Same x) (k : Bytes) : Act.Rel (Cell.fuel k).Same x :=
  fun s => ⟨cell_of_gas (h s).1 k, fun t ht => cell_of_gas ((h s).2 t ht) k⟩

theorem rel_stored {α : Type} {x : Act Tree α} (h : Act.Rel Part.transactions.Same x) (k : Bytes) :
    Act.Rel (Cell.stored k).Same x :=
  fun s => ⟨cell_of_stored (h s).1 k, fun t ht => cell_of_stored ((h s).2 t ht) k⟩

theorem frame_rel (E : Env) (op : Op) (p : Part) (h : ¬ mayChange op p) : Act.Rel p.Same (op.run E) :=
  fun s => C104_frame E op p h s

/-- The check of a payment and what follows, for a relation kept by the three things that follow. -/
theorem sendTransaction_rel {R : Tree → Tree → Prop} (hR : Act.PreOrd R) (E : Env) (t : Transaction)
    (h1 : Act.Rel R (Tree.onMain (MainChain.addTransaction E t)))
    (h2 : ∀ a, Act.Rel R (Tree.sendAmount t.sender.val t.receiver.val a))
    (h3 : ∀ a, Act.Rel R (Tree.onGas (Ledger.sub t.sender.val a))) : Act.Rel R (Tree.sendTransaction E t) := by
  have C := Act.rel_closed hR
  unfold Tree.sendTransaction
  refine C.bind C.get fun u => C.bind (C.lift _) fun g => C.bind (C.lift _) fun a => C.bind (C.lift _) fun r => ?_
  split
  · exact C.lift _
  · refine C.bind (C.lift _) fun _ => C.bind (C.lift _) fun _ => C.bind (C.lift _) fun _ => C.bind (C.lift _) fun _ => ?_
    split
    · exact C.lift _
    · exact C.bind h1 fun _ => C.bind (h2 _) fun _ => h3 _

/-- A main block with transactions is only appended. -/
theorem emitMain_rel {R : Tree → Tree → Prop} (hR : Act.PreOrd R) (E : Env) (pow : BytesN 32) (f : Address)
    (txs : List Hash) (ts : UInt64) (htx : txs ≠ []) (h : ∀ b, Act.Rel R (Tree.onMain (MainChain.addBlock E b))) :
    Act.Rel R (Tree.emitMain E pow f txs ts) := by
  have hne : txs.isEmpty = false := by cases txs <;> simp_all
  have C := Act.rel_closed hR
  unfold Tree.emitMain
  simp only [hne, Bool.not_false, if_true]
  refine C.bind C.get fun t => C.bind (C.lift _) fun _ => C.bind (C.lift _) fun _ => C.bind (C.lift _) fun _ => ?_
  split
  · exact C.lift _
  · refine C.bind (C.lift _) fun _ => C.bind (C.lift _) fun _ => C.bind (C.lift _) fun _ => C.bind ?_ fun _ =>
      C.bind (h _) fun _ => C.pure _
    repeat' first
      | exact C.lift _
      | exact C.pure _
      | refine C.bind ?_ fun _ => ?_
      | split

theorem cell_frame (E : Env) (op : Op) (c : Cell) (h : ¬ Op.writes E op c) : Act.Rel c.Same (op.run E) := by
  cases c with
  | coin k =>
    cases op with
    | addAmount o a => exact onSummary_cell (tidyClosure_add (K := (· = o)) rfl a) k h
    | setAmount o a => exact onSummary_cell (tidyClosure_set (K := (· = o)) rfl a) k h
    | subAmount o a => exact onSummary_cell (tidyClosure_sub (K := (· = o)) rfl a) k h
    | sendAmount o o' a => exact sendAmount_cell (K := fun k => k = o ∨ k = o') (.inl rfl) (.inr rfl) a k h
    | sendTransaction t =>
      exact sendTransaction_rel (cell_preord _) E t (rel_coin (addTransaction_same E t _ (by simp)) k)
        (fun a => sendAmount_cell (K := fun k => k = t.sender.val ∨ k = t.receiver.val) (.inl rfl) (.inr rfl) a k h)
        (fun a => rel_coin (onGas_same _ _ (by simp)) k)
    | emitMain pow f txs ts =>
      exact (Act.rel_closed (cell_preord _)).void (emitMain_rel (cell_preord _) E pow f txs ts h fun b =>
        rel_coin (addBlock_same E b _ (by simp) (by simp) (by simp)) k)
    | _ => exact rel_coin (frame_rel E _ _ (by simp [mayChange])) k
  | fuel k =>
    cases op with
    | addGas o a => exact onGas_cell (tidyClosure_add (K := (· = o)) rfl a) k h
    | subGas o a => exact onGas_cell (tidyClosure_sub (K := (· = o)) rfl a) k h
    | sendGas o o' a => exact onGas_cell (tidyClosure_transfer (K := fun k => k = o ∨ k = o') (.inl rfl) (.inr rfl) a) k h
    | sendTransaction t =>
      exact sendTransaction_rel (cell_preord _) E t (rel_fuel (addTransaction_same E t _ (by simp)) k)
        (fun a => rel_fuel (sendCoins_same _ _ _ _ (by simp)) k)
        (fun a => onGas_cell (tidyClosure_sub (K := (· = t.sender.val)) rfl a) k h)
    | _ => exact rel_fuel (frame_rel E _ _ (by simp [mayChange])) k
  | stored k =>
    cases op with
    | addNewBlock b txs =>
      exact (Act.rel_closed (cell_preord _)).bind (rel_stored (addBlock_same E b _ (by simp) (by simp) (by simp)) k)
        fun _ => addTransactions_cell E k txs fun t ht e => h ⟨t, ht, e⟩
    | addTransaction t => exact addTransaction_cell E t k h
    | addTransactions txs => exact addTransactions_cell E k txs fun t ht e => h ⟨t, ht, e⟩
    | sendTransaction t =>
      exact sendTransaction_rel (cell_preord _) E t (addTransaction_cell E t k h)
        (fun a => rel_stored (sendCoins_same _ _ _ _ (by simp)) k) (fun a => rel_stored (onGas_same _ _ (by simp)) k)
    | _ => exact rel_stored (frame_rel E _ _ (by simp [mayChange])) k
  | other p =>
    by_cases hp : p.Keyed
    · exact fun s => ⟨fun h => absurd hp h, fun _ _ h => absurd hp h⟩
    · suffices Act.Rel p.Same (op.run E) from fun s => ⟨fun _ => (this s).1, fun t ht _ => (this s).2 t ht⟩
      cases op with
      | emitMain pow f txs ts =>
        simp only [Op.writes, not_or] at h
        obtain ⟨h1, h2, h3, h4⟩ := h
        by_cases htx : txs = []
        · refine frame_rel E _ p fun hm => ?_
          rcases hm with e | e | e | e | e | e | e
          · exact h1 e
          · exact h2 e
          · exact h3 e
          · exact h4 ⟨htx, .inl e⟩
          · subst e; exact hp trivial
          · exact h4 ⟨htx, .inr (.inl e)⟩
          · exact h4 ⟨htx, .inr (.inr e)⟩
        · exact (Act.rel_closed (same_preord _)).void (emitMain_rel (same_preord _) E pow f txs ts htx fun b =>
            addBlock_same E b p h1 h2 h3)
      | _ => exact frame_rel E _ p fun hm => h ⟨hp, hm⟩

/-! ## What a call does depends only on the cells it may read -/

section
variable {Q : Cell → Prop}

/-- From whole parts to cells, for an action that leaves the keyed parts alone. -/
theorem paired_of_dep {α : Type} {x : Act Tree α} (hd : Dep (fun p => ¬ p.Keyed ∧ Q (.other p)) x)
    (hc : Act.Rel Part.coins.Same x) (hg : Act.Rel Part.gas.Same x) (ht : Act.Rel Part.transactions.Same x) :
    Paired (CellsAgree Q) x := by
  intro s t h
  obtain ⟨h1, h2, -⟩ := hd s t fun p hp => h _ hp.2 hp.1
  refine ⟨h1.symm, fun c hQ => ?_⟩
  cases c with
  | coin k => exact (cell_preord _).trans (cell_symm (cell_of_coins (hc s).1 k)) ((cell_preord _).trans (h _ hQ) (cell_of_coins (hc t).1 k))
  | fuel k => exact (cell_preord _).trans (cell_symm (cell_of_gas (hg s).1 k)) ((cell_preord _).trans (h _ hQ) (cell_of_gas (hg t).1 k))
  | stored k => exact (cell_preord _).trans (cell_symm (cell_of_stored (ht s).1 k)) ((cell_preord _).trans (h _ hQ) (cell_of_stored (ht t).1 k))
  | other p => exact fun hp => h2 p ⟨hp, hQ⟩

theorem cells_addBlock (E : Env) (b : Block) (hq : Q (.other .height)) :
    Paired (CellsAgree Q) (Tree.onMain (MainChain.addBlock E b)) :=
  paired_of_dep (dep_addBlock E b ⟨id, hq⟩) (addBlock_same E b _ (by simp) (by simp) (by simp))
    (addBlock_same E b _ (by simp) (by simp) (by simp)) (addBlock_same E b _ (by simp) (by simp) (by simp))

theorem cells_addTransaction (E : Env) (tx : Transaction) :
    Paired (CellsAgree Q) (Tree.onMain (MainChain.addTransaction E tx)) := by
  have : Tree.onMain (MainChain.addTransaction E tx) =
      Act.step (fun t => { t with main := { t.main with transactions := t.main.transactions.insert (E.sha256 tx.dump).val tx.dump } }) := rfl
  rw [this]
  refine paired_step fun s t h c hc => ?_
  have := h c hc
  cases c with
  | stored k =>
    show (t.main.transactions.cur.insert _ _).get k = (s.main.transactions.cur.insert _ _).get k
    rw [KV.get_insert, KV.get_insert, show t.main.transactions.cur.get k = s.main.transactions.cur.get k from this]
  | other p =>
    intro hp
    have := this hp
    cases p <;> first | exact absurd trivial hp | exact this
  | _ => exact this

theorem cells_addTransactions (E : Env) (ts : List Transaction) :
    Paired (CellsAgree Q) (Tree.onMain (MainChain.addTransactions E ts)) := by
  unfold Tree.onMain MainChain.addTransactions
  rw [Act.zoom_forEach onMain_lens]
  induction ts with
  | nil => exact paired_pure ()
  | cons t ts ih => exact paired_bind (cells_addTransaction E t) fun _ => ih

theorem cells_onSummary {c : KV → Outcome KV} (hc : PairedClosure (fun k => ¬ Q (.coin k)) c) :
    Paired (CellsAgree Q) (Tree.onSummary (Ledger.transact c)) := fun s t h => by
  obtain ⟨h1, h2⟩ := paired_transact hc s.summary t.summary fun k hk => (h (.coin k) (Classical.not_not.mp hk)).symm
  refine ⟨h1, fun x hx => ?_⟩
  have := h x hx
  cases x with
  | coin k => exact (h2 k fun hn => hn hx).symm
  | other p =>
    intro hp
    have := this hp
    cases p <;> first | exact absurd trivial hp | exact this
  | _ => exact this

theorem cells_onGas {c : KV → Outcome KV} (hc : PairedClosure (fun k => ¬ Q (.fuel k)) c) :
    Paired (CellsAgree Q) (Tree.onGas (Ledger.transact c)) := fun s t h => by
  obtain ⟨h1, h2⟩ := paired_transact hc s.gas t.gas fun k hk => (h (.fuel k) (Classical.not_not.mp hk)).symm
  refine ⟨h1, fun x hx => ?_⟩
  have := h x hx
  cases x with
  | fuel k => exact (h2 k fun hn => hn hx).symm
  | other p =>
    intro hp
    have := this hp
    cases p <;> first | exact absurd trivial hp | exact this
  | _ => exact this

theorem cells_sendAmount {o o' : Bytes} (ho : Q (.coin o)) (ho' : Q (.coin o')) (a : U256) :
    Paired (CellsAgree Q) (Tree.sendAmount o o' a) :=
  paired_ite (paired_pure _) (cells_onSummary (paired_transferClosure (not_not_intro ho) (not_not_intro ho') a))

theorem cells_last {s t : Tree} (h : CellsAgree Q s t) (hb : Q (.other .blocks)) (hh : Q (.other .height)) :
    s.main.getLastBlock = t.main.getLastBlock := (getLast_agree (h _ hb id) (h _ hh id)).symm

theorem cells_sendTransaction (E : Env) (tx : Transaction) (hb : Q (.other .blocks)) (hh : Q (.other .height))
    (hg : Q (.fuel tx.sender.val)) (hs : Q (.coin tx.sender.val)) (hr : Q (.coin tx.receiver.val)) :
    Paired (CellsAgree Q) (Tree.sendTransaction E tx) := by
  unfold Tree.sendTransaction
  refine paired_get fun s u h => ?_
  have e1 : s.getGas tx.sender = u.getGas tx.sender := by
    unfold Tree.getGas Db.get; rw [show u.gas.cur.get _ = s.gas.cur.get _ from h _ hg]
  have e2 : s.getAmount tx.sender = u.getAmount tx.sender := by
    unfold Tree.getAmount Db.get; rw [show u.summary.cur.get _ = s.summary.cur.get _ from h _ hs]
  rw [e1, e2, cells_last h hb hh]
  refine (?_ : Paired (CellsAgree Q) _) s u h
  repeat' first
    | exact paired_lift _
    | exact cells_addTransaction E tx
    | exact cells_sendAmount hs hr _
    | exact cells_onGas (paired_subClosure (not_not_intro hg) _)
    | refine paired_ite ?_ ?_
    | refine paired_bind ?_ fun _ => ?_

theorem cells_emitMain (E : Env) (p : BytesN 32) (f : Address) (txs : List Hash) (ts : UInt64) (htx : txs ≠ [])
    (hb : Q (.other .blocks)) (hh : Q (.other .height)) : Paired (CellsAgree Q) (Tree.emitMain E p f txs ts) := by
  have hne : txs.isEmpty = false := by cases txs <;> simp_all
  unfold Tree.emitMain
  refine paired_get fun s u h => ?_
  rw [cells_last h hb hh]
  simp only [hne, Bool.not_false, if_true]
  refine (?_ : Paired (CellsAgree Q) _) s u h
  repeat' first
    | exact paired_lift _
    | exact paired_pure _
    | exact cells_addBlock E _ hh
    | refine paired_ite ?_ ?_
    | refine paired_bind ?_ fun _ => ?_

/-- A main block without transactions, which may read all balances. -/
theorem cells_emitEpoch (E : Env) (p : BytesN 32) (f : Address) (ts : UInt64) (hb : Q (.other .blocks))
    (hh : Q (.other .height)) (hd : Q (.other .difficulty)) (hc : ∀ k, Q (.coin k)) (hg : ∀ k, Q (.fuel k)) :
    Paired (CellsAgree Q) ((Op.emitMain p f [] ts).run E) := by
  intro s t h
  have dep : Dep (fun p => p = .coins ∨ p = .gas ∨ (¬ p.Keyed ∧ Q (.other p))) ((Op.emitMain p f [] ts).run E) :=
    dep_void (dep_emitMain E p f [] ts (.inr (.inr ⟨id, hb⟩)) (.inr (.inr ⟨id, hh⟩)) (.inr (.inr ⟨id, hd⟩)) (.inl rfl)
      (.inr (.inl rfl)))
  obtain ⟨h1, h2, -⟩ := dep s t fun p hp => by
    rcases hp with rfl | rfl | ⟨hk, hq⟩
    · exact KV.ext_get fun k => h (.coin k) (hc k)
    · exact KV.ext_get fun k => h (.fuel k) (hg k)
    · exact h _ hq hk
  refine ⟨h1.symm, fun c hQ => ?_⟩
  have fr := fun u => (frame_rel E (.emitMain p f [] ts) .transactions (by simp [mayChange]) u).1
  cases c with
  | coin k => exact cell_of_coins (h2 _ (.inl rfl)) k
  | fuel k => exact cell_of_gas (h2 _ (.inr (.inl rfl))) k
  | stored k => exact (cell_preord _).trans (cell_symm (cell_of_stored (fr s) k)) ((cell_preord _).trans (h _ hQ) (cell_of_stored (fr t) k))
  | other p => exact fun hp => h2 p (.inr (.inr ⟨hp, hQ⟩))

theorem cells_op (E : Env) (op : Op) (h : ∀ c, Op.reads op c → Q c) : Paired (CellsAgree Q) (op.run E) := by
  have whole : (∀ p, mayRead op p → ¬ p.Keyed ∧ Q (.other p)) → (¬ mayChange op .coins) → (¬ mayChange op .gas) →
      (¬ mayChange op .transactions) → Paired (CellsAgree Q) (op.run E) := fun h1 h2 h3 h4 =>
    paired_of_dep (fun s t hst => by
      obtain ⟨e1, e2, e3⟩ := C115_depends E op _ h1 s t hst
      exact ⟨e1, e2, e3⟩) (frame_rel E op _ h2) (frame_rel E op _ h3) (frame_rel E op _ h4)
  cases op with
  | addBlock b => exact cells_addBlock E b (h (.other .height) ⟨id, rfl⟩)
  | addNewBlock b txs =>
    exact paired_bind (cells_addBlock E b (h (.other .height) ⟨id, rfl⟩)) fun _ => cells_addTransactions E txs
  | addTransaction t => exact cells_addTransaction E t
  | addTransactions ts => exact cells_addTransactions E ts
  | addAmount o a => exact cells_onSummary (paired_addClosure (not_not_intro (h (.coin o) rfl)) a)
  | setAmount o a => exact cells_onSummary (paired_setClosure _ o a)
  | subAmount o a => exact cells_onSummary (paired_subClosure (not_not_intro (h (.coin o) rfl)) a)
  | sendAmount o o' a => exact cells_sendAmount (h (.coin o) (.inl rfl)) (h (.coin o') (.inr rfl)) a
  | addGas o a => exact cells_onGas (paired_addClosure (not_not_intro (h (.fuel o) rfl)) a)
  | subGas o a => exact cells_onGas (paired_subClosure (not_not_intro (h (.fuel o) rfl)) a)
  | sendGas o o' a =>
    exact cells_onGas (paired_transferClosure (not_not_intro (h (.fuel o) (.inl rfl))) (not_not_intro (h (.fuel o') (.inr rfl))) a)
  | sendTransaction t =>
    exact cells_sendTransaction E t (h (.other .blocks) ⟨id, .inl rfl⟩) (h (.other .height) ⟨id, .inr (.inl rfl)⟩)
      (h (.fuel _) rfl) (h (.coin _) (.inl rfl)) (h (.coin _) (.inr rfl))
  | emitMain pow f txs ts =>
    have hb := h (.other .blocks) (.inl rfl)
    have hh := h (.other .height) (.inr (.inl rfl))
    by_cases htx : txs = []
    · subst htx
      exact cells_emitEpoch E pow f ts hb hh (h (.other .difficulty) (.inr (.inr ⟨rfl, rfl⟩))) (fun k => h (.coin k) rfl)
        fun k => h (.fuel k) rfl
    · exact paired_void (cells_emitMain E pow f txs ts htx hb hh)
  | emitDerivative pow f ts =>
    refine whole (fun p hp => have hk : ¬ p.Keyed := ?_; ⟨hk, h (.other p) ⟨hk, hp⟩⟩) (by simp [mayChange]) (by simp [mayChange]) (by simp [mayChange])
    rcases hp with rfl | rfl | rfl | rfl | rfl | rfl <;> exact id
  | getDerivativeChain o =>
    refine whole (fun p hp => have hk : ¬ p.Keyed := ?_; ⟨hk, h (.other p) ⟨hk, hp⟩⟩) (by simp [mayChange]) (by simp [mayChange]) (by simp [mayChange])
    rcases hp with rfl | rfl | rfl | rfl <;> exact id
  | derivAddBlock o b =>
    refine whole (fun p hp => have hk : ¬ p.Keyed := ?_; ⟨hk, h (.other p) ⟨hk, hp⟩⟩) (by simp [mayChange]) (by simp [mayChange]) (by simp [mayChange])
    rcases hp with rfl | rfl | rfl | rfl <;> exact id
  | derivFlush o =>
    refine whole (fun p hp => have hk : ¬ p.Keyed := ?_; ⟨hk, h (.other p) ⟨hk, hp⟩⟩) (by simp [mayChange]) (by simp [mayChange]) (by simp [mayChange])
    rcases hp with rfl | rfl | rfl | rfl <;> exact id
  | mainFlush =>
    refine whole (fun p hp => have hk : ¬ p.Keyed := ?_; ⟨hk, h (.other p) ⟨hk, hp⟩⟩) (by simp [mayChange]) (by simp [mayChange]) (by simp [mayChange])
    rcases hp with rfl | rfl <;> exact id
  | flush =>
    refine whole (fun p hp => have hk : ¬ p.Keyed := ?_; ⟨hk, h (.other p) ⟨hk, hp⟩⟩) (by simp [mayChange]) (by simp [mayChange]) (by simp [mayChange])
    rcases hp with rfl | rfl <;> exact id

end

/-! ## Clients -/

section
variable {ι : Type} [DecidableEq ι]

/-- Calls of several clients, one after the other: what each was answered, and the node afterwards. -/
def serve (E : Env) : List (ι × Op) → Tree → List (ι × Outcome Unit) × Tree
  | [], s => ([], s)
  | x :: xs, s => let r := serve E xs (x.2.run E s).final
    ((x.1, (x.2.run E s).out) :: r.1, r.2)

/-- One client's share of a log, in order. -/
def share {β : Type} (i : ι) : List (ι × β) → List β
  | [] => []
  | x :: xs => if x.1 = i then x.2 :: share i xs else share i xs

theorem mem_share {β : Type} {i : ι} {b : β} : ∀ {l : List (ι × β)}, b ∈ share i l ↔ (i, b) ∈ l
  | [] => by simp [share]
  | (j, a) :: l => by
    unfold share
    by_cases h : j = i
    · subst h; simp [mem_share (l := l)]
    · simp [h, mem_share (l := l), Ne.symm h]

/-- No call of one client changes anything a call of another works with. -/
def Unshared (E : Env) (log : List (ι × Op)) : Prop := ∀ x ∈ log, ∀ y ∈ log, x.1 ≠ y.1 → Detached E x.2 y.2

theorem serve_agree (E : Env) (i : ι) {Q : Cell → Prop} : ∀ (log : List (ι × Op)) (s t : Tree),
    (∀ x ∈ log, x.1 = i → ∀ c, Op.reads x.2 c → Q c) → (∀ x ∈ log, x.1 ≠ i → ∀ c, Q c → ¬ Op.writes E x.2 c) →
    CellsAgree Q s t →
    share i (serve E log t).1 = (answers E (share i log) s).1 ∧ CellsAgree Q (answers E (share i log) s).2 (serve E log t).2 := by
  intro log
  induction log with
  | nil => exact fun s t _ _ h => ⟨rfl, h⟩
  | cons x log ih =>
    intro s t h1 h2 h
    have ih' := fun s t => ih s t (fun y hy => h1 y (List.mem_cons_of_mem _ hy)) (fun y hy => h2 y (List.mem_cons_of_mem _ hy))
    by_cases hx : x.1 = i
    · obtain ⟨e, g⟩ := cells_op E x.2 (h1 x (List.mem_cons_self ..) hx) s t h
      obtain ⟨e', g'⟩ := ih' _ _ g
      simp only [serve, share, hx, if_true, answers]
      exact ⟨by rw [e', e], g'⟩
    · have g : CellsAgree Q s (x.2.run E t).final := fun c hc =>
        (cell_preord c).trans (h c hc) (cell_frame E x.2 c (h2 x (List.mem_cons_self ..) hx c hc) t).1
      obtain ⟨e', g'⟩ := ih' _ _ g
      simp only [serve, share, hx, if_false]
      exact ⟨e', g'⟩

omit [DecidableEq ι] in
theorem serve_frame (E : Env) (c : Cell) : ∀ (log : List (ι × Op)) (s : Tree), (∀ x ∈ log, ¬ Op.writes E x.2 c) →
    c.Same s (serve E log s).2 := by
  intro log
  induction log with
  | nil => exact fun s _ => (cell_preord c).refl s
  | cons x log ih =>
    exact fun s h => (cell_preord c).trans (cell_frame E x.2 c (h x (List.mem_cons_self ..)) s).1
      (ih _ fun y hy => h y (List.mem_cons_of_mem _ hy))

/-- C173. Whatever state a node is in: when several clients call it in turn, and no call of one changes anything a call
of another works with, every client is answered, call by call, as if it were the node's only client; and whatever the
others do not change ends up as it would without them. -/
theorem C173_alone (E : Env) (s : Tree) (log : List (ι × Op)) (h : Unshared E log) (i : ι) :
    share i (serve E log s).1 = (answers E (share i log) s).1 ∧
    ∀ c : Cell, (∀ x ∈ log, x.1 ≠ i → ¬ Op.writes E x.2 c) → c.Same (answers E (share i log) s).2 (serve E log s).2 :=
  serve_agree E i (Q := fun c => ∀ x ∈ log, x.1 ≠ i → ¬ Op.writes E x.2 c) log s s
    (fun x hx hi c hc y hy hj hw => (((h y hy x hx fun e => hj (e.trans hi)) c).1 hw).1 hc)
    (fun x hx hi _ hc => hc x hx hi) fun c _ => (cell_preord c).refl s

/-- C173. So the order in which the calls of different clients arrive does not matter: two logs in which every client
makes the same calls in the same order give every client the same answers and leave the same contents everywhere. -/
theorem C173_order (E : Env) (s : Tree) (log log' : List (ι × Op)) (h : Unshared E log)
    (hs : ∀ i, share i log = share i log') :
    (∀ i, share i (serve E log s).1 = share i (serve E log' s).1) ∧ ∀ p : Part, p.Same (serve E log s).2 (serve E log' s).2 := by
  have hm : ∀ x, x ∈ log' ↔ x ∈ log := fun x => by
    rw [show x = (x.1, x.2) from rfl, ← mem_share, ← mem_share, hs x.1]
  have h' : Unshared E log' := fun x hx y hy => h x ((hm x).mp hx) y ((hm y).mp hy)
  refine ⟨fun i => by rw [(C173_alone E s log h i).1, (C173_alone E s log' h' i).1, hs i], parts_of_cells fun c => ?_⟩
  by_cases hw : ∃ x ∈ log, Op.writes E x.2 c
  · obtain ⟨x, hx, hw⟩ := hw
    have others : ∀ y ∈ log, y.1 ≠ x.1 → ¬ Op.writes E y.2 c := fun y hy hne hwy => (((h y hy x hx hne) c).1 hwy).2 hw
    have e1 := (C173_alone E s log h x.1).2 c others
    have e2 := (C173_alone E s log' h' x.1).2 c fun y hy => others y ((hm y).mp hy)
    rw [← hs x.1] at e2
    exact (cell_preord c).trans (cell_symm e1) e2
  · have none : ∀ x ∈ log, ¬ Op.writes E x.2 c := fun x hx hwx => hw ⟨x, hx, hwx⟩
    exact (cell_preord c).trans (cell_symm (serve_frame E c log s none))
      (serve_frame E c log' s fun x hx => none x ((hm x).mp hx))

omit [DecidableEq ι] in
/-- C173. Clients that do share something notice each other: of two clients withdrawing from one account that suffices
for one of them only, the one that comes first is served and the call of the other dies. -/
theorem C173_shared (E : Env) (s : Tree) (hl : Life E (.idle s)) (o : Bytes) (a : U256)
    (h1 : a.val ≤ (s.summary.cur.amt o).val) (h2 : (s.summary.cur.amt o).val < 2 * a.val) (i j : ι) :
    (serve E [(i, .subAmount o a), (j, .subAmount o a)] s).1 = [(i, .ok ()), (j, .panic .unwrap)] ∧
    (serve E [(j, .subAmount o a), (i, .subAmount o a)] s).1 = [(j, .ok ()), (i, .panic .unwrap)] := by
  have hs : s.summary.cur.Dec := (life_storeInv hl : StoreInv E s).summary.1
  have key : ((Op.subAmount o a).run E s).out = .ok () ∧
      ((Op.subAmount o a).run E ((Op.subAmount o a).run E s).final).out = .panic .unwrap := by
    show (Tree.onSummary (Ledger.sub o a) s).out = _ ∧
      (Tree.onSummary (Ledger.sub o a) (Tree.onSummary (Ledger.sub o a) s).final).out = _
    unfold Tree.onSummary
    simp only [Act.zoom_run]
    rcases Ledger.sub_run hs o a with ⟨_, e⟩ | ⟨h, _⟩
    · rw [e]
      refine ⟨rfl, ?_⟩
      have hd : (s.summary.insert o (Ledger.encode ⟨(s.summary.cur.amt o).val - a.val, Ledger.sub_lt⟩)).cur.Dec := hs.insert _ _
      rcases Ledger.sub_run hd o a with ⟨h, _⟩ | ⟨_, e'⟩
      · exfalso
        have : (s.summary.insert o (Ledger.encode ⟨(s.summary.cur.amt o).val - a.val, Ledger.sub_lt⟩)).cur.amt o =
            ⟨(s.summary.cur.amt o).val - a.val, Ledger.sub_lt⟩ := by
          show (s.summary.cur.insert _ _).amt o = _
          rw [KV.amt_insert, if_pos rfl]
        rw [this] at h
        simp only at h
        omega
      · simp only [e']
    · omega
  simp only [serve, key.1, key.2, and_self]

end

/-! ## The hypotheses are met -/

theorem detached_of {E : Env} {a b : Op} (h1 : ∀ k, ¬ (Op.coinAccounts a k ∧ Op.coinAccounts b k))
    (h2 : ∀ k, ¬ (Op.fuelAccounts a k ∧ Op.fuelAccounts b k)) (h3 : ∀ k, ¬ (Op.storesAt E a k ∧ Op.storesAt E b k))
    (h4 : ∀ p, (Op.writes E a (.other p) → ¬ Op.reads b (.other p) ∧ ¬ Op.writes E b (.other p)) ∧
      (Op.writes E b (.other p) → ¬ Op.reads a (.other p) ∧ ¬ Op.writes E a (.other p))) : Detached E a b := fun c => by
  cases c with
  | coin k => exact ⟨fun h => ⟨fun h' => h1 k ⟨h, h'⟩, fun h' => h1 k ⟨h, h'⟩⟩, fun h => ⟨fun h' => h1 k ⟨h', h⟩, fun h' => h1 k ⟨h', h⟩⟩⟩
  | fuel k => exact ⟨fun h => ⟨fun h' => h2 k ⟨h, h'⟩, fun h' => h2 k ⟨h, h'⟩⟩, fun h => ⟨fun h' => h2 k ⟨h', h⟩, fun h' => h2 k ⟨h', h⟩⟩⟩
  | stored k => exact ⟨fun h => ⟨id, fun h' => h3 k ⟨h, h'⟩⟩, fun h => ⟨id, fun h' => h3 k ⟨h', h⟩⟩⟩
  | other p => exact h4 p

/-- Different accounts. -/
example (E : Env) (o o' : Bytes) (h : o ≠ o') (a b : U256) : Detached E (.addAmount o a) (.subAmount o' b) := by
  refine detached_of (fun k hk => h (hk.1.symm.trans hk.2)) (fun _ hk => hk.1) (fun _ hk => hk.1) fun p => ?_
  cases p <;> simp [Op.writes, Op.reads, mayChange, mayRead, Part.Keyed]

/-- Coins and gas of one account. -/
theorem detached_coin_gas (E : Env) (o : Bytes) (a b : U256) : Detached E (.addAmount o a) (.addGas o b) := by
  refine detached_of (fun _ hk => hk.2) (fun _ hk => hk.1) (fun _ hk => hk.1) fun p => ?_
  cases p <;> simp [Op.writes, Op.reads, mayChange, mayRead, Part.Keyed]

/-- Payments between different people. -/
theorem detached_payments (E : Env) (t t' : Transaction) (h1 : t.sender ≠ t'.sender) (h2 : t.sender ≠ t'.receiver)
    (h3 : t.receiver ≠ t'.sender) (h4 : t.receiver ≠ t'.receiver) (h5 : E.sha256 t.dump ≠ E.sha256 t'.dump) :
    Detached E (.sendTransaction t) (.sendTransaction t') := by
  have inj : ∀ {n : Nat} {a b : BytesN n}, a.val = b.val → a = b := fun h => by cases ‹BytesN _›; cases ‹BytesN _›; simpa using h
  refine detached_of (fun k hk => ?_) (fun k hk => h1 (inj (hk.1.symm.trans hk.2)))
    (fun k hk => h5 (inj (hk.1.symm.trans hk.2))) fun p => ?_
  · rcases hk with ⟨rfl | rfl, e | e⟩
    · exact h1 (inj e)
    · exact h2 (inj e)
    · exact h3 (inj e)
    · exact h4 (inj e)
  · cases p <;> simp [Op.writes, Op.reads, mayChange, mayRead, Part.Keyed]

/-- Derivative chains of different owners. -/
theorem detached_owners (E : Env) (o o' : Address) (h : o ≠ o') (b : DerivativeBlock) :
    Detached E (.derivAddBlock o b) (.derivFlush o') := by
  refine detached_of (fun _ hk => hk.1) (fun _ hk => hk.1) (fun _ hk => hk.1) fun p => ?_
  cases p with
  | derivBlocks q => simp [Op.writes, Op.reads, mayChange, mayRead, Part.Keyed]
  | derivConfig q =>
    simp only [Op.writes, Op.reads, mayChange, mayRead, Part.Keyed]
    refine ⟨fun hh => by simp at hh, fun hh => ?_⟩
    have : q = o' := by simpa using hh
    subst this
    simp [Ne.symm h]
  | derivState q =>
    simp only [Op.writes, Op.reads, mayChange, mayRead, Part.Keyed]
    refine ⟨fun hh => ?_, fun hh => ?_⟩
    · have : q = o := by simpa using hh
      subst this
      simp [h]
    · have : q = o' := by simpa using hh
      subst this
      simp [Ne.symm h]
  | _ => simp [Op.writes, Op.reads, mayChange, mayRead, Part.Keyed]

/-- A block with transactions and the flow of money. -/
theorem detached_block (E : Env) (pow : BytesN 32) (f : Address) (x : Hash) (ts : UInt64) (o o' : Bytes) (a : U256) :
    Detached E (.emitMain pow f [x] ts) (.sendAmount o o' a) := by
  refine detached_of (fun _ hk => by simp [Op.coinAccounts] at hk) (fun _ hk => hk.2) (fun _ hk => hk.1) fun p => ?_
  cases p <;> simp [Op.writes, Op.reads, mayChange, mayRead, Part.Keyed]

/-- The calls of two clients on one new node, interleaved in two ways. -/
example (E : Env) (o : Bytes) (a b : U256) (p : Part) :
    p.Same (serve E [(0, .addAmount o a), (1, .addGas o b), (0, .addAmount o a)] (openTree E Disk.empty).final).2
      (serve E [(0, .addAmount o a), (0, .addAmount o a), (1, .addGas o b)] (openTree E Disk.empty).final).2 := by
  have d := detached_coin_gas E o a b
  have d' : Detached E (.addGas o b) (.addAmount o a) := fun c => (d c).symm
  refine (C173_order (ι := Nat) E _ _ _ (fun x hx y hy hne => ?_) (fun i => ?_)).2 p
  · simp only [List.mem_cons, List.not_mem_nil, or_false] at hx hy
    rcases hx with rfl | rfl | rfl <;> rcases hy with rfl | rfl | rfl <;> first | exact absurd rfl hne | exact d | exact d'
  · rcases i with _ | _ | i <;> simp [share]

/-- A node with an account that suffices for one withdrawal. -/
example (E : Env) : ∃ s, Life E (.idle s) ∧ (s.summary.cur.amt [1]).val = 1 := by
  refine ⟨_, .call _ (.setAmount [1] U256.one) (life_fresh E), ?_⟩
  show ((Tree.onSummary (Ledger.set [1] U256.one) _).final.summary.cur.amt [1]).val = 1
  unfold Tree.onSummary
  rw [Act.zoom_run, Ledger.set_run]
  show ((KV.insert _ _ _).amt [1]).val = 1
  rw [KV.amt_insert, if_pos rfl]
  rfl

end BCT.Props
