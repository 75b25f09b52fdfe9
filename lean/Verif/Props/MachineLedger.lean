import Verif.Props.Machine
import Verif.Props.ThreadsCrash
import Verif.Props.DerivPower
/-!
# C157: the moment a power failure takes a database back to (blockchaintree.rs:33-83, 516-543, chain.rs:179-201, 559-575)
-/

namespace BCT.Props
open BCT

/-- The databases of a node. -/
inductive Table where
  | blocks
  | references
  | transactions
  | coins
  | oldCoins
  | gas
  | oldGas
  /-- the blocks of the derivative chain in the directory of this name -/
  | derivBlocks (name : Bytes)
  /-- the heights of the derivative chain in the directory of this name -/
  | derivReferences (name : Bytes)

/-- The database in a state. -/
def Table.db : Table → Tree → Db
  | .blocks, t => t.main.chain.blocks
  | .references, t => t.main.chain.heightReference
  | .transactions, t => t.main.transactions
  | .coins, t => t.summary
  | .oldCoins, t => t.oldSummary
  | .gas, t => t.gas
  | .oldGas, t => t.oldGas
  | .derivBlocks n, t => (t.derivFiles n).blocks
  | .derivReferences n, t => (t.derivFiles n).heightReference

/-- The database as found. -/
def Table.found : Table → Disk → KV
  | .blocks, d => d.blocks
  | .references, d => d.heightReference
  | .transactions, d => d.transactions
  | .coins, d => d.summary
  | .oldCoins, d => d.oldSummary
  | .gas, d => d.gas
  | .oldGas, d => d.oldGas
  | .derivBlocks n, d => (d.deriv n).blocks
  | .derivReferences n, d => (d.deriv n).heightReference

theorem loss_table {past : List Tree} {t : Tree} {d : Disk} (h : PowerLoss past t d) (x : Table) :
    x.found d ∈ (x.db t).recov := by
  cases x
  · exact h.blocks
  · exact h.heightReference
  · exact h.transactions
  · exact h.summary
  · exact h.oldSummary
  · exact h.gas
  · exact h.oldGas
  · exact (h.deriv _).1
  · exact (h.deriv _).2.1

theorem killed_table {t b : Tree} (h : KilledAt t b) (x : Table) : (x.db t).LeftBy (x.db b) := by
  cases x
  · exact h.blocks
  · exact h.heightReference
  · exact h.transactions
  · exact h.summary
  · exact h.oldSummary
  · exact h.gas
  · exact h.oldGas
  · exact (h.deriv _).1
  · exact (h.deriv _).2.1

/-! ### One effect at a time -/

/-- One effect makes nothing recoverable but what it leaves. -/
def TreeLogs (a b : Tree) : Prop := ∀ x : Table, Logged (x.db a) (x.db b)

/-- The same databases. -/
def SameTables (a b : Tree) : Prop := ∀ x : Table, x.db b = x.db a

theorem sameTables_preord : Act.PreOrd SameTables where
  refl _ _ := rfl
  trans h1 h2 x := (h2 x).trans (h1 x)

theorem SameTables.logs {a b : Tree} (h : SameTables a b) : TreeLogs a b := fun x => by rw [h x]; exact .refl _

theorem tables_closed : Act.Closed (fun {α} (x : Act Tree α) => Act.Steps SameTables TreeLogs x) :=
  Act.steps_closed (Q := SameTables) (R := TreeLogs) sameTables_preord fun h1 h2 x => by rw [← h1 x]; exact h2 x

/-- A call on a part of the node that need not be stored when read (a derivative chain). -/
theorem steps_onDeriv {α : Type} {o : Address} {x : Act DerivativeChain α}
    (hx : Act.Steps Eq (fun c c' : DerivativeChain => Logged c.chain.blocks c'.chain.blocks ∧
      Logged c.chain.heightReference c'.chain.heightReference) x) :
    Act.Steps SameTables TreeLogs (Tree.onDeriv o x) := by
  intro t
  obtain ⟨c, m, l, q⟩ := hx (t.handle o)
  have hself : SameTables t (Tree.putHandle o (t.handle o) t) := by
    intro x
    cases x with
    | derivBlocks n =>
      show (if n = hexEncode o.val then _ else _ : DerivFiles).blocks = _
      by_cases hn : n = hexEncode o.val
      · rw [if_pos hn, hn]; rfl
      · rw [if_neg hn]; rfl
    | derivReferences n =>
      show (if n = hexEncode o.val then _ else _ : DerivFiles).heightReference = _
      by_cases hn : n = hexEncode o.val
      · rw [if_pos hn, hn]; rfl
      · rw [if_neg hn]; rfl
    | _ => rfl
  have hput : ∀ u v : DerivativeChain, Logged u.chain.blocks v.chain.blocks ∧
      Logged u.chain.heightReference v.chain.heightReference → TreeLogs (Tree.putHandle o u t) (Tree.putHandle o v t) := by
    intro u v h x
    cases x with
    | derivBlocks n =>
      show Logged (if n = hexEncode o.val then _ else _ : DerivFiles).blocks (if n = hexEncode o.val then _ else _ : DerivFiles).blocks
      by_cases hn : n = hexEncode o.val
      · rw [if_pos hn, if_pos hn]; exact h.1
      · rw [if_neg hn, if_neg hn]; exact .refl _
    | derivReferences n =>
      show Logged (if n = hexEncode o.val then _ else _ : DerivFiles).heightReference
        (if n = hexEncode o.val then _ else _ : DerivFiles).heightReference
      by_cases hn : n = hexEncode o.val
      · rw [if_pos hn, if_pos hn]; exact h.2
      · rw [if_neg hn, if_neg hn]; exact .refl _
    | _ => exact .refl _
  unfold Tree.onDeriv
  rw [Act.zoom_run]
  have hmap : List.IsChain TreeLogs ((t.handle o :: (x (t.handle o)).trace).map (fun s => Tree.putHandle o s t)) := by
    rw [List.isChain_map]
    exact c.imp fun u v huv => hput u v huv
  have hlast : ((t.handle o :: (x (t.handle o)).trace).map (fun s => Tree.putHandle o s t)).getLast? =
      some (Tree.putHandle o m t) := by rw [List.getLast?_map, l]; rfl
  subst q
  generalize (x (t.handle o)).trace = tr at *
  generalize (x (t.handle o)).final = fin at *
  cases tr with
  | nil =>
    simp at hlast
    exact ⟨.singleton _, t, rfl, by show SameTables t (Tree.putHandle o fin t); rw [← hlast]; exact hself⟩
  | cons u tr =>
    simp only [List.map_cons] at hmap hlast ⊢
    have h2 := List.isChain_cons_cons.mp hmap
    refine ⟨.cons_cons (fun x => ?_) h2.2, Tree.putHandle o fin t, ?_, fun _ => rfl⟩
    · have := h2.1 x
      rw [hself x] at this
      exact this
    · rw [List.getLast?_cons_cons] at hlast ⊢
      exact hlast

theorem chain_logged (E : Env) (h : U256) (dump : Bytes) :
    Act.Steps Eq (fun c c' : Chain => Logged c.blocks c'.blocks ∧ Logged c.heightReference c'.heightReference)
      (Chain.addBlock E h dump) := by
  intro c
  by_cases hb : h = c.height
  · rw [hb]
    by_cases hm : c.height.val + 1 < U256.size
    · rw [Chain.addBlock_right hm]
      exact ⟨.cons_cons ⟨logged_insert _ _ _, .refl _⟩ (.cons_cons ⟨.refl _, logged_insert _ _ _⟩
        (.cons_cons ⟨.refl _, .refl _⟩ (.singleton _))), _, rfl, rfl⟩
    · rw [Chain.addBlock_max hm]
      exact ⟨.cons_cons ⟨logged_insert _ _ _, .refl _⟩ (.cons_cons ⟨.refl _, logged_insert _ _ _⟩ (.singleton _)), _, rfl, rfl⟩
  · rw [Chain.addBlock_wrong hb]
    exact ⟨.singleton _, _, rfl, rfl⟩

theorem transact_logged (closure : KV → Outcome KV) : Act.Steps Eq Logged (Ledger.transact closure) := by
  intro d
  cases hc : closure d.cur with
  | ok m => rw [Ledger.transact_ok hc]; exact ⟨.cons_cons (logged_commit _ _) (.singleton _), _, rfl, rfl⟩
  | err e => rw [Ledger.transact_err hc]; exact ⟨.singleton _, _, rfl, rfl⟩
  | panic e => rw [Ledger.transact_panic hc]; exact ⟨.singleton _, _, rfl, rfl⟩
  | ub => rw [Ledger.transact_ub hc]; exact ⟨.singleton _, _, rfl, rfl⟩

theorem summary_logged (closure : KV → Outcome KV) : Act.Steps SameTables TreeLogs (Tree.onSummary (Ledger.transact closure)) :=
  Act.steps_zoom (L := ⟨fun _ _ => rfl, fun _ _ _ => rfl, fun _ => rfl⟩) (transact_logged closure)
    (fun _ _ _ h => h ▸ sameTables_preord.refl _)
    (fun t u v h x => by cases x with
      | coins => exact h
      | _ => exact .refl _)

theorem gas_logged (closure : KV → Outcome KV) : Act.Steps SameTables TreeLogs (Tree.onGas (Ledger.transact closure)) :=
  Act.steps_zoom (L := ⟨fun _ _ => rfl, fun _ _ _ => rfl, fun _ => rfl⟩) (transact_logged closure)
    (fun _ _ _ h => h ▸ sameTables_preord.refl _)
    (fun t u v h x => by cases x with
      | gas => exact h
      | _ => exact .refl _)

theorem addBlock_logged (E : Env) (b : Block) : Act.Steps SameTables TreeLogs (Tree.onMain (MainChain.addBlock E b)) := by
  refine Act.steps_zoom (Q := Eq) (R := fun a b : MainChain => (Logged a.chain.blocks b.chain.blocks ∧
      Logged a.chain.heightReference b.chain.heightReference) ∧ b.transactions = a.transactions) onMain_lens ?_
    (fun _ _ _ h => h ▸ sameTables_preord.refl _) (fun t u v h x => ?_)
  · exact Act.steps_zoom onChain_lens (chain_logged E _ _) (fun _ _ _ h => h ▸ rfl) (fun _ _ _ h => ⟨h, rfl⟩)
  · cases x with
    | blocks => exact h.1.1
    | references => exact h.1.2
    | transactions =>
      show Logged u.transactions v.transactions
      rw [h.2]; exact .refl _
    | _ => exact .refl _

theorem step_logged {f : Tree → Tree} (h : ∀ t, TreeLogs t (f t)) : Act.Steps SameTables TreeLogs (Act.step f) :=
  Act.steps_step sameTables_preord h

theorem mainFlush_logged : Act.Steps SameTables TreeLogs (Tree.onMain MainChain.flush) := by
  refine Act.steps_zoom (Q := Eq) (R := fun a b : MainChain => Logged a.chain.blocks b.chain.blocks ∧
      Logged a.chain.heightReference b.chain.heightReference ∧ Logged a.transactions b.transactions) onMain_lens ?_
    (fun _ _ _ h => h ▸ sameTables_preord.refl _) (fun t u v h x => ?_)
  · intro c
    rw [MainChain.flush_run]
    refine ⟨?_, _, rfl, rfl⟩
    refine .cons_cons ⟨.refl _, .refl _, .refl _⟩ (.cons_cons ⟨.refl _, .refl _, .refl _⟩
      (.cons_cons ⟨.refl _, .refl _, .refl _⟩ (.cons_cons ⟨logged_flush _, .refl _, .refl _⟩
      (.cons_cons ⟨.refl _, logged_flush _, .refl _⟩ (.cons_cons ⟨.refl _, .refl _, logged_flush _⟩ (.singleton _))))))
  · cases x with
    | blocks => exact h.1
    | references => exact h.2.1
    | transactions => exact h.2.2
    | _ => exact .refl _

theorem flush_logged : Act.Steps SameTables TreeLogs Tree.flush := by
  unfold Tree.flush
  have C := tables_closed
  refine C.bind mainFlush_logged fun _ => C.bind (step_logged fun t x => ?_) fun _ => C.bind (step_logged fun t x => ?_) fun _ =>
    C.bind (step_logged fun t x => ?_) fun _ => step_logged fun t x => ?_
  all_goals cases x <;> first | exact .refl _ | exact logged_flush _

theorem derivFlush_logged : Act.Steps Eq (fun c c' : DerivativeChain => Logged c.chain.blocks c'.chain.blocks ∧
    Logged c.chain.heightReference c'.chain.heightReference) DerivativeChain.flush := by
  have C := Act.steps_closed (Q := Eq) (R := fun c c' : DerivativeChain => Logged c.chain.blocks c'.chain.blocks ∧
    Logged c.chain.heightReference c'.chain.heightReference) ⟨fun _ => rfl, fun h1 h2 => h1.trans h2⟩ fun h1 h2 => h1 ▸ h2
  have st : ∀ {f : DerivativeChain → DerivativeChain}, (∀ c, Logged c.chain.blocks (f c).chain.blocks ∧
      Logged c.chain.heightReference (f c).chain.heightReference) → Act.Steps Eq (fun c c' : DerivativeChain =>
      Logged c.chain.blocks c'.chain.blocks ∧ Logged c.chain.heightReference c'.chain.heightReference) (Act.step f) :=
    fun h => Act.steps_step ⟨fun _ => rfl, fun h1 h2 => h1.trans h2⟩ h
  unfold DerivativeChain.flush DerivativeChain.dumpConfig DerivativeChain.writeConfig
  exact C.bind (C.bind (st fun _ => ⟨.refl _, .refl _⟩) fun _ => C.bind (st fun _ => ⟨.refl _, .refl _⟩) fun _ =>
    C.bind (st fun _ => ⟨.refl _, .refl _⟩) fun _ => st fun _ => ⟨.refl _, .refl _⟩) fun _ =>
    C.bind (st fun _ => ⟨logged_flush _, .refl _⟩) fun _ => st fun _ => ⟨.refl _, logged_flush _⟩

theorem op_logged (E : Env) (op : Op) : Act.Steps SameTables TreeLogs (op.run E) := by
  have C := tables_closed
  refine Op.sat (A := fun _ => True) ⟨fun b _ => addBlock_logged E b, fun t => ?_, mainFlush_logged,
    fun _ _ => summary_logged _, fun _ _ => summary_logged _, fun _ _ => summary_logged _, fun _ _ _ _ => summary_logged _,
    fun _ _ => gas_logged _, fun _ _ => gas_logged _, fun _ _ _ => gas_logged _, flush_logged, ?_, fun o => ?_,
    fun _ b => ?_, fun _ => steps_onDeriv derivFlush_logged⟩ C op op.adds_true
  · refine Act.steps_zoom (Q := Eq) (R := fun a b : MainChain => Logged a.transactions b.transactions ∧ b.chain = a.chain)
      onMain_lens (Act.steps_step ⟨fun _ => rfl, fun h1 h2 => h1.trans h2⟩ fun c => ⟨logged_insert _ _ _, rfl⟩)
      (fun _ _ _ h => h ▸ sameTables_preord.refl _) (fun t u v h x => ?_)
    cases x with
    | transactions => exact h.1
    | blocks => show Logged u.chain.blocks v.chain.blocks; rw [h.2]; exact .refl _
    | references => show Logged u.chain.heightReference v.chain.heightReference; rw [h.2]; exact .refl _
    | _ => exact .refl _
  · unfold Tree.rotateDbs
    refine C.bind flush_logged fun _ => C.bind (step_logged fun t x => ?_) fun _ => C.bind (step_logged fun t x => ?_) fun _ =>
      C.bind (step_logged fun t x => ?_) fun _ => step_logged fun t x => ?_
    all_goals cases x <;> first | exact .refl _ | exact logged_open _ _
  · refine Act.steps_of_rel (fun h x => (h x).symm) sameTables_preord SameTables.logs
      (Tree.getDeriv_rel sameTables_preord.refl E o fun t c _ h1 h2 _ x => ?_)
    cases x with
    | derivBlocks n =>
      show (if n = hexEncode o.val then _ else _ : DerivFiles).blocks = _
      by_cases hn : n = hexEncode o.val
      · rw [if_pos hn, hn]; exact h1
      · rw [if_neg hn]; rfl
    | derivReferences n =>
      show (if n = hexEncode o.val then _ else _ : DerivFiles).heightReference = _
      by_cases hn : n = hexEncode o.val
      · rw [if_pos hn, hn]; exact h2
      · rw [if_neg hn]; rfl
    | _ => rfl
  · exact steps_onDeriv (Act.steps_zoom (part := fun m : DerivativeChain => m.chain) (put := fun c m => { m with chain := c })
      ⟨fun _ _ => rfl, fun _ _ _ => rfl, fun _ => rfl⟩ (chain_logged E _ _) (fun _ _ _ h => h ▸ rfl) (fun _ _ _ h => h))

theorem new_logged (E : Env) : Act.Steps SameTables TreeLogs (Tree.new E) := by
  have C := tables_closed
  have D := Act.steps_closed (Q := Eq) (R := fun a b : MainChain => (Logged a.chain.blocks b.chain.blocks ∧
      Logged a.chain.heightReference b.chain.heightReference) ∧ b.transactions = a.transactions)
      ⟨fun _ => rfl, fun h1 h2 => h1.trans h2⟩ fun h1 h2 => h1 ▸ h2
  unfold Tree.new
  refine C.bind (step_logged fun t x => by cases x <;> exact .refl _) fun _ => C.bind ?_ fun _ => C.bind C.get fun t => ?_
  · refine Act.steps_zoom (Q := Eq) onMain_lens (x := MainChain.new E) (R := fun a b : MainChain =>
      (Logged a.chain.blocks b.chain.blocks ∧ Logged a.chain.heightReference b.chain.heightReference) ∧
      b.transactions = a.transactions) ?_ (fun _ _ _ h => h ▸ sameTables_preord.refl _) (fun t u v h x => ?_)
    · unfold MainChain.new
      refine D.bind D.get fun s => D.bind (D.lift _) fun hd => D.bind (Act.steps_step ⟨fun _ => rfl, fun h1 h2 => h1.trans h2⟩
        fun c => ⟨⟨.refl _, .refl _⟩, rfl⟩) fun _ => ?_
      split
      · exact D.bind (D.lift _) fun root => D.mapErr _ (Act.steps_zoom onChain_lens (chain_logged E _ _)
          (fun _ _ _ h => h ▸ rfl) (fun _ _ _ h => ⟨h, rfl⟩))
      · exact D.pure _
    · cases x with
      | blocks => exact h.1.1
      | references => exact h.1.2
      | transactions =>
        show Logged u.transactions v.transactions
        rw [h.2]; exact .refl _
      | _ => exact .refl _
  · split
    · exact summary_logged _
    · exact C.pure _

/-! ### All of the time -/

/-- Whatever a database may be taken back to is in `old`, or it is what the database was at one of these moments. -/
def Dated (x : Table) (old : List KV) (moments : List Tree) (t : Tree) : Prop :=
  ∀ m ∈ (x.db t).recov, m ∈ old ∨ ∃ p ∈ moments ++ [t], m = (x.db p).cur

theorem Dated.step {x : Table} {old : List KV} {ms : List Tree} {a b : Tree} (h : Dated x old ms a) (hs : Logged (x.db a) (x.db b)) :
    Dated x old (ms ++ [a]) b := by
  intro m hm
  rcases hs m hm with hm | hm
  · exact (h m hm).imp id fun ⟨p, hp, e⟩ => ⟨p, List.mem_append_left _ hp, e⟩
  · exact .inr ⟨b, by simp, hm⟩

theorem Dated.along {x : Table} {old : List KV} {l : List Tree} : ∀ {ms : List Tree} {s t : Tree} {r : List Tree},
    Dated x old ms s → List.IsChain TreeLogs (s :: (l ++ t :: r)) → Dated x old (ms ++ s :: l) t := by
  induction l with
  | nil => intro ms s t r h hc; exact h.step ((List.isChain_cons_cons.mp hc).1 x)
  | cons u l ih =>
    intro ms s t r h hc
    obtain ⟨hs, hc⟩ := List.isChain_cons_cons.mp hc
    have := ih (h.step (hs x)) hc
    simpa using this

theorem Dated.run {x : Table} {old : List KV} {ms : List Tree} {s : Tree} {α : Type} {a : Act Tree α}
    (ha : Act.Steps SameTables TreeLogs a) (h : Dated x old ms s) : Dated x old (ms ++ s :: (a s).trace) (a s).final := by
  obtain ⟨hc, m, hl, hq⟩ := ha s
  generalize (a s).trace = tr at *
  generalize (a s).final = f at *
  rcases List.eq_nil_or_concat tr with rfl | ⟨l, z, rfl⟩
  · simp at hl
    subst hl
    exact h.step (hq.logs x)
  · rw [List.concat_eq_append] at *
    have hz : m = z := by
      rw [show s :: (l ++ [z]) = (s :: l) ++ [z] from rfl, List.getLast?_concat] at hl
      exact (Option.some.inj hl).symm
    subst hz
    have := (h.along hc).step (hq.logs x)
    simpa using this

theorem Dated.killed {x : Table} {old : List KV} {ms : List Tree} {s b : Tree} (h : Dated x old ms s) (hk : KilledAt s b) :
    Dated x old (ms ++ [s]) b := fun m hm =>
  (h m (leftBy_mem (killed_table hk x) (.inr hm))).imp id fun ⟨p, hp, e⟩ => ⟨p, List.mem_append_left _ hp, e⟩

theorem dated_on {E : Env} {past0 past : List Tree} {n m : BCT.Stage} (h : PowerOn E past0 n past m) :
    ∃ since, past = past0 ++ since ∧ n.state ∈ since ++ [m.state] ∧
      ∀ x : Table, Dated x (x.db n.state).recov since m.state := by
  have keep : ∀ {l : List Tree} {z t a : Tree} {r : List Tree}, a ∈ l ++ [z] → a ∈ (l ++ z :: r) ++ [t] := by
    intro l z t a r ha
    rcases List.mem_append.mp ha with ha | ha
    · exact List.mem_append_left _ (List.mem_append_left _ ha)
    · rw [List.mem_singleton.mp ha]; simp
  induction h with
  | refl => exact ⟨[], by simp, by simp, fun x m hm => .inl hm⟩
  | opening past l r b t _ ht ih =>
    obtain ⟨since, rfl, hn, hd⟩ := ih
    refine ⟨since ++ b :: l, by simp, keep hn, fun x => (hd x).along (r := r) ?_⟩
    show List.IsChain TreeLogs (b :: (l ++ t :: r))
    rw [← ht]
    exact (new_logged E b).1
  | opened past b _ ho ih =>
    obtain ⟨since, rfl, hn, hd⟩ := ih
    exact ⟨since ++ b :: (Tree.new E b).trace, by simp, keep hn, fun x => (hd x).run (new_logged E)⟩
  | running past l r s t op _ ht ih =>
    obtain ⟨since, rfl, hn, hd⟩ := ih
    refine ⟨since ++ s :: l, by simp, keep hn, fun x => (hd x).along (r := r) ?_⟩
    show List.IsChain TreeLogs (s :: (l ++ t :: r))
    rw [← ht]
    exact (op_logged E op s).1
  | call past s op _ ih =>
    obtain ⟨since, rfl, hn, hd⟩ := ih
    exact ⟨since ++ s :: (op.run E s).trace, by simp, keep hn, fun x => (hd x).run (op_logged E op)⟩
  | killIdle past s b _ hk ih =>
    obtain ⟨since, rfl, hn, hd⟩ := ih
    exact ⟨since ++ [s], by simp, keep (r := []) hn, fun x => (hd x).killed hk⟩
  | killBusy past s b _ hk ih =>
    obtain ⟨since, rfl, hn, hd⟩ := ih
    exact ⟨since ++ [s], by simp, keep (r := []) hn, fun x => (hd x).killed hk⟩

/-! ## C157 -/

/-- C157. `flush` has returned on a node in any state. Then the node is called, killed and opened again in any way, and the
power fails. Each of the tree's databases is found as it was at one moment since the flush. -/
theorem C157_moment (E : Env) (past past' : List Tree) (s : Tree) (m : BCT.Stage) (d : Disk)
    (hm : PowerOn E past (.idle (Op.flush.run E s).final) past' m) (hd : PowerLoss past' m.state d) :
    ∃ since, past' = past ++ since ∧
      (∃ p ∈ since ++ [m.state], d.summary = p.summary.cur) ∧ (∃ p ∈ since ++ [m.state], d.gas = p.gas.cur) ∧
      (∃ p ∈ since ++ [m.state], d.oldSummary = p.oldSummary.cur) ∧ (∃ p ∈ since ++ [m.state], d.oldGas = p.oldGas.cur) ∧
      (∃ p ∈ since ++ [m.state], d.transactions = p.main.transactions.cur) ∧
      (∃ p ∈ since ++ [m.state], d.blocks = p.main.chain.blocks.cur) ∧
      ∃ p ∈ since ++ [m.state], d.heightReference = p.main.chain.heightReference.cur := by
  obtain ⟨since, hp, hn, hdat⟩ := dated_on hm
  have key : ∀ x : Table, (x.db s.flushed).recov = [(x.db s.flushed).cur] →
      ∃ p ∈ since ++ [m.state], x.found d = (x.db p).cur := by
    intro x hx
    rcases hdat x _ (loss_table hd x) with h | h
    · rw [show (BCT.Stage.idle (Op.flush.run E s).final).state = s.flushed from (flush_op E s).2, hx] at h
      refine ⟨_, hn, ?_⟩
      rw [show (BCT.Stage.idle (Op.flush.run E s).final).state = s.flushed from (flush_op E s).2]
      exact List.mem_singleton.mp h
    · exact h
  exact ⟨since, hp, key .coins rfl, key .gas rfl, key .oldCoins rfl, key .oldGas rfl, key .transactions rfl, key .blocks rfl,
    key .references rfl⟩

/-- C157. So is a derivative chain after its own flush. -/
theorem C157_deriv (E : Env) (past past' : List Tree) (s : Tree) (o : Address) (m : BCT.Stage) (d : Disk)
    (hm : PowerOn E past (.idle ((Op.derivFlush o).run E s).final) past' m) (hd : PowerLoss past' m.state d)
    (ho : ((Op.derivFlush o).run E s).out = .ok ()) :
    ∃ since, past' = past ++ since ∧
      (∃ p ∈ since ++ [m.state], (d.deriv (hexEncode o.val)).blocks = (p.derivFiles (hexEncode o.val)).blocks.cur) ∧
      ∃ p ∈ since ++ [m.state],
        (d.deriv (hexEncode o.val)).heightReference = (p.derivFiles (hexEncode o.val)).heightReference.cur := by
  obtain ⟨since, hp, hn, hdat⟩ := dated_on hm
  obtain ⟨v, -, -, -, hf, -⟩ := derivFlush_ok ho
  have key : ∀ x : Table, (x.db ((Op.derivFlush o).run E s).final).recov = [(x.db ((Op.derivFlush o).run E s).final).cur] →
      ∃ p ∈ since ++ [m.state], x.found d = (x.db p).cur := by
    intro x hx
    rcases hdat x _ (loss_table hd x) with h | h
    · have h : x.found d ∈ (x.db ((Op.derivFlush o).run E s).final).recov := h
      rw [hx] at h
      exact ⟨_, hn, List.mem_singleton.mp h⟩
    · exact h
  refine ⟨since, hp, key (.derivBlocks _) ?_, key (.derivReferences _) ?_⟩
  · rw [hf]
    show (if hexEncode o.val = hexEncode o.val then _ else _ : DerivFiles).blocks.recov =
      [(if hexEncode o.val = hexEncode o.val then _ else _ : DerivFiles).blocks.cur]
    rw [if_pos rfl]
    rfl
  · rw [hf]
    show (if hexEncode o.val = hexEncode o.val then _ else _ : DerivFiles).heightReference.recov =
      [(if hexEncode o.val = hexEncode o.val then _ else _ : DerivFiles).heightReference.cur]
    rw [if_pos rfl]
    rfl

/-- C157. What the node that opens afterwards answers: the balances are those of one moment since the flush (at height 1 the
root account gets its coins again), and so are the gas and the stored transactions. -/
theorem C157_balances (E : Env) (past past' : List Tree) (s : Tree) (m : BCT.Stage) (d : Disk)
    (hm : PowerOn E past (.idle (Op.flush.run E s).final) past' m) (hd : PowerLoss past' m.state d)
    (ho : (openTree E d).out = .ok ()) :
    ∃ since, past' = past ++ since ∧
      (∃ p ∈ since ++ [m.state], ∀ o, (openTree E d).final.main.getHeight.val ≠ 1 ∨ o ≠ ROOT_PUBLIC_ADDRESS →
        (openTree E d).final.getAmount o = p.getAmount o) ∧
      (∃ p ∈ since ++ [m.state], ∀ o, (openTree E d).final.getGas o = p.getGas o) ∧
      ∃ p ∈ since ++ [m.state], ∀ h, (openTree E d).final.main.getTransaction E h = p.main.getTransaction E h := by
  obtain ⟨since, hp, ⟨p1, m1, h1⟩, ⟨p2, m2, h2⟩, -, -, ⟨p3, m3, h3⟩, -⟩ := C157_moment E past past' s m d hm hd
  have hfin : ∃ h : U256, (openTree E d).final.main.getHeight = h ∧
      (openTree E d).final.summary = seedSummary h (Db.open' d.summary) ∧ (openTree E d).final.gas = Db.open' d.gas ∧
      (openTree E d).final.main.transactions = Db.open' d.transactions := by
    rcases openTree_ok ho with ⟨h, df, hr, h0⟩ | ⟨df, hr⟩
    · rw [(openTree_pos (E := E) hr h0).2]; exact ⟨h, rfl, rfl, rfl, rfl⟩
    · rw [(openTree_zero (E := E) hr).2]; exact ⟨U256.one, rfl, rfl, rfl, rfl⟩
  obtain ⟨h, e1, e2, e3, e4⟩ := hfin
  refine ⟨since, hp, ⟨p1, m1, fun o hr => ?_⟩, ⟨p2, m2, fun o => ?_⟩, ⟨p3, m3, fun k => ?_⟩⟩
  · unfold Tree.getAmount
    rw [e2, seed_other (by rw [← e1]; exact hr.imp id fun h e => h (Subtype.ext e)), h1]
    rfl
  · unfold Tree.getGas
    rw [e3, h2]
    rfl
  · unfold MainChain.getTransaction MainChain.getTransactionRaw
    rw [e4, h3]
    rfl

/-- The balance of an account is set to one amount and then to another after a flush. The process is killed, and then the power fails. The node
opens with the first amount: it is the balance of one moment, but not that of the last. -/
example (E : Env) (a : Address) (ha : a ≠ ROOT_PUBLIC_ADDRESS) (v w : U256) : ∃ (s u b : Tree) (past' : List Tree) (d : Disk),
    Powered E (Disk.empty.boot :: (openTree E Disk.empty).trace) (.idle s) ∧
    PowerOn E [] (.idle (Op.flush.run E s).final) past' (.down b) ∧ u ∈ past' ∧ u.getAmount a = .ok w ∧
    PowerLoss past' (BCT.Stage.down b).state d ∧ (openTree E d).out = .ok () ∧ (openTree E d).final.getAmount a = .ok v := by
  have h0 : Powered E _ (.idle (openTree E Disk.empty).final) := .opened [] Disk.empty .start (openTree_fresh E).1
  have e0 : (openTree E Disk.empty).final.main.chain.height = U256.one := by rw [(openTree_fresh E).2]; rfl
  generalize (openTree E Disk.empty).final = s at h0 e0
  have h1 := Powered.call _ _ .flush h0
  have c1 : MainChain.readConfig (Op.flush.run E s).final.main.chain.config = .ok (s.main.chain.height, s.main.chain.difficulty) := by
    rw [(flush_op E s).2]
    exact MainChain.readConfig_written _ _
  generalize hf : (Op.flush.run E s).final = f at h1 c1
  have set_op : ∀ (t : Tree) (x : U256), ((Op.setAmount a.val x).run E t).final =
      { t with summary := t.summary.insert a.val (Ledger.encode x) } := by
    intro t x
    show (Tree.onSummary (Ledger.set a.val x) t).final = _
    unfold Tree.onSummary
    rw [Act.zoom_run, Ledger.set_run]
  have h2 := Powered.call _ _ (.setAmount a.val v) h1
  have h3 := Powered.call _ _ (.setAmount a.val w) h2
  have g2 := set_op f v
  have g3 := set_op ((Op.setAmount a.val v).run E f).final w
  have hsound := powered_sound h3
  have p2 : PowerOn E [] (.idle f) _ _ := .call _ _ (.setAmount a.val w) (.call _ _ (.setAmount a.val v) .refl)
  generalize ht : ((Op.setAmount a.val v).run E f).final = t at *
  generalize hu : ((Op.setAmount a.val w).run E t).final = u at *
  obtain ⟨b, hk, -, hl⟩ := killed_exists hsound
    ([] ++ f :: ((Op.setAmount a.val v).run E f).trace ++ t :: ((Op.setAmount a.val w).run E t).trace ++ [u])
  have hrec : u.summary.recov = [] ++ u.summary.cur :: t.summary.recov := by rw [g3]; rfl
  have ht5 : t.summary.cur ∈ t.summary.recov := by rw [g2]; exact List.mem_cons_self
  have hcfg : u.main.chain.config = f.main.chain.config := by rw [g3, g2]
  have hfin := openTree_pos (E := E) (d := { u.close with summary := t.summary.cur }) (h := s.main.chain.height)
    (df := s.main.chain.difficulty) (by show MainChain.readConfig u.main.chain.config = _; rw [hcfg, c1]) (by rw [e0]; decide)
  refine ⟨s, u, { b with summary := u.summary },
    [] ++ f :: ((Op.setAmount a.val v).run E f).trace ++ t :: ((Op.setAmount a.val w).run E t).trace ++ [u], { u.close with summary := t.summary.cur }, h0, ?_, ?_, ?_, ?_, hfin.1, ?_⟩
  · rw [hf]
    exact .killIdle _ u _ p2 ⟨hk.blocks, hk.heightReference, hk.transactions, hk.config, ⟨[], t.summary.recov, hrec, hrec⟩,
      hk.oldSummary, hk.gas, hk.oldGas, hk.deriv⟩
  · simp
  · rw [g3]
    show Ledger.balance ((t.summary.insert a.val _).get a.val) = _
    rw [Db.get_insert, if_pos rfl, Ledger.balance_encode]
  · refine ⟨hl.blocks, hl.heightReference, hl.transactions, ?_, ?_, hl.oldSummary, hl.gas, hl.oldGas, ?_⟩
    · obtain ⟨p, hp, hc⟩ := hl.config
      rcases List.mem_cons.mp hp with rfl | hp
      · exact ⟨_, List.mem_cons_self, hc⟩
      · exact ⟨p, List.mem_cons_of_mem _ hp, hc⟩
    · show t.summary.cur ∈ u.summary.recov
      rw [hrec]
      exact List.mem_cons_of_mem _ ht5
    · intro n
      obtain ⟨k1, k2, p, hp, hc⟩ := hl.deriv n
      refine ⟨k1, k2, ?_⟩
      rcases List.mem_cons.mp hp with rfl | hp
      · exact ⟨_, List.mem_cons_self, hc⟩
      · exact ⟨p, List.mem_cons_of_mem _ hp, hc⟩
  · rw [hfin.2]
    show Ledger.balance ((seedSummary _ (Db.open' t.summary.cur)).get a.val) = _
    rw [seed_other (.inr fun e => ha (Subtype.ext e)), g2]
    show Ledger.balance ((f.summary.insert a.val _).get a.val) = _
    rw [Db.get_insert, if_pos rfl, Ledger.balance_encode]

end BCT.Props
