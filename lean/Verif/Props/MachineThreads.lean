import Verif.Props.MachineLedger
import Verif.Props.ThreadsCut
/-!
# C159: many threads, processes that die, and a power failure (blockchaintree.rs, chain.rs)
-/

namespace BCT.Props
open BCT

variable {ι : Type}

/-! ### The machine -/

/-- From one stage to another without a power failure, as in `PowerOn`, but the node is also used by any number of threads at
once, again and again. Their calls may be cut short, and the process may die in the midst of their work. -/
inductive BusyOn (E : Env) (past0 : List Tree) (m0 : BCT.Stage) : List Tree → BCT.Stage → Prop where
  | refl : BusyOn E past0 m0 past0 m0
  | alone (past past' : List Tree) (m m' : BCT.Stage) : BusyOn E past0 m0 past m → PowerOn E past m past' m' →
      BusyOn E past0 m0 past' m'
  | working (past : List Tree) (s : Tree) (ι : Type) [DecidableEq ι] (job : ι → Job) (stop : ι → Option (Nat × Outcome Reply))
      (log : List (Event ι Node)) (c : Config ι Node Reply) : BusyOn E past0 m0 past (.idle s) →
      Exec (cutStart E s job stop) log c → BusyOn E past0 m0 (past ++ s :: log.map (·.after.data)) (.busy c.shared.data)
  | worked (past : List Tree) (s : Tree) (ι : Type) [DecidableEq ι] (job : ι → Job) (stop : ι → Option (Nat × Outcome Reply))
      (log : List (Event ι Node)) (c : Config ι Node Reply) : BusyOn E past0 m0 past (.idle s) →
      Exec (cutStart E s job stop) log c → (∀ i, ∃ o, c.threads i = .done o) →
      BusyOn E past0 m0 (past ++ s :: log.map (·.after.data)) (.idle c.shared.data)

/-! ### One step at a time -/

theorem logs_job (E : Env) (k : Job) : (k.prog E).Guar Logs := by
  cases k with
  | node k =>
    refine .bind ?_ fun _ => Prog.guar_pure _
    cases k with
    | shared k => exact .bind (logs_shared E k) fun _ => Prog.guar_pure _
    | emit pow founder txs ts => exact .bind (logs_emit E _ _ _ _) fun _ => Prog.guar_pure _
    | lookup l => exact logs_lookup l
  | call k =>
    cases k with
    | add b => exact .bind (logs_addBlock E b) fun _ => Prog.guar_pure _
    | lookup l => exact .bind (logs_lookup l) fun _ => Prog.guar_pure _
    | brief x => exact logs_brief E x

theorem logs_cut (E : Env) (s : Tree) (job : ι → Job) (stop : ι → Option (Nat × Outcome Reply)) (i : ι) :
    ((cutStart E s job stop).threads i).Guar Logs :=
  cut_sat (P := fun p => p.Guar Logs) (fun i => logs_job E (job i))
    (fun k _ i => Guar.cut (fun n => logs_held n false) false k (logs_job E (job i))) i

/-- The database of a tree. -/
def Store.table : Store → Table
  | .blocks => .blocks
  | .references => .references
  | .transactions => .transactions
  | .coins => .coins
  | .oldCoins => .oldCoins
  | .gas => .gas
  | .oldGas => .oldGas

theorem store_db (x : Store) (n : Node) : x.table.db n.data = x.db n := by cases x <;> rfl

theorem store_found (x : Store) (d : Disk) : x.table.found d = x.found d := by cases x <;> rfl

theorem dated_exec [DecidableEq ι] {E : Env} {s : Tree} {job : ι → Job} {stop : ι → Option (Nat × Outcome Reply)}
    {log log' : List (Event ι Node)} {c0 c : Config ι Node Reply} (h0 : Exec (cutStart E s job stop) log c0)
    (h : Exec c0 log' c) (x : Store) {old : List KV} {ms : List Tree} (hd : Dated x.table old ms c0.shared.data) :
    Dated x.table old (ms ++ c0.shared.data :: log'.map (·.after.data)) c.shared.data := by
  intro m hm
  rw [store_db] at hm
  have hg := (h0.guar (R := fun _ => Logs) (logs_cut E s job stop)).2
  rcases (exec_recov h hg x m hm).1 with h1 | ⟨e, he, h1⟩
  · rw [← store_db] at h1
    refine (hd m h1).imp id fun ⟨p, hp, e⟩ => ⟨p, ?_, e⟩
    simp only [List.mem_append, List.mem_cons] at hp ⊢
    tauto
  · refine .inr ⟨e.after.data, ?_, by rw [store_db]; exact h1⟩
    exact List.mem_append_left _ (List.mem_append_right _ (List.mem_cons_of_mem _ (List.mem_map.mpr ⟨e, he, rfl⟩)))

theorem Dated.trans {x : Table} {old old' : List KV} {ms ms' : List Tree} {a b : Tree} (h : Dated x old ms a)
    (h' : Dated x old' ms' b) (ho : ∀ m ∈ old', m ∈ (x.db a).recov) (hms : ∀ p ∈ ms ++ [a], p ∈ ms' ++ [b]) :
    Dated x old ms' b := by
  intro m hm
  rcases h' m hm with h1 | h1
  · exact (h m (ho m h1)).imp id fun ⟨p, hp, e⟩ => ⟨p, hms p hp, e⟩
  · exact .inr h1

theorem dated_busy {E : Env} {past0 past : List Tree} {n m : BCT.Stage} (h : BusyOn E past0 n past m) :
    ∃ since, past = past0 ++ since ∧ n.state ∈ since ++ [m.state] ∧
      ∀ x : Store, Dated x.table (x.table.db n.state).recov since m.state := by
  induction h with
  | refl => exact ⟨[], by simp, by simp, fun x m hm => .inl hm⟩
  | alone past past' m m' _ hp ih =>
    obtain ⟨l, rfl, hn, hd⟩ := ih
    obtain ⟨l', rfl, hn', hd'⟩ := dated_on hp
    have hms : ∀ p ∈ l ++ [m.state], p ∈ (l ++ l') ++ [m'.state] := by
      intro p hp
      rcases List.mem_append.mp hp with hp | hp
      · simp [hp]
      · rw [List.mem_singleton.mp hp]
        rcases List.mem_append.mp hn' with h | h
        · simp [h]
        · simp [List.mem_singleton.mp h]
    refine ⟨l ++ l', by simp, hms _ hn, fun x => (hd x).trans (ms' := l ++ l') (old' := (x.table.db m.state).recov) ?_ (fun _ h => h) hms⟩
    intro k hk
    refine (hd' x.table k hk).imp id fun ⟨p, hp, e⟩ => ⟨p, ?_, e⟩
    rcases List.mem_append.mp hp with hp | hp
    · simp [hp]
    · simp [List.mem_singleton.mp hp]
  | working past s ι job stop log c _ he ih =>
    obtain ⟨l, rfl, hn, hd⟩ := ih
    refine ⟨l ++ s :: log.map (·.after.data), by simp, ?_, fun x => dated_exec .refl he x (hd x)⟩
    rcases List.mem_append.mp hn with h | h
    · simp [h]
    · simp [List.mem_singleton.mp h]; exact .inr (.inl rfl)
  | worked past s ι job stop log c _ he _ ih =>
    obtain ⟨l, rfl, hn, hd⟩ := ih
    refine ⟨l ++ s :: log.map (·.after.data), by simp, ?_, fun x => dated_exec .refl he x (hd x)⟩
    rcases List.mem_append.mp hn with h | h
    · simp [h]
    · simp [List.mem_singleton.mp h]; exact .inr (.inl rfl)

/-! ### What is found -/

theorem found_parts {E : Env} {d : Disk} (ho : (openTree E d).out = .ok ()) : ∃ h : U256, (openTree E d).final.main.getHeight = h ∧
    (openTree E d).final.summary = seedSummary h (Db.open' d.summary) ∧ (openTree E d).final.gas = Db.open' d.gas ∧
    (openTree E d).final.main.transactions = Db.open' d.transactions := by
  rcases openTree_ok ho with ⟨h, df, hr, h0⟩ | ⟨df, hr⟩
  · rw [(openTree_pos (E := E) hr h0).2]; exact ⟨h, rfl, rfl, rfl, rfl⟩
  · rw [(openTree_zero (E := E) hr).2]; exact ⟨U256.one, rfl, rfl, rfl, rfl⟩

theorem found_amount {E : Env} {d : Disk} {p : Tree} (ho : (openTree E d).out = .ok ()) (h : d.summary = p.summary.cur) (o : Address)
    (hr : (openTree E d).final.main.getHeight.val ≠ 1 ∨ o ≠ ROOT_PUBLIC_ADDRESS) :
    (openTree E d).final.getAmount o = p.getAmount o := by
  obtain ⟨q, e1, e2, -, -⟩ := found_parts ho
  unfold Tree.getAmount
  rw [e2, seed_other (by rw [← e1]; exact hr.imp id fun h e => h (Subtype.ext e)), h]
  rfl

theorem found_gas {E : Env} {d : Disk} {p : Tree} (ho : (openTree E d).out = .ok ()) (h : d.gas = p.gas.cur) (o : Address) :
    (openTree E d).final.getGas o = p.getGas o := by
  obtain ⟨q, -, -, e3, -⟩ := found_parts ho
  unfold Tree.getGas
  rw [e3, h]
  rfl

theorem found_transaction {E : Env} {d : Disk} {p : Tree} (ho : (openTree E d).out = .ok ())
    (h : d.transactions = p.main.transactions.cur) (k : Hash) :
    (openTree E d).final.main.getTransaction E k = p.main.getTransaction E k := by
  obtain ⟨q, -, -, -, e4⟩ := found_parts ho
  unfold MainChain.getTransaction MainChain.getTransactionRaw
  rw [e4, h]
  rfl

/-! ## C159 -/

theorem job_saves (E : Env) : Prog.Hist (fun _ => True) (fun l (_ : Outcome Reply) => ∀ x, Saved x l)
    (Job.prog E (.node (.shared .flush))) [] :=
  hist_unit _ (fun _ => ⟨_, rfl⟩) (hist_unit _ (fun _ => ⟨_, rfl⟩) flush_saves)

/-- C159. Any number of threads use a node in any state, their calls cut short or not; one of them flushes it: the flush
begins at the moment `c0` and has returned at the moment `c`. Thereafter the threads work on until the process dies or all
have ended, and the node is called, used by threads, killed and opened again in any way; then the power fails. Each of the
tree's databases is found as it was at one moment since the flush began. -/
theorem C159_moment [DecidableEq ι] (E : Env) (s : Tree) (job : ι → Job) (stop : ι → Option (Nat × Outcome Reply))
    (log log' : List (Event ι Node)) (c0 c : Config ι Node Reply) (i : ι) (r : Reply) (past past' : List Tree)
    (n m : BCT.Stage) (d : Disk)
    (h0 : Exec (cutStart E s job stop) log c0) (h : Exec c0 log' c)
    (hi : job i = .node (.shared .flush)) (hb : c0.threads i = (job i).prog E) (he : c.threads i = .done (.ok r))
    (hn : n = .busy c.shared.data ∨ (n = .idle c.shared.data ∧ ∀ j, ∃ o, c.threads j = .done o))
    (hm : BusyOn E past n past' m) (hd : PowerLoss past' m.state d) :
    ∃ later, past' = past ++ later ∧ ∀ moments, moments = (since c0.shared log').map (·.data) ++ later ++ [m.state] →
      (∃ p ∈ moments, d.summary = p.summary.cur) ∧ (∃ p ∈ moments, d.gas = p.gas.cur) ∧
      (∃ p ∈ moments, d.oldSummary = p.oldSummary.cur) ∧ (∃ p ∈ moments, d.oldGas = p.oldGas.cur) ∧
      (∃ p ∈ moments, d.transactions = p.main.transactions.cur) ∧
      (∃ p ∈ moments, d.blocks = p.main.chain.blocks.cur) ∧
      ∃ p ∈ moments, d.heightReference = p.main.chain.heightReference.cur := by
  obtain ⟨later, hp, hmem, hdat⟩ := dated_busy hm
  refine ⟨later, hp, fun moments hmo => ?_⟩
  have hst : n.state = c.shared.data := by rcases hn with rfl | ⟨rfl, -⟩ <;> rfl
  have hg := (h0.guar (R := fun _ => Logs) (logs_cut E s job stop)).2
  have hk := (h.hist (J := fun _ => True) (P := fun j l (_ : Outcome Reply) => j = i → ∀ x, Saved x l) trivial fun j => by
    by_cases hj : j = i
    · subst hj
      rw [hb, hi]
      exact (job_saves E).mono fun _ _ h _ => h
    · exact (hist_true _ _).mono fun _ _ _ e => absurd e hj).2.2 i
  rw [he] at hk
  have key : ∀ x : Store, ∃ p ∈ moments, x.table.found d = (x.table.db p).cur := by
    intro x
    have inL : ∀ e ∈ log', e.after.data ∈ moments := by
      intro e he
      rw [hmo]
      exact List.mem_append_left _ (List.mem_append_left _ (List.mem_map.mpr ⟨_, since_event he, rfl⟩))
    rcases hdat x _ (loss_table hd x.table) with h1 | ⟨p, hp, h1⟩
    · rw [hst, store_db] at h1
      obtain ⟨⟨a, b⟩, hy, hs⟩ := hk rfl x
      have hev := mem_ownSteps hy
      rcases (exec_recov h hg x _ h1).2 _ hev with h2 | ⟨e, h2, h3⟩
      · have h2 : x.table.found d ∈ (x.db b).recov := h2
        have hs : (x.db b).recov = [(x.db b).cur] := hs
        rw [hs] at h2
        exact ⟨_, inL _ hev, by rw [store_db]; exact List.mem_singleton.mp h2⟩
      · exact ⟨_, inL e h2, by rw [store_db]; exact h3⟩
    · refine ⟨p, ?_, h1⟩
      rw [hmo, List.append_assoc]
      exact List.mem_append_right _ hp
  exact ⟨key .coins, key .gas, key .oldCoins, key .oldGas, key .transactions, key .blocks, key .references⟩

/-- C159. The same when the flush was made alone and the threads came after. -/
theorem C159_alone (E : Env) (past past' : List Tree) (s : Tree) (m : BCT.Stage) (d : Disk)
    (hm : BusyOn E past (.idle (Op.flush.run E s).final) past' m) (hd : PowerLoss past' m.state d) :
    ∃ later, past' = past ++ later ∧ ∀ moments, moments = later ++ [m.state] →
      (∃ p ∈ moments, d.summary = p.summary.cur) ∧ (∃ p ∈ moments, d.gas = p.gas.cur) ∧
      (∃ p ∈ moments, d.oldSummary = p.oldSummary.cur) ∧ (∃ p ∈ moments, d.oldGas = p.oldGas.cur) ∧
      (∃ p ∈ moments, d.transactions = p.main.transactions.cur) ∧
      (∃ p ∈ moments, d.blocks = p.main.chain.blocks.cur) ∧
      ∃ p ∈ moments, d.heightReference = p.main.chain.heightReference.cur := by
  obtain ⟨later, hp, hn, hdat⟩ := dated_busy hm
  refine ⟨later, hp, fun moments hmo => ?_⟩
  subst hmo
  have key : ∀ x : Store, (x.table.db s.flushed).recov = [(x.table.db s.flushed).cur] →
      ∃ p ∈ later ++ [m.state], x.table.found d = (x.table.db p).cur := by
    intro x hx
    have hs : (BCT.Stage.idle (Op.flush.run E s).final).state = s.flushed := (flush_op E s).2
    rcases hdat x _ (loss_table hd x.table) with h | h
    · rw [hs, hx] at h
      refine ⟨_, hn, ?_⟩
      rw [hs]
      exact List.mem_singleton.mp h
    · exact h
  exact ⟨key .coins rfl, key .gas rfl, key .oldCoins rfl, key .oldGas rfl, key .transactions rfl, key .blocks rfl,
    key .references rfl⟩

/-- C159. What the node that opens afterwards answers: the balances are those of one moment since the flush began (at height 1
the root account gets its coins again), and so are the gas and the stored transactions. -/
theorem C159_balances [DecidableEq ι] (E : Env) (s : Tree) (job : ι → Job) (stop : ι → Option (Nat × Outcome Reply))
    (log log' : List (Event ι Node)) (c0 c : Config ι Node Reply) (i : ι) (r : Reply) (past past' : List Tree)
    (n m : BCT.Stage) (d : Disk)
    (h0 : Exec (cutStart E s job stop) log c0) (h : Exec c0 log' c)
    (hi : job i = .node (.shared .flush)) (hb : c0.threads i = (job i).prog E) (he : c.threads i = .done (.ok r))
    (hn : n = .busy c.shared.data ∨ (n = .idle c.shared.data ∧ ∀ j, ∃ o, c.threads j = .done o))
    (hm : BusyOn E past n past' m) (hd : PowerLoss past' m.state d) (ho : (openTree E d).out = .ok ()) :
    ∃ later, past' = past ++ later ∧ ∀ moments, moments = (since c0.shared log').map (·.data) ++ later ++ [m.state] →
      (∃ p ∈ moments, ∀ o, (openTree E d).final.main.getHeight.val ≠ 1 ∨ o ≠ ROOT_PUBLIC_ADDRESS →
        (openTree E d).final.getAmount o = p.getAmount o) ∧
      (∃ p ∈ moments, ∀ o, (openTree E d).final.getGas o = p.getGas o) ∧
      ∃ p ∈ moments, ∀ h, (openTree E d).final.main.getTransaction E h = p.main.getTransaction E h := by
  obtain ⟨later, hp, hmom⟩ := C159_moment E s job stop log log' c0 c i r past past' n m d h0 h hi hb he hn hm hd
  refine ⟨later, hp, fun moments hmo => ?_⟩
  obtain ⟨⟨p1, m1, h1⟩, ⟨p2, m2, h2⟩, -, -, ⟨p3, m3, h3⟩, -⟩ := hmom moments hmo
  exact ⟨⟨p1, m1, fun o hr => found_amount ho h1 o hr⟩, ⟨p2, m2, fun o => found_gas ho h2 o⟩,
    ⟨p3, m3, fun k => found_transaction ho h3 k⟩⟩

/-- A case as in the theorems above: one thread flushes a fresh node, then another stores a transaction; both end, the
process dies, and the power fails before another is started. -/
example (E : Env) (tx : Transaction) : ∃ (s : Tree) (log : List (Event Bool Node)) (c : Config Bool Node Reply) (b : Tree) (d : Disk) (r : Reply),
    Exec (cutStart E s (fun i => if i then .node (.shared .flush) else .call (.brief (.addTransaction tx))) fun _ => none) log c ∧
    c.threads true = .done (.ok r) ∧ (∀ j, ∃ o, c.threads j = .done o) ∧
    BusyOn E [] (.idle c.shared.data) [c.shared.data] (.down b) ∧
    PowerLoss [c.shared.data] (BCT.Stage.down b).state d ∧ (openTree E d).out = .ok () ∧
    (openTree E d).final.main.transactionExists (E.sha256 tx.dump) = true := by
  have p0 : Powered E _ (.idle (openTree E Disk.empty).final) := .opened [] Disk.empty .start (openTree_fresh E).1
  have e0 : (openTree E Disk.empty).final.main.chain.height = U256.one := by rw [(openTree_fresh E).2]; rfl
  generalize (openTree E Disk.empty).final = s at p0 e0
  have p1 := Powered.call _ _ .flush p0
  have g1 := flush_op E s
  have c1 : MainChain.readConfig (Op.flush.run E s).final.main.chain.config = .ok (s.main.chain.height, s.main.chain.difficulty) := by
    rw [g1.2]
    exact MainChain.readConfig_written _ _
  generalize hf : (Op.flush.run E s).final = f at p1 c1
  have p2 := Powered.call _ _ (.addTransaction tx) p1
  have g2 : ((Op.addTransaction tx).run E f).final =
      { f with main := { f.main with transactions := f.main.transactions.insert (E.sha256 tx.dump).val tx.dump } } := rfl
  have hsound := powered_sound p2
  generalize hu : ((Op.addTransaction tx).run E f).final = u at p2 hsound g2
  obtain ⟨b, hk, -, hl⟩ := killed_exists hsound [u]
  have r1 : Prog.Runs (Job.prog E (.node (.shared .flush))) ⟨s, false⟩ (.done (.ok (.block none))) ⟨f, false⟩ := by
    have := Node.flush_impl s
    unfold Node.ImplAt at this
    rw [show (Tree.flush s).out = .ok () from g1.1, show (Tree.flush s).final = f from hf] at this
    refine Prog.runs_bind_ok (a := (none : Option Bytes)) ?_ _
    show (Node.flush >>= fun _ => (pure none : Prog Node (Option Bytes))).solo _ = _
    rw [Prog.solo_bind, this]
    rfl
  have r2 : Prog.Runs (Job.prog E (.call (.brief (.addTransaction tx)))) ⟨f, false⟩ (.done (.ok .nothing)) ⟨u, false⟩ := by
    have := Node.addTransaction_impl E tx f
    unfold Node.ImplAt at this
    rw [show (Tree.onMain (MainChain.addTransaction E tx) f).final = u from hu] at this
    exact Prog.runs_bind_ok this _
  have h0 : Exec (cutStart E s (fun i : Bool => if i then .node (.shared .flush) else .call (.brief (.addTransaction tx)))
    fun _ => none) [] _ := .refl
  obtain ⟨l1, h1⟩ := h0.runs true r1
  obtain ⟨l2, h2⟩ := h1.runs false r2
  have hfin := openTree_pos (E := E) (d := u.close) (h := s.main.chain.height) (df := s.main.chain.difficulty)
    (by show MainChain.readConfig u.main.chain.config = _; rw [g2]; exact c1) (by rw [e0]; decide)
  refine ⟨s, _, _, b, u.close, .block none, h2, by simp, fun j => ?_, .alone _ _ _ _ .refl (.killIdle [] u b .refl hk), hl, hfin.1, ?_⟩
  · cases j
    · exact ⟨_, by simp; rfl⟩
    · exact ⟨_, by simp; rfl⟩
  · rw [hfin.2]
    show (u.main.transactions.cur.get _).isSome = true
    rw [g2]
    show ((f.main.transactions.cur.insert _ _).get _).isSome = true
    rw [KV.get_insert, if_pos rfl]
    rfl

end BCT.Props
