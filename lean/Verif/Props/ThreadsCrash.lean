import Verif.Props.ThreadsSend
import Verif.Props.ThreadsSerial
import Verif.Props.Crash
/-!
# C137: a crash while many threads work (blockchaintree.rs, chain.rs)
-/

namespace BCT.Props
open BCT

variable {ι : Type}

/-! ## What a step adds to what a crash can leave -/

/-- The calls of the threads: everything that can be called on the node. -/
inductive Work where
  | node (k : Node.AnyCall)
  | call (k : Call)

/-- The steps of the call; what it returns is not used. -/
def Work.prog (E : Env) : Work → Prog Node Unit
  | .node k => do let _ ← k.prog E; pure ()
  | .call k => do let _ ← k.prog E; pure ()

/-- Of this database, a step makes nothing recoverable but what it leaves. -/
def Logged (d d' : Db) : Prop := ∀ m ∈ d'.recov, m ∈ d.recov ∨ m = d'.cur

theorem Logged.refl (d : Db) : Logged d d := fun _ h => .inl h

theorem logged_commit (d : Db) (f : KV → KV) : Logged d (d.commit f) := fun m h => by
  rcases List.mem_cons.mp h with h | h
  · exact .inr h
  · exact .inl h

theorem logged_insert (d : Db) (k v : Bytes) : Logged d (d.insert k v) := logged_commit d _

theorem logged_flush (d : Db) : Logged d d.flush := fun _ h => .inr (List.mem_singleton.mp h)

theorem logged_open (d : Db) (m : KV) : Logged d (Db.open' m) := fun _ h => .inr (List.mem_singleton.mp h)

theorem logged_transact (closure : KV → Outcome KV) (d : Db) : Logged d (Ledger.transact closure d).final := by
  cases hc : closure d.cur with
  | ok m => rw [Ledger.transact_ok hc]; exact logged_commit _ _
  | err e => rw [Ledger.transact_err hc]; exact .refl _
  | panic e => rw [Ledger.transact_panic hc]; exact .refl _
  | ub => rw [Ledger.transact_ub hc]; exact .refl _

/-- The databases that `flush` of the tree writes out. -/
inductive Store where
  | blocks
  | references
  | transactions
  | coins
  | oldCoins
  | gas
  | oldGas

/-- The database in a running node. -/
def Store.db : Store → Node → Db
  | .blocks, n => n.data.main.chain.blocks
  | .references, n => n.data.main.chain.heightReference
  | .transactions, n => n.data.main.transactions
  | .coins, n => n.data.summary
  | .oldCoins, n => n.data.oldSummary
  | .gas, n => n.data.gas
  | .oldGas, n => n.data.oldGas

/-- The database on disk. -/
def Store.found : Store → Disk → KV
  | .blocks, d => d.blocks
  | .references, d => d.heightReference
  | .transactions, d => d.transactions
  | .coins, d => d.summary
  | .oldCoins, d => d.oldSummary
  | .gas, d => d.gas
  | .oldGas, d => d.oldGas

theorem crash_store {n : Node} {d : Disk} (h : Crash n.data d) (x : Store) : x.found d ∈ (x.db n).recov := by
  cases x
  · exact h.blocks
  · exact h.heightReference
  · exact h.transactions
  · exact h.summary
  · exact h.oldSummary
  · exact h.gas
  · exact h.oldGas

/-- So it is with all of the databases. -/
def Logs (n n' : Node) : Prop := ∀ x : Store, Logged (x.db n) (x.db n')

theorem logs_refl (n : Node) : Logs n n := fun _ => .refl _

theorem logs_held (n : Node) (b : Bool) : Logs n { n with held := b } := fun x => by cases x <;> exact .refl _

theorem logs_config (n : Node) (c : Option Bytes) :
    Logs n { n with data := Node.setChain (fun s => { s with config := c }) n.data } := fun x => by
  cases x <;> exact .refl _

theorem logs_mainFlush : Node.mainFlush.Guar Logs := by
  unfold Node.mainFlush Node.dumpConfig
  refine .bind (.bind (Node.guar_write fun n => logs_config n _) fun _ => .bind (Node.guar_readHeight logs_refl) fun _ =>
    .bind (Node.guar_write fun n => ?_) fun _ => .bind (Node.guar_read logs_refl _) fun _ =>
    Node.guar_write fun n => ?_) fun _ => .bind (Node.guar_write fun n => ?_) fun _ =>
    .bind (Node.guar_write fun n => ?_) fun _ => Node.guar_write fun n => ?_
  all_goals intro x; cases x <;> first | exact .refl _ | exact logged_flush _

theorem logs_flush : Node.flush.Guar Logs := by
  unfold Node.flush
  refine .bind logs_mainFlush fun _ => .bind (Node.guar_write fun n => ?_) fun _ => .bind (Node.guar_write fun n => ?_) fun _ =>
    .bind (Node.guar_write fun n => ?_) fun _ => Node.guar_write fun n => ?_
  all_goals intro x; cases x <;> first | exact .refl _ | exact logged_flush _

theorem logs_rotate : Node.rotateDbs.Guar Logs := by
  unfold Node.rotateDbs
  refine .bind logs_flush fun _ => .bind (Node.guar_write fun n => ?_) fun _ => .bind (Node.guar_write fun n => ?_) fun _ =>
    .bind (Node.guar_write fun n => ?_) fun _ => Node.guar_write fun n => ?_
  all_goals intro x; cases x <;> first | exact .refl _ | exact logged_open _ _

theorem logs_summary {x : Act Db Unit} (h : ∀ d, Logged d (x d).final) : (Node.onTree (Tree.onSummary x)).Guar Logs :=
  Node.guar_onTree fun n y => by cases y <;> first | exact .refl _ | exact h _

theorem logs_gas {x : Act Db Unit} (h : ∀ d, Logged d (x d).final) : (Node.onTree (Tree.onGas x)).Guar Logs :=
  Node.guar_onTree fun n y => by cases y <;> first | exact .refl _ | exact h _

theorem logs_sendAmount (a b : Bytes) (v : U256) : (Node.onTree (Tree.sendAmount a b v)).Guar Logs := by
  refine Node.guar_onTree fun n y => ?_
  unfold Tree.sendAmount
  split
  · cases y <;> exact .refl _
  · cases y <;> first | exact .refl _ | exact logged_transact _ _

theorem logs_addTransaction (E : Env) (t : Transaction) : (Node.addTransaction E t).Guar Logs :=
  Node.guar_onTree fun n y => by cases y <;> first | exact .refl _ | exact logged_insert _ _ _

theorem logs_addBlock (E : Env) (b : Block) : (Node.addBlock E b).Guar Logs := by
  unfold Node.addBlock
  refine .bind (Node.guar_lock fun n => logs_held n _) fun _ => .bind (Node.guar_read logs_refl _) fun ht => ?_
  split
  · exact .bind (Node.guar_unlock fun n => logs_held n _) fun _ => Prog.guar_lift _
  · refine .bind (Node.guar_write fun n => ?_) fun _ => .bind (Node.guar_write fun n => ?_) fun _ => ?_
    · intro x; cases x <;> first | exact .refl _ | exact logged_insert _ _ _
    · intro x; cases x <;> first | exact .refl _ | exact logged_insert _ _ _
    · split
      · refine .bind (Node.guar_write fun n => ?_) fun _ => Node.guar_unlock fun n => logs_held n _
        intro x; cases x <;> exact .refl _
      · exact .bind (Node.guar_unlock fun n => logs_held n _) fun _ => .bind (Prog.guar_lift _) fun _ => Prog.guar_pure _

theorem logs_send (E : Env) (tx : Transaction) : (Node.sendTransaction E tx).Guar Logs := by
  unfold Node.sendTransaction
  refine .bind (Node.guar_read logs_refl _) fun _ => .bind (Node.guar_read logs_refl _) fun _ =>
    .bind (Prog.guar_lift _) fun g => ?_
  split
  · exact Prog.guar_lift _
  · refine .bind (Node.guar_getLastBlock logs_refl) fun _ => .bind (Prog.guar_lift _) fun _ =>
      .bind (Prog.guar_lift _) fun _ => .bind (Prog.guar_lift _) fun _ => ?_
    split
    · exact Prog.guar_lift _
    · exact .bind (logs_addTransaction E tx) fun _ => .bind (logs_sendAmount _ _ _) fun _ => logs_gas fun _ => logged_transact _ _

theorem logs_lookup (l : Node.Lookup) : l.prog.Guar Logs := by
  have hf : ∀ k, (Node.findRawByHeight k).Guar Logs := fun k => by
    unfold Node.findRawByHeight
    refine .bind (Node.guar_readHeight logs_refl) fun _ => ?_
    split
    · exact Prog.guar_pure _
    · exact Node.guar_read logs_refl _
  cases l with
  | byHeight k => exact hf k
  | byHash q =>
    unfold Node.Lookup.prog Node.findRawByHash
    refine .bind (Node.guar_read logs_refl _) fun r => ?_
    cases r with
    | none => exact Prog.guar_pure _
    | some h => exact .bind (Prog.guar_lift _) fun _ => hf _
  | last => exact .bind (Node.guar_readHeight logs_refl) fun _ => .bind (Prog.guar_lift _) fun _ => hf _

theorem logs_shared (E : Env) (k : Node.SharedCall) : (k.prog E).Guar Logs := by
  cases k with
  | send tx => exact logs_send E tx
  | flush => exact logs_flush
  | handle h =>
    cases h with
    | addBlock b => exact logs_addBlock E b
    | addTransaction t => exact logs_addTransaction E t
    | flush => exact logs_mainFlush

theorem logs_emit (E : Env) (pow : BytesN 32) (founder : Address) (transactions : List Hash) (timestamp : UInt64) :
    (Node.emitMain E pow founder transactions timestamp).Guar Logs := by
  unfold Node.emitMain
  refine .bind (Node.guar_getLastBlock logs_refl) fun _ => .bind (Prog.guar_lift _) fun _ => .bind (Prog.guar_lift _) fun _ => ?_
  split
  · exact Prog.guar_lift _
  · refine .bind (Prog.guar_lift _) fun _ => .bind (Prog.guar_lift _) fun _ => .bind (Prog.guar_lift _) fun _ =>
      .bind ?_ fun _ => .bind (logs_addBlock E _) fun _ => Prog.guar_pure _
    split
    · split
      · exact Prog.guar_lift _
      · exact .bind (Node.guar_read logs_refl _) fun _ => .bind logs_rotate fun _ =>
          .bind (logs_summary fun _ => logged_transact _ _) fun _ => Prog.guar_pure _
    · split
      · exact Prog.guar_lift _
      · exact .bind (Prog.guar_lift _) fun _ => Prog.guar_pure _

theorem logs_brief (E : Env) (x : Brief) : (x.prog E).Guar Logs := by
  cases x with
  | addTransaction t => exact .bind (logs_addTransaction E t) fun _ => Prog.guar_pure _
  | addAmount o n => exact .bind (logs_summary fun _ => logged_transact _ _) fun _ => Prog.guar_pure _
  | subAmount o n => exact .bind (logs_summary fun _ => logged_transact _ _) fun _ => Prog.guar_pure _
  | setAmount o n => exact .bind (logs_summary fun _ => logged_transact _ _) fun _ => Prog.guar_pure _
  | sendAmount a b n => exact .bind (logs_sendAmount _ _ _) fun _ => Prog.guar_pure _
  | getAmount o => exact .bind (Node.guar_read logs_refl _) fun _ => Prog.guar_pure _
  | addGas o n => exact .bind (logs_gas fun _ => logged_transact _ _) fun _ => Prog.guar_pure _
  | subGas o n => exact .bind (logs_gas fun _ => logged_transact _ _) fun _ => Prog.guar_pure _
  | sendGas a b n => exact .bind (logs_gas fun _ => logged_transact _ _) fun _ => Prog.guar_pure _
  | getGas o => exact .bind (Node.guar_read logs_refl _) fun _ => Prog.guar_pure _

theorem logs_work (E : Env) (k : Work) : (k.prog E).Guar Logs := by
  cases k with
  | node k =>
    refine .bind ?_ fun _ => Prog.guar_pure _
    cases k with
    | shared k => exact .bind (logs_shared E k) fun _ => Prog.guar_pure _
    | emit pow founder txs ts => exact .bind (logs_emit E _ _ _ _) fun _ => Prog.guar_pure _
    | lookup l => exact logs_lookup l
  | call k =>
    refine .bind ?_ fun _ => Prog.guar_pure _
    cases k with
    | add b => exact .bind (logs_addBlock E b) fun _ => Prog.guar_pure _
    | lookup l => exact .bind (logs_lookup l) fun _ => Prog.guar_pure _
    | brief x => exact logs_brief E x

/-! ## What a crash can leave -/

/-- What is recoverable at the end was so after a given earlier step, or is what some step left. -/
theorem exec_recov [DecidableEq ι] {α : Type} {start c : Config ι Node α} {log : List (Event ι Node)} (h : Exec start log c)
    (hg : ∀ i, (start.threads i).Guar Logs) (x : Store) (m : KV) (hm : m ∈ (x.db c.shared).recov) :
    (m ∈ (x.db start.shared).recov ∨ ∃ e ∈ log, m = (x.db e.after).cur) ∧
    ∀ e ∈ log, m ∈ (x.db e.after).recov ∨ ∃ e ∈ log, m = (x.db e.after).cur := by
  induction h with
  | refl => exact ⟨.inl hm, fun e he => absurd he (by simp)⟩
  | @step log c i next rest s' hp hi hn ih =>
    have hk := (hp.guar (R := fun _ => Logs) hg).2 i
    rw [hi] at hk
    rcases (hk c.shared s' hn).1 x m hm with h1 | h1
    · obtain ⟨k1, k2⟩ := ih h1
      have lift : (∃ e ∈ log, m = (x.db e.after).cur) → ∃ e ∈ log ++ [⟨i, c.shared, s'⟩], m = (x.db e.after).cur :=
        fun ⟨e, he, hx⟩ => ⟨e, List.mem_append_left _ he, hx⟩
      refine ⟨k1.imp_right lift, fun e he => ?_⟩
      rcases List.mem_append.mp he with he | he
      · exact (k2 e he).imp_right lift
      · rw [List.mem_singleton.mp he]; exact .inl hm
    · have : ∃ e ∈ log ++ [⟨i, c.shared, s'⟩], m = (x.db e.after).cur :=
        ⟨_, List.mem_append_right _ (List.mem_singleton.mpr rfl), h1⟩
      exact ⟨.inr this, fun _ _ => .inr this⟩

/-- After some step nothing but what it left was recoverable. -/
def Saved (x : Store) (l : List (Node × Node)) : Prop := ∃ y ∈ l, (x.db y.2).recov = [(x.db y.2).cur]

theorem Saved.snoc {x : Store} {l : List (Node × Node)} (h : Saved x l) (y : Node × Node) : Saved x (l ++ [y]) :=
  h.imp fun _ hy => ⟨List.mem_append_left _ hy.1, hy.2⟩

theorem saved_last {x : Store} {l : List (Node × Node)} {y : Node × Node} (h : (x.db y.2).recov = [(x.db y.2).cur]) :
    Saved x (l ++ [y]) := ⟨y, List.mem_append_right _ (List.mem_singleton.mpr rfl), h⟩

theorem hist_true {σ α : Type} (p : Prog σ α) : ∀ l, Prog.Hist (fun _ => True) (fun _ _ => True) p l := by
  induction p with
  | done o => exact fun _ => trivial
  | step next rest ih => exact fun l s s' _ _ => ⟨trivial, ih s _⟩

/-- A flush that has returned has written every database out. -/
theorem flush_saves : Prog.Hist (fun _ => True) (fun l (_ : Outcome Unit) => ∀ x, Saved x l) Node.flush [] := by
  intro s1 t1 _ h1; refine ⟨trivial, ?_⟩
  intro s2 t2 _ h2; refine ⟨trivial, ?_⟩
  intro s3 t3 _ h3; refine ⟨trivial, ?_⟩
  intro s4 t4 _ h4; refine ⟨trivial, ?_⟩
  intro s5 t5 _ h5; refine ⟨trivial, ?_⟩
  intro s6 t6 _ h6; refine ⟨trivial, ?_⟩
  intro s7 t7 _ h7; refine ⟨trivial, ?_⟩
  intro s8 t8 _ h8; refine ⟨trivial, ?_⟩
  intro s9 t9 _ h9; refine ⟨trivial, ?_⟩
  intro s10 t10 _ h10; refine ⟨trivial, ?_⟩
  intro s11 t11 _ h11; refine ⟨trivial, ?_⟩
  intro s12 t12 _ h12; refine ⟨trivial, ?_⟩
  cases h6; cases h7; cases h8; cases h9; cases h10; cases h11; cases h12
  intro x
  cases x
  · exact ((((((saved_last rfl).snoc _).snoc _).snoc _).snoc _).snoc _).snoc _
  · exact (((((saved_last rfl).snoc _).snoc _).snoc _).snoc _).snoc _
  · exact ((((saved_last rfl).snoc _).snoc _).snoc _).snoc _
  · exact (((saved_last rfl).snoc _).snoc _).snoc _
  · exact ((saved_last rfl).snoc _).snoc _
  · exact (saved_last rfl).snoc _
  · exact saved_last rfl

theorem hist_unit {α β : Type} {p : Prog Node α} (f : α → Prog Node β) (hf : ∀ a, ∃ b, f a = .done (.ok b))
    (h : Prog.Hist (fun _ => True) (fun l (_ : Outcome α) => ∀ x, Saved x l) p []) :
    Prog.Hist (fun _ => True) (fun l (_ : Outcome β) => ∀ x, Saved x l) (p >>= f) [] :=
  Prog.Hist.bind (Q := fun l _ => ∀ x, Saved x l) (f := f)
    (fun l a hl => by obtain ⟨b, hb⟩ := hf a; rw [hb]; exact hl) (fun _ _ h => h) (fun _ _ h => h) (fun _ h => h) h

theorem work_saves (E : Env) : Prog.Hist (fun _ => True) (fun l (_ : Outcome Unit) => ∀ x, Saved x l)
    (Work.prog E (.node (.shared .flush))) [] :=
  hist_unit _ (fun _ => ⟨_, rfl⟩) (hist_unit _ (fun _ => ⟨_, rfl⟩) flush_saves)

/-- The threads are about to make their calls on a node in state `s`. -/
def Work.start (E : Env) (s : Tree) (call : ι → Work) : Config ι Node Unit := ⟨⟨s, false⟩, fun i => (call i).prog E⟩

/-- The states of the node from the moment `m` on: `m` and what every later step left. -/
def since (m : Node) (log : List (Event ι Node)) : List Node := m :: log.map (·.after)

theorem since_event {m : Node} {log : List (Event ι Node)} {e : Event ι Node} (h : e ∈ log) : e.after ∈ since m log :=
  List.mem_cons_of_mem _ (List.mem_map.mpr ⟨e, h, rfl⟩)

/-- C137, one database at a time. Any number of threads make any calls. A flush has begun at the moment `m` and has
returned; the process dies at any later moment `c`. What every database then holds is what it held at some moment since
the flush began: all that was done before is there, and what was done since is there up to some moment.
Missing: the moment need not be the same for all databases (`C137_refuted`). -/
theorem C137_each_partial [DecidableEq ι] (E : Env) (s : Tree) (call : ι → Work) (log log' : List (Event ι Node))
    (m c : Config ι Node Unit) (i : ι) (d : Disk) (h : Exec (Work.start E s call) log m) (h' : Exec m log' c)
    (hi : call i = .node (.shared .flush)) (hb : m.threads i = (call i).prog E) (he : c.threads i = .done (.ok ()))
    (hd : Crash c.shared.data d) (x : Store) : ∃ n ∈ since m.shared log', x.found d = (x.db n).cur := by
  have hg := (h.guar (R := fun _ => Logs) fun j => logs_work E (call j)).2
  have hk := (h'.hist (J := fun _ => True) (P := fun j l (_ : Outcome Unit) => j = i → ∀ x, Saved x l) trivial fun j => by
    by_cases hj : j = i
    · subst hj
      rw [hb, hi]
      exact (work_saves E).mono fun _ _ h _ => h
    · exact (hist_true _ _).mono fun _ _ _ e => absurd e hj).2.2 i
  rw [he] at hk
  obtain ⟨⟨a, b⟩, hy, hs⟩ := hk rfl x
  have hev := mem_ownSteps hy
  rcases (exec_recov h' hg x _ (crash_store hd x)).2 _ hev with h1 | ⟨e, h1, h2⟩
  · refine ⟨_, since_event hev, ?_⟩
    have h1 : x.found d ∈ (x.db b).recov := h1
    have hs : (x.db b).recov = [(x.db b).cur] := hs
    rw [hs] at h1
    exact List.mem_singleton.mp h1
  · exact ⟨_, since_event h1, h2⟩

/-- Without a flush: what a database holds after a crash could have been found when the threads began, or is what it held
at some moment since. -/
theorem C137_unflushed [DecidableEq ι] (E : Env) (s : Tree) (call : ι → Work) (log : List (Event ι Node))
    (c : Config ι Node Unit) (d : Disk) (h : Exec (Work.start E s call) log c) (hd : Crash c.shared.data d) (x : Store) :
    x.found d ∈ (x.db ⟨s, false⟩).recov ∨ ∃ n ∈ since ⟨s, false⟩ log, x.found d = (x.db n).cur :=
  (exec_recov h (fun j => logs_work E (call j)) x _ (crash_store hd x)).1.imp id fun ⟨_, h1, h2⟩ => ⟨_, since_event h1, h2⟩

/-- No coins are lost or made. While the threads send transactions, flush the node and use main chain handles, a flush has
begun and returned; whenever the process then dies, the coins on disk add up to what they did at the start, and so do those
of the node that opens on it (at height 1 the root account gets its coins again, C60). -/
theorem C137_coins [DecidableEq ι] (E : Env) (s : Tree) (call : ι → Node.SharedCall) (log log' : List (Event ι Node))
    (m c : Config ι Node Unit) (i : ι) (d : Disk) (hr : Run E s)
    (h : Exec (Work.start E s fun j => .node (.shared (call j))) log m) (h' : Exec m log' c)
    (hi : call i = .flush) (hb : m.threads i = Work.prog E (.node (.shared (call i)))) (he : c.threads i = .done (.ok ()))
    (hd : Crash c.shared.data d) (f : Spec.Accounts) (n : Nat) (hf : Shows s.summary f) (hn : Spec.Total f n) :
    ∃ f', Shows (Db.open' d.summary) f' ∧ Spec.Total f' n ∧
      ((openTree E d).out = .ok () → (openTree E d).final.main.getHeight.val ≠ 1 → Shows (openTree E d).final.summary f') := by
  obtain ⟨q, hq, hqd⟩ := C137_each_partial E s _ log log' m c i d h h' (by rw [hi]) hb he hd .coins
  have hdec := (run_storeInv hr).summary.1
  have hs := (total_iff hdec hf).mp hn
  have hguar : ∀ j, (Work.prog E (.node (.shared (call j)))).Guar (KeepsSupply n) := fun j =>
    .bind (.bind (keepsSupply_call n E (call j)) fun _ => Prog.guar_pure _) fun _ => Prog.guar_pure _
  have k := ((h.trans h').always (J := fun s => s.data.summary.cur.Dec ∧ s.data.summary.cur.supply = n) ⟨hdec, hs.symm⟩ hguar).2
  have km := (h.always (J := fun s => s.data.summary.cur.Dec ∧ s.data.summary.cur.supply = n) ⟨hdec, hs.symm⟩ hguar).1
  have hJ : q.data.summary.cur.Dec ∧ q.data.summary.cur.supply = n := by
    rcases List.mem_cons.mp hq with rfl | hq
    · exact km
    · obtain ⟨e, he, rfl⟩ := List.mem_map.mp hq
      exact (k e (List.mem_append_right _ he)).2
  have hqd : d.summary = q.data.summary.cur := hqd
  have hsh : Shows (Db.open' d.summary) (fun k => (q.data.summary.cur.amt k).val) := by
    rw [hqd]; exact shows_open (shows_amt hJ.1)
  refine ⟨_, hsh, (total_iff hJ.1 (shows_amt hJ.1)).mpr hJ.2.symm, fun ho hh => ?_⟩
  rw [(opened_ledgers ho).1]
  unfold seedSummary
  rw [if_neg (fun e => hh (by rw [e]; rfl))]
  exact hsh

/-! ## Not one moment -/

/-- The program runs on, every state it leaves being as `J` says. -/
inductive Via {α : Type} (J : Node → Prop) : Prog Node α → Node → Prog Node α → Node → Prop where
  | refl {p s} : Via J p s p s
  | step {next : Node → Option Node} {rest : Node → Prog Node α} {s s' q t} : next s = some s' → J s' →
      Via J (rest s) s' q t → Via J (.step next rest) s q t

theorem Via.trans {α : Type} {J : Node → Prop} {p q r : Prog Node α} {s t u : Node} (h : Via J p s q t) (h' : Via J q t r u) :
    Via J p s r u := by
  induction h with
  | refl => exact h'
  | step hn hJ _ ih => exact .step hn hJ (ih h')

theorem Via.bind {α β : Type} {J : Node → Prop} {p q : Prog Node α} {s t : Node} (h : Via J p s q t) (f : α → Prog Node β) :
    Via J (p >>= f) s (q >>= f) t := by
  induction h with
  | refl => exact .refl
  | step hn hJ _ ih => exact .step hn hJ ih

/-- A part that changes nothing. -/
theorem via_same {α β : Type} {J : Node → Prop} {p : Prog Node α} {s t : Node} {a : α} (f : α → Prog Node β)
    (hg : p.Guar Eq) (hs : p.solo s = some (.ok a, t)) (hJ : J s) : Via J (p >>= f) s (f a) s := by
  induction p generalizing s t with
  | done o => cases hs; exact .refl
  | step next rest ih =>
    simp only [Prog.solo] at hs
    cases hn : next s with
    | none => rw [hn] at hs; cases hs
    | some s' =>
      rw [hn] at hs
      obtain ⟨rfl, h2⟩ := hg s s' hn
      exact .step hn hJ (ih s h2 hs hJ)

theorem Exec.via [DecidableEq ι] {J : Node → Prop} {start : Config ι Node Unit} {s : Node} {th : ι → Prog Node Unit}
    {log : List (Event ι Node)} (h : Exec start log ⟨s, th⟩) (i : ι) {p q : Prog Node Unit} {t : Node} (hp : th i = p)
    (hv : Via J p s q t) :
    ∃ log', Exec start (log ++ log') ⟨t, Function.update th i q⟩ ∧ ∀ e ∈ log', J e.after := by
  induction hv generalizing th log with
  | refl =>
    refine ⟨[], ?_, fun e he => absurd he (by simp)⟩
    rw [← hp, Function.update_eq_self, List.append_nil]
    exact h
  | @step next rest s s' q t hn hJ _ ih =>
    have h' := Exec.step i h hp hn
    obtain ⟨log', hl, hlJ⟩ := ih h' (Function.update_self _ _ _)
    refine ⟨⟨i, s, s'⟩ :: log', ?_, fun e he => ?_⟩
    · rw [Function.update_idem] at hl
      simpa using hl
    · rcases List.mem_cons.mp he with rfl | he
      · exact hJ
      · exact hlJ e he

theorem via_act {α β : Type} {J : Node → Prop} {x : Act Tree α} {n : Node} {a : α} (f : α → Prog Node β)
    (ho : (x n.data).out = .ok a) (hJ : J { n with data := (x n.data).final }) :
    Via J (Node.onTree x >>= f) n (f a) { n with data := (x n.data).final } := by
  have e : Prog.bind (.done ((x n.data).out)) f = f a := by rw [ho]; rfl
  refine .step (s' := { n with data := (x n.data).final }) rfl hJ ?_
  exact e ▸ Via.refl

/-- The checks of an affordable transaction leave everything as it is. -/
theorem send_checks_via {J : Node → Prop} (E : Env) (s : Tree) (tx : Transaction) (f g : Spec.Accounts)
    (hf : Shows s.summary f) (hg : Shows s.gas g) (ha : Affordable s f g tx) (v : U256)
    (hv : v.val = 625000000000 * tx.getDumpSize) (hJ : J ⟨s, false⟩) :
    Via J (Node.sendTransaction E tx) ⟨s, false⟩ (sendRest E tx v) ⟨s, false⟩ := by
  obtain ⟨last, fee, h1, h2, h3, h4⟩ := ha
  obtain ⟨a, a1, a2⟩ := hg tx.sender.val
  obtain ⟨b, b1, b2⟩ := hf tx.sender.val
  have hmul : BYTE_GAS_PRICE.mulNat tx.getDumpSize = .ok v := by
    unfold U256.mulNat
    have e : BYTE_GAS_PRICE.val * tx.getDumpSize = v.val := hv.symm
    rw [dif_pos (e ▸ v.lt)]
    exact congrArg Outcome.ok (U256.ext e)
  unfold Node.sendTransaction
  refine (via_same (a := a) (t := ⟨s, false⟩) _ (Node.guar_read (fun _ => rfl) _) (by
    simp only [Node.read, Prog.solo]
    rw [show s.getGas tx.sender = .ok a from a1]) hJ).trans ?_
  refine (via_same (a := b) (t := ⟨s, false⟩) _ (Node.guar_read (fun _ => rfl) _) (by
    simp only [Node.read, Prog.solo]
    rw [show s.getAmount tx.sender = .ok b from b1]) hJ).trans ?_
  rw [hmul]
  change Via J (if _ then _ else _) _ _ _
  rw [if_neg (by omega)]
  refine (via_same (a := some last) (t := ⟨s, false⟩) _ (Node.guar_getLastBlock fun _ => rfl) ?_ hJ).trans ?_
  · rw [Node.getLastBlock_impl s]
    simp only [h1, Act.lift]
  change Via J (Prog.lift (recalculateFee last.info.difficulty) >>= _) _ _ _
  rw [h2]
  change Via J (Prog.lift (fee.add tx.amount) >>= _) _ _ _
  have hlt : fee.val + tx.amount.val < U256.size := by have := b.lt; omega
  rw [show fee.add tx.amount = .ok ⟨_, hlt⟩ by unfold U256.add; rw [dif_pos hlt]]
  change Via J (if _ then _ else _) _ _ _
  rw [if_neg (by simp only; omega)]
  exact .refl

/-- One thread flushes, the other sends. -/
def flushAndSend (tx : Transaction) : Bool → Work
  | true => .node (.shared .flush)
  | false => .node (.shared (.send tx))

/-- The node after the first steps of `flush`, up to the coins. -/
def halfFlushed (s : Tree) : Tree :=
  { s with
    main :=
      { s.main with
        chain :=
          { s.main.chain with
            config := some (Node.writeAt 32 s.main.chain.difficulty.val (Node.writeAt 0 s.main.chain.height.toBE.val []))
            blocks := s.main.chain.blocks.flush
            heightReference := s.main.chain.heightReference.flush }
        transactions := s.main.transactions.flush }
    summary := s.summary.flush
    oldSummary := s.oldSummary.flush }

/-- What is left of `flush` then. -/
def flushRest : Prog Node Unit := do
  Node.write (fun t => { t with gas := t.gas.flush })
  Node.write (fun t => { t with oldGas := t.oldGas.flush })

/-- What `flush` leaves then. -/
def flushedGas (t : Tree) : Tree := { t with gas := t.gas.flush, oldGas := t.oldGas.flush }

theorem via_flush (s : Tree) : Via (fun n => n.data.summary.cur = s.summary.cur ∧ n.data.gas.cur = s.gas.cur)
    Node.flush ⟨s, false⟩ flushRest ⟨halfFlushed s, false⟩ :=
  .step rfl ⟨rfl, rfl⟩ <| .step rfl ⟨rfl, rfl⟩ <| .step rfl ⟨rfl, rfl⟩ <| .step rfl ⟨rfl, rfl⟩ <| .step rfl ⟨rfl, rfl⟩ <|
  .step rfl ⟨rfl, rfl⟩ <| .step rfl ⟨rfl, rfl⟩ <| .step rfl ⟨rfl, rfl⟩ <| .step rfl ⟨rfl, rfl⟩ <| .step rfl ⟨rfl, rfl⟩ .refl

theorem via_flushRest (t : Tree) : Via (fun n => n.data.summary.cur = t.summary.cur) flushRest ⟨t, false⟩ (.done (.ok ()))
    ⟨flushedGas t, false⟩ :=
  .step rfl rfl <| .step rfl rfl .refl

/-- A transaction is sent while a flush is between coins and gas. -/
theorem torn (E : Env) (s : Tree) (tx : Transaction) (f g : Spec.Accounts) (hr : Run E s)
    (hf : Shows s.summary f) (hg : Shows s.gas g) (ha : Affordable s f g tx) (hne : tx.sender ≠ tx.receiver)
    (hpos : 0 < tx.amount.val) (hfit : f tx.receiver.val + tx.amount.val < 2 ^ 256) :
    ∃ log c d, Exec (Work.start E s (flushAndSend tx)) log c ∧ (∀ b, c.threads b = .done (.ok ())) ∧
      Crash c.shared.data d ∧ Shows (Db.open' d.summary) f ∧
      Shows (Db.open' d.gas) (g.update tx.sender.val (g tx.sender.val - 625000000000 * tx.getDumpSize)) ∧
      ¬ ∃ n ∈ since ⟨s, false⟩ log, d.summary = n.data.summary.cur ∧ d.gas = n.data.gas.cur := by
  have hi := run_storeInv hr
  have hsound : Sound s := life_sound (run_life hr)
  have ef := shows_eq hf
  have eg := shows_eq hg
  have hsz : (2 : Nat) ^ 256 = U256.size := rfl
  have hv : tx.sender.val ≠ tx.receiver.val := fun e => hne (Subtype.ext e)
  have hgas : 625000000000 * tx.getDumpSize ≤ g tx.sender.val := by obtain ⟨_, _, _, _, h3, _⟩ := ha; exact h3
  have hamt : tx.amount.val ≤ f tx.sender.val := by obtain ⟨_, _, _, _, _, h4⟩ := ha; omega
  obtain ⟨v, hv0⟩ : ∃ v : U256, v.val = 625000000000 * tx.getDumpSize := by
    obtain ⟨a, _, a2⟩ := hg tx.sender.val
    exact ⟨⟨625000000000 * tx.getDumpSize, by have := a.lt; omega⟩, rfl⟩
  -- the flush, up to the coins
  have x0 : Exec (Work.start E s (flushAndSend tx)) [] (Work.start E s (flushAndSend tx)) := .refl
  obtain ⟨l1, x1, j1⟩ := Exec.via x0 true rfl (((via_flush s).bind fun _ => pure none).bind fun _ => pure ())
  obtain ⟨t, ht⟩ : ∃ t, t = halfFlushed s := ⟨_, rfl⟩
  have hts : t.summary = s.summary.flush := by rw [ht]; rfl
  have htg : t.gas = s.gas := by rw [ht]; rfl
  have hta : Affordable t f g tx := by rw [ht]; exact ha
  have htf : Shows t.summary f := by rw [hts]; exact hf
  have htG : Shows t.gas g := by rw [htg]; exact hg
  have htS : Sound t := by
    rw [ht]
    exact ⟨Db.sound_flush _, Db.sound_flush _, Db.sound_flush _, Db.sound_flush _, Db.sound_flush _, hsound.gas, hsound.oldGas,
      hsound.deriv⟩
  rw [← ht] at x1
  -- the checks, and storing the transaction
  have hJt : (⟨t, false⟩ : Node).data.summary.cur = s.summary.cur ∧ (⟨t, false⟩ : Node).data.gas.cur = s.gas.cur := by
    constructor
    · show t.summary.cur = _; rw [hts]; rfl
    · show t.gas.cur = _; rw [htg]
  obtain ⟨t1, ht1⟩ : ∃ t1, t1 = t.withTx E tx := ⟨_, rfl⟩
  have ht1s : t1.summary = s.summary.flush := by rw [ht1]; exact hts
  have ht1g : t1.gas = s.gas := by rw [ht1]; exact htg
  have ht1S : Sound t1 := by
    rw [ht1]
    exact ⟨htS.blocks, htS.heightReference, Db.sound_insert _ _ _, htS.summary, htS.oldSummary, htS.gas, htS.oldGas, htS.deriv⟩
  have v2 : Via (fun n => n.data.summary.cur = s.summary.cur ∧ n.data.gas.cur = s.gas.cur) (Node.sendTransaction E tx)
      ⟨t, false⟩ (Node.onTree (Tree.sendAmount tx.sender.val tx.receiver.val tx.amount) >>= fun _ => payStep tx v) ⟨t1, false⟩ := by
    refine (send_checks_via E t tx f g htf htG hta v hv0 hJt).trans ?_
    have := via_act (J := fun n => n.data.summary.cur = s.summary.cur ∧ n.data.gas.cur = s.gas.cur)
      (x := Tree.onMain (MainChain.addTransaction E tx)) (n := ⟨t, false⟩) (a := ())
      (fun _ => Node.onTree (Tree.sendAmount tx.sender.val tx.receiver.val tx.amount) >>= fun _ => payStep tx v) rfl hJt
    rw [ht1]
    exact this
  obtain ⟨l2, x2, j2⟩ := Exec.via x1 false (by rw [Function.update_of_ne (by decide)]; rfl) ((v2.bind fun _ => pure none).bind fun _ => pure ())
  -- the coins move
  have hd1 : t1.summary.cur.Dec := by rw [ht1s]; exact hi.summary.1
  have h1a : tx.amount.val ≤ (t1.summary.cur.amt tx.sender.val).val := by
    rw [ht1s]; rw [ef] at hamt; exact hamt
  have h1b : (t1.summary.cur.amt tx.receiver.val).val + tx.amount.val < U256.size := by
    rw [ht1s]; rw [ef] at hfit; exact hfit
  obtain ⟨k1, k2⟩ := sendAmount_ok hd1 hne h1a h1b
  obtain ⟨t2, ht2⟩ : ∃ t2, t2 = { t1 with summary := t1.summary.commit (fun _ => Ledger.moved t1.summary.cur
    tx.sender.val tx.receiver.val tx.amount h1b) } := ⟨_, rfl⟩
  have ht2s : t2.summary.cur = Ledger.moved t1.summary.cur tx.sender.val tx.receiver.val tx.amount h1b := by rw [ht2]; rfl
  have ht2r : s.summary.cur ∈ t2.summary.recov := by
    rw [ht2]
    refine List.mem_cons_of_mem _ (?_ : _ ∈ t1.summary.recov)
    rw [ht1s]
    exact List.mem_singleton.mpr rfl
  have ht2g : t2.gas = s.gas := by rw [ht2]; exact ht1g
  have ht2S : Sound t2 := by
    rw [ht2]
    exact ⟨ht1S.blocks, ht1S.heightReference, ht1S.transactions, List.mem_cons_self, ht1S.oldSummary, ht1S.gas, ht1S.oldGas,
      ht1S.deriv⟩
  -- the gas is paid
  have hg2 : t2.gas.cur.Dec := by rw [ht2g]; exact hi.gas.1
  have hamt2 : (t2.gas.cur.amt tx.sender.val).val = g tx.sender.val := by rw [ht2g, eg]
  rcases Ledger.sub_run hg2 tx.sender.val v with ⟨hle, e1⟩ | ⟨hlt, e1⟩
  swap
  · omega
  obtain ⟨t3, ht3⟩ : ∃ t3, t3 = { t2 with gas := t2.gas.insert tx.sender.val (Ledger.encode
      ⟨(t2.gas.cur.amt tx.sender.val).val - v.val, Ledger.sub_lt⟩) } := ⟨_, rfl⟩
  have hpo : (Tree.subGas tx.sender.val v t2).out = .ok () ∧ (Tree.subGas tx.sender.val v t2).final = t3 := by
    simp only [Tree.subGas, Tree.onGas, Act.zoom, e1, ht3, true_and]
  have ht3s : t3.summary = t2.summary := by rw [ht3]
  have ht3S : Sound t3 := by
    rw [ht3]
    exact ⟨ht2S.blocks, ht2S.heightReference, ht2S.transactions, ht2S.summary, ht2S.oldSummary, Db.sound_insert _ _ _, ht2S.oldGas,
      ht2S.deriv⟩
  have v3 : Via (fun n => n.data.summary.cur = t2.summary.cur)
      (Node.onTree (Tree.sendAmount tx.sender.val tx.receiver.val tx.amount) >>= fun _ => payStep tx v) ⟨t1, false⟩
      (.done (.ok ())) ⟨t3, false⟩ := by
    have a1 := via_act (J := fun n => n.data.summary.cur = t2.summary.cur) (n := ⟨t1, false⟩) (fun _ => payStep tx v) k1
      (by simp only [k2, ← ht2])
    simp only [k2, ← ht2] at a1
    refine a1.trans ?_
    have a2 := via_act (J := fun n => n.data.summary.cur = t2.summary.cur) (n := ⟨t2, false⟩) (x := Tree.subGas tx.sender.val v)
      (a := ()) (fun _ => (.done (.ok ()) : Prog Node Unit)) hpo.1 (by simp only [hpo.2, ht3s])
    simp only [hpo.2] at a2
    have e : (Node.onTree (Tree.subGas tx.sender.val v) >>= fun _ => (.done (.ok ()) : Prog Node Unit)) =
        Node.onTree (Tree.subGas tx.sender.val v) := by
      show Prog.step _ _ = Prog.step _ _
      congr 1
      funext n
      show Prog.bind (Prog.done _) _ = _
      cases ((Tree.subGas tx.sender.val v).zoom (·.data) (fun t n => { n with data := t }) n : Res Node Unit).out <;> rfl
    rw [e] at a2
    exact a2
  obtain ⟨l3, x3, j3⟩ := Exec.via x2 false (Function.update_self _ _ _) ((v3.bind fun _ => pure none).bind fun _ => pure ())
  -- the flush goes on
  obtain ⟨l4, x4, j4⟩ := Exec.via x3 true (by
    rw [Function.update_of_ne (by decide), Function.update_of_ne (by decide), Function.update_self])
    (((via_flushRest t3).bind fun _ => pure none).bind fun _ => pure ())
  have hmoved : s.summary.cur ≠ t2.summary.cur := by
    intro e
    have e' := congrArg (fun m : KV => (m.amt tx.sender.val).val) e
    simp only [ht2s, Ledger.moved_amt _ hv, if_pos] at e'
    have h0 : (s.summary.cur.amt tx.sender.val).val = (t1.summary.cur.amt tx.sender.val).val := by rw [ht1s]; rfl
    omega
  have hamt3 : ∀ q, (t3.gas.cur.amt q).val = if q = tx.sender.val then g tx.sender.val - 625000000000 * tx.getDumpSize else g q := by
    intro q
    rw [ht3]
    show (KV.amt (KV.insert _ _ _) q).val = _
    rw [KV.amt_insert]
    by_cases hq : q = tx.sender.val
    · rw [if_pos hq.symm, if_pos hq]; simp only [hamt2, hv0]
    · rw [if_neg (fun e => hq e.symm), if_neg hq, ht2g, eg]
  have hpaid : t3.gas.cur ≠ s.gas.cur := by
    intro e
    have e' := hamt3 tx.sender.val
    rw [if_pos rfl, e] at e'
    rw [eg] at e' hgas
    have := dumpSize_pos tx
    simp only at e' hgas
    omega
  have hd3 : t3.gas.cur.Dec := by rw [ht3]; exact hg2.insert _ _
  have hS : Sound (flushedGas t3) :=
    ⟨ht3S.blocks, ht3S.heightReference, ht3S.transactions, ht3S.summary, ht3S.oldSummary, Db.sound_flush _, Db.sound_flush _,
      ht3S.deriv⟩
  refine ⟨_, _, { (flushedGas t3).close with summary := s.summary.cur }, x4, ?_, ?_, hf, ?_, ?_⟩
  · intro b
    cases b
    · simp only [Function.update_of_ne (show (false : Bool) ≠ true by decide), Function.update_self]; rfl
    · simp only [Function.update_self]; rfl
  · have hc := hS.close
    refine ⟨hc.blocks, hc.heightReference, hc.transactions, hc.config, ?_, hc.oldSummary, hc.gas, hc.oldGas, hc.deriv⟩
    show s.summary.cur ∈ t3.summary.recov
    rw [ht3s]
    exact ht2r
  · have h1 : Shows (Db.open' t3.gas.cur) _ := shows_open (shows_amt hd3)
    have h2 : (fun k => (t3.gas.cur.amt k).val) = g.update tx.sender.val (g tx.sender.val - 625000000000 * tx.getDumpSize) := by
      funext q
      rw [hamt3]
      unfold Spec.Accounts.update
      rfl
    rw [h2] at h1
    exact h1
  · rintro ⟨n, hn, hsum, hgs⟩
    have hsum : s.summary.cur = n.data.summary.cur := hsum
    have hgs : t3.gas.cur = n.data.gas.cur := hgs
    rcases List.mem_cons.mp hn with rfl | hn
    · exact hpaid hgs
    · obtain ⟨e, he, rfl⟩ := List.mem_map.mp hn
      rw [List.nil_append] at he
      rcases List.mem_append.mp he with he | he
      · rcases List.mem_append.mp he with he | he
        · rcases List.mem_append.mp he with he | he
          · exact hpaid (hgs.trans (j1 e he).2)
          · exact hpaid (hgs.trans (j2 e he).2)
        · exact hmoved (hsum.trans (j3 e he))
      · exact hmoved ((hsum.trans (j4 e he)).trans (by rw [ht3s]))

/-- C137 in full: the coins and the gas on disk are what they were at one moment since the flush began. -/
def C137_full : Prop := ∀ (E : Env) (ι : Type) [DecidableEq ι] (s : Tree) (call : ι → Work) (log log' : List (Event ι Node))
  (m c : Config ι Node Unit) (i : ι) (d : Disk), Run E s → Exec (Work.start E s call) log m → Exec m log' c →
  call i = .node (.shared .flush) → m.threads i = (call i).prog E → c.threads i = .done (.ok ()) → Crash c.shared.data d →
  ∃ n ∈ since m.shared log', d.summary = n.data.summary.cur ∧ d.gas = n.data.gas.cur

/-- C137 is false of the code: on any node, whenever a transaction can be sent, a thread can send it while another flushes
the node; both return, and what a crash then leaves has its gas charged and its coins where they were. -/
theorem C137_refuted :
    (∀ (E : Env) (s : Tree) (tx : Transaction) (f g : Spec.Accounts), Run E s → Shows s.summary f → Shows s.gas g →
      Affordable s f g tx → tx.sender ≠ tx.receiver → 0 < tx.amount.val → f tx.receiver.val + tx.amount.val < 2 ^ 256 →
      ∃ log c d, Exec (Work.start E s (flushAndSend tx)) log c ∧ (∀ b, c.threads b = .done (.ok ())) ∧
        Crash c.shared.data d ∧ Shows (Db.open' d.summary) f ∧
        Shows (Db.open' d.gas) (g.update tx.sender.val (g tx.sender.val - 625000000000 * tx.getDumpSize)) ∧
        ¬ ∃ n ∈ since ⟨s, false⟩ log, d.summary = n.data.summary.cur ∧ d.gas = n.data.gas.cur) ∧
    ¬ C137_full := by
  refine ⟨torn, fun hfull => ?_⟩
  obtain ⟨s, h1, h2, h3, _, l, h5, h6⟩ := funded idEnv U256.zero
  obtain ⟨log, c, d, k1, k2, k3, _, _, k4⟩ := torn idEnv s exTx _ _ h1 h2 h3 (funded_affordable _ h5 h6 exTx rfl rfl (by decide))
    exTx_ne (by decide) (by rw [funded_receiver]; decide)
  exact k4 (hfull idEnv Bool s _ [] log _ c true d h1 .refl k1 rfl rfl (k2 true) k3)

/-- `C137_each_partial` and `C137_coins` are about something: a transaction is sent amid a flush on the funded node. -/
example (E : Env) : ∃ s log c d f n, Run E s ∧ Exec (Work.start E s fun b => (flushAndSend exTx) b) log c ∧
    c.threads true = .done (.ok ()) ∧ c.threads false = .done (.ok ()) ∧ Crash c.shared.data d ∧ Shows s.summary f ∧
    Spec.Total f n := by
  obtain ⟨s, h1, h2, h3, _, l, h5, h6⟩ := funded E U256.zero
  obtain ⟨log, c, d, k1, k2, k3, _⟩ := torn E s exTx _ _ h1 h2 h3 (funded_affordable _ h5 h6 exTx rfl rfl (by decide))
    exTx_ne (by decide) (by rw [funded_receiver]; decide)
  exact ⟨s, log, c, d, _, _, h1, k1, k2 true, k2 false, k3, h2, supply_total (run_storeInv h1).summary.1 h2⟩

end BCT.Props
