import Verif.Props.ThreadsCut
import Verif.Props.ThreadsFlush
import Verif.Props.Power
/-!
# C149: a node many threads use, killed and started again many times (chain.rs, blockchaintree.rs)
-/

namespace BCT.Props
open BCT

variable {ι α β : Type}

/-! ## The life of a node used by threads -/

/-- The call does not write the config file, and the block it adds, if any, is one for the main chain. -/
def Job.Light : Job → Prop
  | .node (.shared (.send _)) => True
  | .node (.shared .flush) => False
  | .node (.shared (.handle (.addBlock b))) => b.IsMain
  | .node (.shared (.handle (.addTransaction _))) => True
  | .node (.shared (.handle .flush)) => False
  | .node (.emit _ _ txs _) => txs ≠ []
  | .node (.lookup _) => True
  | .call (.add b) => b.IsMain
  | .call (.lookup _) => True
  | .call (.brief _) => True

/-- Moments that can follow moment `m`. The node is opened, gets calls one at a time, or is used by any number of threads at
once, whose calls may be cut short; the process is killed at any moment, but for the calls that write the config file: these
are made one at a time and come to their end. -/
inductive Along (E : Env) (m : Moment) : Moment → Prop where
  | refl : Along E m m
  | opening (d : Disk) (t : Tree) : Along E m (.down d) → t ∈ (openTree E d).trace → Along E m (.busy t)
  | opened (d : Disk) : Along E m (.down d) → (openTree E d).out = .ok () → Along E m (.idle (openTree E d).final)
  | running (s t : Tree) (op : Op) : Along E m (.idle s) → MainOnly op → ¬ op.Flushes → t ∈ (op.run E s).trace → Along E m (.busy t)
  | call (s : Tree) (op : Op) : Along E m (.idle s) → MainOnly op → Along E m (.idle (op.run E s).final)
  | working (s : Tree) (ι : Type) [DecidableEq ι] (job : ι → Job) (stop : ι → Option (Nat × Outcome Reply))
      (log : List (Event ι Node)) (c : Config ι Node Reply) : Along E m (.idle s) → (∀ i, (job i).Light) →
      Exec (cutStart E s job stop) log c → Along E m (.busy c.shared.data)
  | worked (s : Tree) (ι : Type) [DecidableEq ι] (job : ι → Job) (stop : ι → Option (Nat × Outcome Reply))
      (log : List (Event ι Node)) (c : Config ι Node Reply) : Along E m (.idle s) → (∀ i, (job i).Light) →
      Exec (cutStart E s job stop) log c → (∀ i, hasEnded (c.threads i)) → Along E m (.idle c.shared.data)
  | crashIdle (s : Tree) (d : Disk) : Along E m (.idle s) → Crash s d → Along E m (.down d)
  | crashBusy (s : Tree) (d : Disk) : Along E m (.busy s) → Crash s d → Along E m (.down d)

/-- The life of a node, from an empty directory. -/
abbrev BusyLife (E : Env) : Moment → Prop := Along E (.down Disk.empty)

/-! ## What the steps of threads do -/

/-- Every block stored is one for the main chain and is under its height. -/
def Filed (m : KV) : Prop := ∀ k v, m.get k = some v → ∃ b : Block, b.IsMain ∧ k = b.info.height.toBE.val ∧ v = b.dump

/-- The step leaves the config file alone, stores main blocks under their heights, removes no transaction, and what can be
found after a crash is what could be found before or what there is now. -/
structure Gentle (s t : Tree) : Prop where
  config : t.main.chain.config = s.main.chain.config
  blocks : ∀ m ∈ t.main.chain.blocks.recov, m ∈ s.main.chain.blocks.recov ∨ m = t.main.chain.blocks.cur
  filed : Filed s.main.chain.blocks.cur → Filed t.main.chain.blocks.cur
  txs : ∀ m ∈ t.main.transactions.recov, m ∈ s.main.transactions.recov ∨ m = t.main.transactions.cur

theorem gentle_refl (t : Tree) : Gentle t t := ⟨rfl, fun _ h => .inl h, id, fun _ h => .inl h⟩

theorem gentle_main {s t : Tree} (h : t.main = s.main) : Gentle s t := by
  constructor <;> rw [h]
  · exact fun _ h => .inl h
  · exact id
  · exact fun _ h => .inl h

theorem filed_insert {m : KV} {b : Block} (h : Filed m) (hb : b.IsMain) : Filed (m.insert b.info.height.toBE.val b.dump) := by
  intro k v hk
  rw [KV.get_insert] at hk
  split at hk
  · rename_i e
    cases hk
    exact ⟨b, hb, e.symm, rfl⟩
  · exact h k v hk

/-- Every step of the program is gentle. -/
abbrev Kind' (p : Prog Node α) : Prop := p.Guar (fun n n' : Node => Gentle n.data n'.data)

theorem gentle_addBlock (E : Env) {b : Block} (hb : b.IsMain) : Kind' (Node.addBlock E b) := by
  unfold Node.addBlock
  refine .bind (Node.guar_lock fun n => gentle_refl _) fun _ => .bind (Node.guar_read (fun _ => gentle_refl _) _) fun h => ?_
  split
  · exact .bind (Node.guar_unlock fun n => gentle_refl _) fun _ => Prog.guar_lift _
  · rename_i he
    have he : b.info.height = h := not_not.mp he
    refine .bind (Node.guar_write fun n => ⟨rfl, fun m hm => ?_, fun hf => ?_, fun _ h => .inl h⟩) fun _ =>
      .bind (Node.guar_write fun n => ⟨rfl, fun _ h => .inl h, id, fun _ h => .inl h⟩) fun _ => ?_
    · rcases List.mem_cons.mp hm with hm | hm
      · exact .inr hm
      · exact .inl hm
    · subst he
      exact filed_insert hf hb
    split
    · exact .bind (Node.guar_write fun n => ⟨rfl, fun _ h => .inl h, id, fun _ h => .inl h⟩) fun _ =>
        Node.guar_unlock fun n => gentle_refl _
    · exact .bind (Node.guar_unlock fun n => gentle_refl _) fun _ => .bind (Prog.guar_lift _) fun _ => Prog.guar_pure _

theorem gentle_addTx (E : Env) (t : Transaction) : Kind' (Node.addTransaction E t) :=
  Node.guar_onTree fun n => ⟨rfl, fun _ h => .inl h, id, fun m hm => by
    rcases List.mem_cons.mp hm with hm | hm
    · exact .inr hm
    · exact .inl hm⟩

theorem gentle_findRaw (k : U256) : Kind' (Node.findRawByHeight k) := by
  unfold Node.findRawByHeight
  refine .bind (Node.guar_readHeight fun _ => gentle_refl _) fun _ => ?_
  split
  · exact Prog.guar_pure _
  · exact Node.guar_read (fun _ => gentle_refl _) _

theorem gentle_lookup (l : Node.Lookup) : Kind' l.prog := by
  cases l with
  | byHeight k => exact gentle_findRaw k
  | byHash q =>
    refine .bind (Node.guar_read (fun _ => gentle_refl _) _) fun r => ?_
    cases r with
    | none => exact Prog.guar_pure _
    | some v => exact .bind (Prog.guar_lift _) fun _ => gentle_findRaw _
  | last => exact .bind (Node.guar_readHeight fun _ => gentle_refl _) fun _ => .bind (Prog.guar_lift _) fun _ => gentle_findRaw _

theorem gentle_send (E : Env) (tx : Transaction) : Kind' (Node.sendTransaction E tx) := by
  unfold Node.sendTransaction
  refine .bind (Node.guar_read (fun _ => gentle_refl _) _) fun _ => .bind (Node.guar_read (fun _ => gentle_refl _) _) fun _ =>
    .bind (Prog.guar_lift _) fun _ => ?_
  split
  · exact Prog.guar_lift _
  · refine .bind (Node.guar_getLastBlock fun _ => gentle_refl _) fun _ => .bind (Prog.guar_lift _) fun _ =>
      .bind (Prog.guar_lift _) fun _ => .bind (Prog.guar_lift _) fun _ => ?_
    split
    · exact Prog.guar_lift _
    · exact .bind (gentle_addTx E tx) fun _ => .bind (Node.guar_onTree fun n => gentle_main (sendAmount_main ..)) fun _ =>
        Node.guar_onTree fun n => gentle_main rfl

theorem gentle_emit (E : Env) (pow : BytesN 32) (founder : Address) {txs : List Hash} (ts : UInt64) (h : txs ≠ []) :
    Kind' (Node.emitMain E pow founder txs ts) := by
  unfold Node.emitMain
  refine .bind (Node.guar_getLastBlock fun _ => gentle_refl _) fun _ => .bind (Prog.guar_lift _) fun _ =>
    .bind (Prog.guar_lift _) fun _ => ?_
  split
  · exact Prog.guar_lift _
  · refine .bind (Prog.guar_lift _) fun _ => .bind (Prog.guar_lift _) fun _ => .bind (Prog.guar_lift _) fun hh => ?_
    have he : txs.isEmpty = false := by simpa using h
    by_cases hz : hh.val % BLOCKS_PER_EPOCH = 0
    · simp only [hz, he, Bool.not_false, ↓reduceIte]
      trivial
    · simp only [hz, he, Bool.false_eq_true, ↓reduceIte]
      cases merkleRoot E txs with
      | ok r =>
        change Prog.Guar _ (Node.addBlock E _ >>= _)
        exact .bind (gentle_addBlock E trivial) fun _ => Prog.guar_pure _
      | _ => trivial

theorem gentle_brief (E : Env) (x : Brief) : Kind' (x.prog E) := by
  cases x with
  | addTransaction t => exact .bind (gentle_addTx E t) fun _ => Prog.guar_pure _
  | addAmount o n => exact .bind (Node.guar_onTree fun _ => gentle_main rfl) fun _ => Prog.guar_pure _
  | subAmount o n => exact .bind (Node.guar_onTree fun _ => gentle_main rfl) fun _ => Prog.guar_pure _
  | setAmount o n => exact .bind (Node.guar_onTree fun _ => gentle_main rfl) fun _ => Prog.guar_pure _
  | sendAmount a b n => exact .bind (Node.guar_onTree fun _ => gentle_main (sendAmount_main ..)) fun _ => Prog.guar_pure _
  | getAmount o => exact .bind (Node.guar_read (fun _ => gentle_refl _) _) fun _ => Prog.guar_pure _
  | addGas o n => exact .bind (Node.guar_onTree fun _ => gentle_main rfl) fun _ => Prog.guar_pure _
  | subGas o n => exact .bind (Node.guar_onTree fun _ => gentle_main rfl) fun _ => Prog.guar_pure _
  | sendGas a b n => exact .bind (Node.guar_onTree fun _ => gentle_main rfl) fun _ => Prog.guar_pure _
  | getGas o => exact .bind (Node.guar_read (fun _ => gentle_refl _) _) fun _ => Prog.guar_pure _

theorem gentle_job (E : Env) (k : Job) (h : k.Light) : Kind' (k.prog E) := by
  cases k with
  | node k =>
    refine .bind ?_ fun _ => Prog.guar_pure _
    cases k with
    | shared k =>
      refine .bind ?_ fun _ => Prog.guar_pure _
      cases k with
      | send tx => exact gentle_send E tx
      | flush => exact h.elim
      | handle k =>
        cases k with
        | addBlock b => exact gentle_addBlock E h
        | addTransaction t => exact gentle_addTx E t
        | flush => exact h.elim
    | emit pow founder txs ts => exact .bind (gentle_emit E pow founder ts h) fun _ => Prog.guar_pure _
    | lookup l => exact gentle_lookup l
  | call k =>
    cases k with
    | add b => exact .bind (gentle_addBlock E h) fun _ => Prog.guar_pure _
    | lookup l => exact .bind (gentle_lookup l) fun _ => Prog.guar_pure _
    | brief x => exact gentle_brief E x

theorem exec_gentle [DecidableEq ι] {E : Env} {s : Tree} {job : ι → Job} {stop : ι → Option (Nat × Outcome Reply)}
    {log : List (Event ι Node)} {c : Config ι Node Reply} (h : Exec (cutStart E s job stop) log c) (hl : ∀ i, (job i).Light) :
    ∀ e ∈ log, Gentle e.before.data e.after.data :=
  (h.guar (R := fun _ (n n' : Node) => Gentle n.data n'.data) (cut_sat (P := fun p => Kind' p) (fun i => gentle_job E _ (hl i))
    (fun k _ i => Guar.cut (fun _ => gentle_refl _) false k (gentle_job E _ (hl i))))).1

/-! ## The blocks -/

/-- The chain is legible, here and on disk, and all blocks are where they belong. -/
structure Sturdy (t : Tree) : Prop where
  chain : Recoverable t.main.chain
  filed : t.main.chain.blocks.All Filed

theorem Sturdy.step {E : Env} {s t : Tree} (h : Sturdy s) (h1 : Chain.Step1 E s.main.chain t.main.chain) (h2 : Gentle s t) :
    Sturdy t := by
  obtain ⟨k1, k2⟩ := step_low h1
  have hf := h2.filed h.filed.1
  have hpos := h.chain.pos
  have hcur : Legible t.main.chain.blocks.cur t.main.chain.height.val := by
    intro q hq
    by_cases hlt : q.val < s.main.chain.height.val
    · have := k2 q hlt
      unfold Db.get at this
      rw [this]
      exact h.chain.cur q hlt
    · cases h1 with
      | same e => rw [e.2.2] at hq; exact absurd hq hlt
      | block _ _ _ _ e => rw [e] at hq; exact absurd hq hlt
      | ref _ _ _ _ _ e => rw [e] at hq; exact absurd hq hlt
      | height b _ e3 _ e4 _ e6 =>
        have hqe : q = s.main.chain.height := U256.ext (by omega)
        have hg : t.main.chain.blocks.cur.get q.toBE.val = some b.dump := by rw [hqe, e4]; exact e3
        obtain ⟨b', hm, hk, hv⟩ := hf _ _ hg
        have hh : b'.info.height = q := (toBE_inj hk).symm
        exact ⟨b', by rw [hg, hv], hh, decode_main b' hm (.inl (by rw [hh]; omega))⟩
  obtain ⟨q, d, hr, hq, hl⟩ := h.chain.disk
  refine ⟨⟨⟨q, d, by rw [h2.config]; exact hr, by omega, fun m hm => ?_⟩, by omega, hcur⟩, hf, fun m hm => ?_⟩
  · rcases h2.blocks m hm with hm | rfl
    · exact hl m hm
    · exact hcur.mono (by omega)
  · rcases h2.blocks m hm with hm | rfl
    · exact h.filed.2 m hm
    · exact hf

theorem filed_addBlock (E : Env) (b : Block) (hb : b.IsMain) :
    Act.Rel (fun s t : MainChain => s.chain.blocks.All Filed → t.chain.blocks.All Filed) (MainChain.addBlock E b) := by
  have put : ∀ c : Chain, b.info.height = c.height → c.blocks.All Filed →
      (c.blocks.insert c.height.toBE.val b.dump).All Filed := fun c e h => by
    rw [← e]
    exact h.commit (filed_insert h.1 hb)
  exact MainChain.addBlock_rel (R := fun s t : Chain => s.blocks.All Filed → t.blocks.All Filed)
    (Chain.addBlock_rel E (fun _ h => h) _ _ (fun c e h => put c e h) (fun c e h => put c e h) (fun c _ e h => put c e h))
    fun _ _ h => h

theorem sturdy_op {E : Env} {op : Op} {s : Tree} (ha : MainOnly op) (h : Sturdy s) : Sturdy (op.run E s).final :=
  ⟨Op.sat (main_prims (A := Block.IsMain) (R := fun s t : MainChain => Recoverable s.chain → Recoverable t.chain)
      (Act.inv_preord _) (fun b hb => (recoverable_addBlock E b hb).relF)
      (fun _ => Act.relF_step fun _ h => h) recoverable_flush)
      (Act.relF_closed ⟨fun _ h => h, fun h1 h2 h => h2 (h1 h)⟩) op ha.adds s h.chain,
   Op.sat (main_prims (A := Block.IsMain) (R := fun s t : MainChain => s.chain.blocks.All Filed → t.chain.blocks.All Filed)
      (Act.inv_preord _) (fun b hb => (filed_addBlock E b hb).relF)
      (fun _ => Act.relF_step fun _ h => h) (fun m h => by rw [MainChain.flush_run]; exact h.flush))
      (Act.relF_closed ⟨fun _ h => h, fun h1 h2 h => h2 (h1 h)⟩) op ha.adds s h.filed⟩

theorem sturdy_trace {E : Env} {op : Op} {s t : Tree} (ha : MainOnly op) (hop : ¬ op.Flushes) (ht : t ∈ (op.run E s).trace)
    (h : Sturdy s) : Sturdy t :=
  ⟨(Op.calm_rel (A := Block.IsMain) (R := fun s t : MainChain => Recoverable s.chain → Recoverable t.chain)
      (Act.inv_preord _) (recoverable_addBlock E) (fun _ => Act.rel_step fun _ h => h) op ha.adds hop s).2 t ht h.chain,
   (Op.calm_rel (A := Block.IsMain) (R := fun s t : MainChain => s.chain.blocks.All Filed → t.chain.blocks.All Filed)
      (Act.inv_preord _) (filed_addBlock E) (fun _ => Act.rel_step fun _ h => h) op ha.adds hop s).2 t ht h.filed⟩

theorem exec_sturdy [DecidableEq ι] {E : Env} {s : Tree} {job : ι → Job} {stop : ι → Option (Nat × Outcome Reply)}
    {log : List (Event ι Node)} {c : Config ι Node Reply} (h : Exec (cutStart E s job stop) log c) (hl : ∀ i, (job i).Light)
    (hs : Sturdy s) : Sturdy c.shared.data :=
  (h.sorted (R := fun a b : Node => Sturdy a.data → Sturdy b.data) (fun _ => id) (fun _ _ _ h1 h2 h => h2 (h1 h))
    (fun e he hb => hb.step (cut_steps h e he) (exec_gentle h hl e he))).1 hs

/-- What a node has on disk. -/
structure Whole' (d : Disk) : Prop where
  legible : ∃ h df, MainChain.readConfig d.config = .ok (h, df) ∧ Legible d.blocks h.val
  filed : Filed d.blocks

/-- The state of the blocks. -/
def Fit : Moment → Prop
  | .idle t => Sturdy t
  | .busy t => OnDisk t.main.chain ∧ t.main.chain.blocks.All Filed
  | .down d => Whole' d

theorem opening_blocks {E : Env} {d : Disk} {t : Tree} {q : U256} {df : Hash} (hr : MainChain.readConfig d.config = .ok (q, df))
    (hq : q.val ≠ 0) (ht : t ∈ (openTree E d).trace) : t.main.chain.blocks = Db.open' d.blocks := by
  rw [openTree_of_new (MainChain.new_pos E d.boot.main q df hr hq)] at ht
  rcases List.mem_cons.mp ht with rfl | ht
  · rfl
  · rcases List.mem_append.mp ht with ht | ht
    · obtain ⟨x, hx, rfl⟩ := List.mem_map.mp ht
      rw [List.mem_singleton.mp hx]; rfl
    · split at ht
      · rw [List.mem_singleton.mp ht]; rfl
      · cases ht

theorem new_filed (E : Env) : Act.Rel (fun s t : Tree => s.main.chain.blocks.All Filed → t.main.chain.blocks.All Filed) (Tree.new E) :=
  Tree.new_rel (Act.inv_preord _) (fun _ h => h) (fun _ _ _ h => h)
    (Act.rel_zoom (filed_addBlock E (genesis E) trivial) fun _ _ h => h)
    (Act.rel_zoom (Act.rel_true _) fun _ _ _ h => h)

theorem along_fit {E : Env} {m0 m : Moment} (h : Along E m0 m) (h0 : Fit m0) : Fit m := by
  induction h with
  | refl => exact h0
  | opening d t _ ht ih =>
    obtain ⟨⟨q, df, hr, hl⟩, hf⟩ := ih
    refine ⟨⟨q, df, by rw [opening_config ht]; exact hr, ?_⟩, (new_filed E d.boot).2 t ht (Db.all_open hf)⟩
    by_cases hq : q.val = 0
    · rw [hq]; exact fun m _ q hq => absurd hq (Nat.not_lt_zero _)
    · intro m hm
      rw [opening_blocks hr hq ht] at hm
      rw [List.mem_singleton.mp hm]
      exact hl
  | opened d _ ho ih =>
    obtain ⟨⟨q, df, hr, hl⟩, hf⟩ := ih
    refine ⟨?_, (new_filed E d.boot).1 (Db.all_open hf)⟩
    by_cases hq : q.val = 0
    · rw [u256_zero hq] at hr
      rw [(openTree_zero (E := E) hr).2]
      refine ⟨⟨_, _, hr, Nat.zero_le _, fun m _ q hq => absurd hq (Nat.not_lt_zero _)⟩, Nat.le_refl 1, ?_⟩
      exact Legible.insert (c := U256.zero) (fun q hq => absurd hq (Nat.not_lt_zero _)) rfl
        (decode_main (genesis E) trivial (.inr ⟨_, rfl⟩))
    · rw [(openTree_pos (E := E) hr hq).2]
      refine ⟨⟨q, df, hr, Nat.le_refl _, fun m hm => ?_⟩, Nat.one_le_iff_ne_zero.mpr hq, hl⟩
      rw [List.mem_singleton.mp hm]
      exact hl
  | running s t op _ ha hop ht ih =>
    have := sturdy_trace ha hop ht ih
    exact ⟨this.chain.onDisk, this.filed⟩
  | call s op _ ha ih => exact sturdy_op ha ih
  | working s ι job stop log c _ hl hx ih =>
    have := exec_sturdy hx hl ih
    exact ⟨this.chain.onDisk, this.filed⟩
  | worked s ι job stop log c _ hl hx _ ih => exact exec_sturdy hx hl ih
  | crashIdle s d _ hc ih =>
    obtain ⟨q, df, hr, hl⟩ := ih.chain.onDisk
    exact ⟨⟨q, df, by rw [hc.config]; exact hr, hl _ hc.blocks⟩, ih.filed.2 _ hc.blocks⟩
  | crashBusy s d _ hc ih =>
    obtain ⟨⟨q, df, hr, hl⟩, hf⟩ := ih
    exact ⟨⟨q, df, by rw [hc.config]; exact hr, hl _ hc.blocks⟩, hf.2 _ hc.blocks⟩

theorem busy_fit {E : Env} {m : Moment} (h : BusyLife E m) : Fit m :=
  along_fit h ⟨⟨_, _, rfl, fun q hq => absurd hq (Nat.not_lt_zero _)⟩, fun k v h => by simp [Disk.empty] at h⟩

/-! ## What was flushed -/

/-- The transactions whose keys are in `x0` are there, now and on disk. -/
def Lasts (x0 : KV) (c : MainChain) : Prop :=
  ∀ m, m = c.transactions.cur ∨ m ∈ c.transactions.recov → ∀ k, (x0.get k).isSome → (m.get k).isSome

theorem lasts_addTx {x0 : KV} {E : Env} {t : Transaction} :
    Act.Rel (fun a b : MainChain => Lasts x0 a → Lasts x0 b) (MainChain.addTransaction E t) := by
  refine Act.rel_step fun c h m hm k hk => ?_
  have key : ((c.transactions.cur.insert (E.sha256 t.dump).val t.dump).get k).isSome := by
    rw [KV.get_insert]
    split
    · rfl
    · exact h _ (.inl rfl) k hk
  rcases hm with rfl | hm
  · exact key
  · rcases List.mem_cons.mp hm with rfl | hm
    · exact key
    · exact h m (.inr hm) k hk

theorem lasts_addBlock {x0 : KV} {E : Env} {b : Block} :
    Act.Rel (fun a b : MainChain => Lasts x0 a → Lasts x0 b) (MainChain.addBlock E b) :=
  MainChain.addBlock_rel (Act.rel_true _) fun _ _ _ h => h

theorem lasts_op {x0 : KV} {E : Env} {op : Op} {s : Tree} (h : Lasts x0 s.main) : Lasts x0 (op.run E s).final.main :=
  Op.sat (main_prims (A := fun _ => True) (R := fun a b => Lasts x0 a → Lasts x0 b) (Act.inv_preord _)
    (fun _ _ => lasts_addBlock.relF) (fun _ => lasts_addTx.relF) (fun m h x hx => by
      rw [MainChain.flush_run] at hx
      refine h x (.inl ?_)
      rcases hx with hx | hx
      · exact hx
      · exact Db.flush_recov hx))
    (Act.relF_closed ⟨fun _ h => h, fun h1 h2 h => h2 (h1 h)⟩) op op.adds_true s h

theorem lasts_trace {x0 : KV} {E : Env} {op : Op} {s t : Tree} (hop : ¬ op.Flushes) (ht : t ∈ (op.run E s).trace)
    (h : Lasts x0 s.main) : Lasts x0 t.main :=
  (Op.calm_rel (A := fun _ => True) (R := fun a b => Lasts x0 a → Lasts x0 b) (Act.inv_preord _)
    (fun _ _ => lasts_addBlock) (fun _ => lasts_addTx) op op.adds_true hop s).2 t ht h

/-- What was on disk once, still is. -/
def Retained (m0 x0 : KV) (H : Nat) : Moment → Prop
  | .idle t => Pinned m0 H t.main.chain ∧ Lasts x0 t.main
  | .busy t => (∃ h d, MainChain.readConfig t.main.chain.config = .ok (h, d) ∧ H ≤ h.val) ∧
      (∀ m ∈ t.main.chain.blocks.recov, ∀ q : U256, q.val < H → m.get q.toBE.val = m0.get q.toBE.val) ∧ Lasts x0 t.main
  | .down d => (∃ h df, MainChain.readConfig d.config = .ok (h, df) ∧ H ≤ h.val) ∧
      (∀ q : U256, q.val < H → d.blocks.get q.toBE.val = m0.get q.toBE.val) ∧
      ∀ k, (x0.get k).isSome → (d.transactions.get k).isSome

theorem held_busy {m0 x0 : KV} {H : Nat} {t : Tree} (h : Retained m0 x0 H (.idle t)) : Retained m0 x0 H (.busy t) :=
  ⟨h.1.config, fun m hm => h.1.agree m (.inr hm), h.2⟩

theorem held_step {m0 x0 : KV} {H : Nat} {E : Env} {s t : Tree} (h : Retained m0 x0 H (.idle s))
    (h1 : Chain.Step1 E s.main.chain t.main.chain) (h2 : Gentle s t) (h3 : TxsGrow s t) : Retained m0 x0 H (.idle t) := by
  obtain ⟨⟨hc, hh, ha⟩, hx⟩ := h
  obtain ⟨k1, k2⟩ := step_low h1
  have hcur : ∀ q : U256, q.val < H → t.main.chain.blocks.cur.get q.toBE.val = m0.get q.toBE.val := fun q hq =>
    (k2 q (by omega)).trans (ha _ (.inl rfl) q hq)
  have htx : ∀ k, (x0.get k).isSome → (t.main.transactions.cur.get k).isSome := fun k hk => h3 k (hx _ (.inl rfl) k hk)
  refine ⟨⟨by rw [h2.config]; exact hc, by omega, fun m hm => ?_⟩, fun m hm => ?_⟩
  · rcases hm with rfl | hm
    · exact hcur
    · rcases h2.blocks m hm with hm | rfl
      · exact ha m (.inr hm)
      · exact hcur
  · rcases hm with rfl | hm
    · exact htx
    · rcases h2.txs m hm with hm | rfl
      · exact hx m (.inr hm)
      · exact htx

theorem exec_held [DecidableEq ι] {m0 x0 : KV} {H : Nat} {E : Env} {s : Tree} {job : ι → Job}
    {stop : ι → Option (Nat × Outcome Reply)} {log : List (Event ι Node)} {c : Config ι Node Reply}
    (h : Exec (cutStart E s job stop) log c) (hl : ∀ i, (job i).Light) (hs : Retained m0 x0 H (.idle s)) :
    Retained m0 x0 H (.idle c.shared.data) :=
  (h.sorted (R := fun a b : Node => Retained m0 x0 H (.idle a.data) → Retained m0 x0 H (.idle b.data)) (fun _ => id)
    (fun _ _ _ h1 h2 h => h2 (h1 h))
    (fun e he hb => held_step hb (cut_steps h e he) (exec_gentle h hl e he) (cut_sound h e he).2)).1 hs

theorem new_txs (E : Env) : Act.Rel (fun s t : Tree => t.main.transactions = s.main.transactions) (Tree.new E) :=
  Tree.new_rel ⟨fun _ => rfl, fun h1 h2 => h2.trans h1⟩ (fun _ => rfl) (fun _ _ _ => rfl)
    (Act.rel_zoom (R := fun a b : MainChain => b.transactions = a.transactions)
      (MainChain.addBlock_rel (Act.rel_true _) fun _ _ _ => rfl) fun _ _ h => h)
    (Act.rel_zoom (Act.rel_true _) fun _ _ _ => rfl)

theorem along_held {m0 x0 : KV} {H : Nat} {E : Env} {m n : Moment} (h : Along E m n) (hH : 1 ≤ H) (h0 : Retained m0 x0 H m) :
    Retained m0 x0 H n := by
  induction h with
  | refl => exact h0
  | opening d t _ ht ih =>
    obtain ⟨⟨q, df, hr, hq⟩, hb, hx⟩ := ih
    refine ⟨⟨q, df, by rw [opening_config ht]; exact hr, hq⟩, fun m hm => ?_, fun m hm => ?_⟩
    · rw [opening_blocks hr (by omega) ht] at hm
      rw [List.mem_singleton.mp hm]
      exact hb
    · rw [(new_txs E d.boot).2 t ht] at hm
      rcases hm with rfl | hm
      · exact hx
      · rw [List.mem_singleton.mp hm]; exact hx
  | opened d _ ho ih =>
    obtain ⟨⟨q, df, hr, hq⟩, hb, hx⟩ := ih
    have hf := (openTree_pos (E := E) hr (by omega)).2
    rw [hf]
    refine ⟨⟨⟨q, df, hr, hq⟩, hq, fun m hm => ?_⟩, fun m hm => ?_⟩
    · rcases hm with rfl | hm
      · exact hb
      · rw [List.mem_singleton.mp hm]; exact hb
    · rcases hm with rfl | hm
      · exact hx
      · rw [List.mem_singleton.mp hm]; exact hx
  | running s t op _ ha hop ht ih =>
    exact held_busy ⟨pinned_calm E op s t hop ht ih.1, lasts_trace hop ht ih.2⟩
  | call s op _ ha ih => exact ⟨pinned_op E op s ih.1, lasts_op ih.2⟩
  | working s ι job stop log c _ hl hx ih => exact held_busy (exec_held hx hl ih)
  | worked s ι job stop log c _ hl hx _ ih => exact exec_held hx hl ih
  | crashIdle s d _ hc ih =>
    obtain ⟨⟨q, df, hr, hq⟩, hb, hx⟩ := held_busy ih
    exact ⟨⟨q, df, by rw [hc.config]; exact hr, hq⟩, hb _ hc.blocks, hx _ (.inr hc.transactions)⟩
  | crashBusy s d _ hc ih =>
    obtain ⟨⟨q, df, hr, hq⟩, hb, hx⟩ := ih
    exact ⟨⟨q, df, by rw [hc.config]; exact hr, hq⟩, hb _ hc.blocks, hx _ (.inr hc.transactions)⟩

/-! ## The other stores -/

theorem asRead_dump (E : Env) (t : Transaction) : (asRead E t).dump = t.dump := by
  by_cases h : t.data = some []
  · simp [asRead, Transaction.dump, h]
  · simp [asRead, Transaction.dump, h]

/-- The stores are readable. -/
def Tended (E : Env) : Moment → Prop
  | .idle t => StoreInv E t
  | .busy t => StoreInv E t
  | .down d => DiskInv E d

theorem along_tended {E : Env} {m n : Moment} (h : Along E m n) (h0 : Tended E m) : Tended E n := by
  have hb : ∀ d, DiskInv E d → StoreInv E d.boot := fun d h =>
    ⟨Db.all_open h.txs, Db.all_open h.summary, Db.all_open h.oldSummary, Db.all_open h.gas, Db.all_open h.oldGas⟩
  have hn : Act.Rel (fun s t => StoreInv E s → StoreInv E t) (Tree.new E) :=
    Tree.new_rel (Act.inv_preord _) (fun _ h => ⟨h.txs, h.summary, h.oldSummary, h.gas, h.oldGas⟩)
      (fun _ _ _ h => ⟨h.txs, h.summary, h.oldSummary, h.gas, h.oldGas⟩) (storeInv_prims.addBlock _ trivial)
      (storeInv_prims.setAmount _ _)
  have hc : ∀ t d, StoreInv E t → Crash t d → DiskInv E d := fun t d h hc =>
    ⟨h.txs.2 _ hc.transactions, h.summary.2 _ hc.summary, h.oldSummary.2 _ hc.oldSummary, h.gas.2 _ hc.gas,
      h.oldGas.2 _ hc.oldGas⟩
  have hx : ∀ (s : Tree) (ι : Type) [DecidableEq ι] (job : ι → Job) (stop : ι → Option (Nat × Outcome Reply))
      (log : List (Event ι Node)) (c : Config ι Node Reply), Exec (cutStart E s job stop) log c → StoreInv E s →
      StoreInv E c.shared.data := fun s ι _ job stop log c h =>
    (h.sorted (R := Sound E) (sound_refl E) (fun _ _ _ a b => ⟨fun h => b.1 (a.1 h), txsGrow_preord.trans a.2 b.2⟩)
      (cut_sound h)).1.1
  induction h with
  | refl => exact h0
  | opening d t _ ht ih => exact (hn d.boot).2 t ht (hb d ih)
  | opened d _ _ ih => exact (hn d.boot).1 (hb d ih)
  | running s t op _ _ _ ht ih => exact (Op.storeInv E op s).2 t ht ih
  | call s op _ _ ih => exact (Op.storeInv E op s).1 ih
  | working s ι job stop log c _ _ h ih => exact hx s ι job stop log c h ih
  | worked s ι job stop log c _ _ h _ ih => exact hx s ι job stop log c h ih
  | crashIdle s d _ hd ih => exact hc s d ih hd
  | crashBusy s d _ hd ih => exact hc s d ih hd

/-! ## C149 -/

/-- C149. However many threads used the node, and however often it was killed and started again, it can be opened. -/
theorem C149_opens (E : Env) (d : Disk) (h : BusyLife E (.down d)) : (openTree E d).out = .ok () := by
  obtain ⟨⟨q, df, hr, -⟩, -⟩ := busy_fit h
  rw [openTree_ok_iff, ← readConfig_ok_iff]
  exact ⟨_, hr⟩

/-- Every height below that of the chain has a block of that height, the last block is that of the greatest height. -/
def Orderly (m : MainChain) : Prop :=
  (∃ b, m.getLastBlock = .ok (some b) ∧ b.info.height.val + 1 = m.getHeight.val) ∧
  ∀ q : U256, q.val < m.getHeight.val → ∃ b, m.findByHeight q = .ok (some b) ∧ b.info.height = q

theorem orderly_of {m : MainChain} (hr : Recoverable m.chain) : Orderly m := by
  have hq : ∀ q : U256, q.val < m.getHeight.val → ∃ b, m.findByHeight q = .ok (some b) ∧ b.info.height = q := by
    intro q hq
    obtain ⟨b, h1, h2, h3⟩ := hr.cur q hq
    refine ⟨b, ?_, h2⟩
    unfold MainChain.findByHeight MainChain.findRawByHeight Chain.findRawByHeight
    rw [if_neg (show ¬ m.chain.height.val < q.val from Nat.not_lt.mpr (Nat.le_of_lt hq)),
      show m.chain.blocks.get q.toBE.val = some b.dump from h1]
    exact h3
  refine ⟨?_, hq⟩
  have hp := hr.pos
  have hlt := m.chain.height.lt
  obtain ⟨b, h1, h2⟩ := hq ⟨m.chain.height.val - 1, by omega⟩ (by show m.chain.height.val - 1 < m.chain.height.val; omega)
  refine ⟨b, ?_, ?_⟩
  · unfold MainChain.getLastBlock MainChain.getLastRawBlock
    rw [lastIndex hr.pos]
    exact h1
  · rw [h2]
    show m.chain.height.val - 1 + 1 = m.chain.height.val
    omega

/-- C149. Whenever the node is open, between the calls and at every moment while threads use it, its chain is readable; and
while threads use it the chain does not shrink and no block below its height changes. -/
theorem C149_readable (E : Env) (s : Tree) (h : BusyLife E (.idle s)) :
    Orderly s.main ∧
    ∀ (ι : Type) [DecidableEq ι] (job : ι → Job) (stop : ι → Option (Nat × Outcome Reply)) (log : List (Event ι Node))
      (c : Config ι Node Reply), (∀ i, (job i).Light) → Exec (cutStart E s job stop) log c →
      Orderly c.shared.data.main ∧ s.main.getHeight.val ≤ c.shared.data.main.getHeight.val ∧
      ∀ q : U256, q.val < s.main.getHeight.val → c.shared.data.main.findRawByHeight q = s.main.findRawByHeight q := by
  have hs : Sturdy s := busy_fit h
  refine ⟨orderly_of hs.chain, fun ι _ job stop log c hl hx => ⟨orderly_of (exec_sturdy hx hl hs).chain, ?_⟩⟩
  obtain ⟨k1, k2⟩ := (hx.sorted (R := fun a b : Node => a.data.main.chain.height.val ≤ b.data.main.chain.height.val ∧
      ∀ q : U256, q.val < a.data.main.chain.height.val →
        b.data.main.chain.blocks.get q.toBE.val = a.data.main.chain.blocks.get q.toBE.val)
    (fun _ => ⟨Nat.le_refl _, fun _ _ => rfl⟩)
    (fun a b c h1 h2 => ⟨Nat.le_trans h1.1 h2.1, fun q hq => (h2.2 q (Nat.lt_of_lt_of_le hq h1.1)).trans (h1.2 q hq)⟩)
    (fun e he => step_low (cut_steps hx e he))).1
  refine ⟨k1, fun q hq => ?_⟩
  have hq : q.val < s.main.chain.height.val := hq
  have k1 : s.main.chain.height.val ≤ c.shared.data.main.chain.height.val := k1
  unfold MainChain.findRawByHeight Chain.findRawByHeight
  rw [if_neg (by omega), if_neg (by omega)]
  exact k2 q hq

/-- C149. What the node had when it was flushed it has ever after: at every later moment at which the node is open, in this
life of the process or in a later one, it is no lower, its blocks below the height it had are the same, and the transactions
it had are there; and whenever it is down, it can be opened. -/
theorem C149_flushed (E : Env) (s : Tree) (h : BusyLife E (.idle s)) (m : Moment)
    (hm : Along E (.idle (Op.flush.run E s).final) m) :
    (∀ t, m = .idle t → s.main.getHeight.val ≤ t.main.getHeight.val ∧
      (∀ q : U256, q.val < s.main.getHeight.val → t.main.findRawByHeight q = s.main.findRawByHeight q) ∧
      ∀ x, s.main.transactionExists x = true → t.main.transactionExists x = true) ∧
    ∀ d, m = .down d → (openTree E d).out = .ok () := by
  have hs : Sturdy s := busy_fit h
  have h0 : Retained s.main.chain.blocks.cur s.main.transactions.cur s.main.chain.height.val (.idle (Op.flush.run E s).final) := by
    rw [(flush_op E s).2]
    refine ⟨⟨⟨_, _, MainChain.readConfig_written _ _, Nat.le_refl _⟩, Nat.le_refl _, fun m hm q _ => ?_⟩, fun m hm k hk => ?_⟩
    · rcases hm with rfl | hm
      · rfl
      · rw [Db.flush_recov hm]
    · rcases hm with rfl | hm
      · exact hk
      · rw [Db.flush_recov hm]; exact hk
  have hh := along_held hm hs.chain.pos h0
  refine ⟨fun t e => ?_, fun d e => ?_⟩
  · subst e
    obtain ⟨⟨-, h1, h2⟩, h3⟩ := hh
    refine ⟨h1, fun q hq => ?_, fun x hx => h3 _ (.inl rfl) _ hx⟩
    have hq : q.val < s.main.chain.height.val := hq
    unfold MainChain.findRawByHeight Chain.findRawByHeight
    rw [if_neg (by omega), if_neg (by omega)]
    exact h2 _ (.inl rfl) q hq
  · subst e
    obtain ⟨⟨q, df, hr, -⟩, -⟩ := hh
    rw [openTree_ok_iff, ← readConfig_ok_iff]
    exact ⟨_, hr⟩

/-- C149. A block whose addition by a thread was not cut short and succeeded is in the chain, whatever was cut short or
killed before; and once the threads have ended and the node was flushed, it is in the chain ever after. -/
theorem C149_accepted [DecidableEq ι] (E : Env) (s : Tree) (h : BusyLife E (.idle s)) (job : ι → Job)
    (stop : ι → Option (Nat × Outcome Reply)) (log : List (Event ι Node)) (c : Config ι Node Reply) (hl : ∀ i, (job i).Light)
    (hx : Exec (cutStart E s job stop) log c) (i : ι) (hi : stop i = none) (b : Block) (hb : (job i).IsAdd b) (r : Reply)
    (ho : c.threads i = .done (.ok r)) :
    c.shared.data.main.findByHeight b.info.height = .ok (some b) ∧
    ((∀ j, hasEnded (c.threads j)) → ∀ t, Along E (.idle (Op.flush.run E c.shared.data).final) (.idle t) →
      t.main.findByHeight b.info.height = .ok (some b)) := by
  obtain ⟨hpos, h1, h2⟩ := C146_accepted E s job stop log c hx i hi b hb r ho
  have hm : b.IsMain := by
    have := hl i
    rcases hb with hb | hb <;> · rw [hb] at this; exact this
  have hpos : s.main.chain.height.val ≤ b.info.height.val := hpos
  have hs : Sturdy s := busy_fit h
  have hd := decode_main b hm (.inl (by have := hs.chain.pos; omega))
  have key : ∀ m : MainChain, m.findRawByHeight b.info.height = some b.dump → m.findByHeight b.info.height = .ok (some b) := by
    intro m hm
    unfold MainChain.findByHeight
    rw [hm]
    exact hd
  refine ⟨key _ h2, fun he t ht => key _ ?_⟩
  obtain ⟨-, h3, -⟩ := (C149_flushed E c.shared.data (.worked s ι job stop log c h hl hx he) _ ht).1 t rfl
  rw [h3 _ h1, h2]

/-- C149. Whenever the node is open, every balance can be read, and every transaction found is one with that hash. -/
theorem C149_stores (E : Env) (s : Tree) (h : BusyLife E (.idle s) ∨ BusyLife E (.busy s)) :
    (∃ f, Shows s.summary f) ∧ (∃ g, Shows s.gas g) ∧
    ∀ x, s.main.getTransaction E x = .ok none ∨
      ∃ t : Transaction, s.main.getTransaction E x = .ok (some t) ∧ t.hash = x ∧ E.sha256 t.dump = x := by
  have h0 : Tended E (.down Disk.empty) :=
    ⟨fun k v h => by simp [Disk.empty] at h, KV.dec_empty, KV.dec_empty, KV.dec_empty, KV.dec_empty⟩
  have hc : StoreInv E s := by
    rcases h with h | h
    · exact along_tended h h0
    · exact along_tended h h0
  refine ⟨⟨_, shows_amt hc.summary.1⟩, ⟨_, shows_amt hc.gas.1⟩, fun x => ?_⟩
  cases hx : s.main.getTransactionRaw x with
  | none => left; unfold MainChain.getTransaction; rw [hx]
  | some raw =>
    obtain ⟨hk, t, rfl⟩ := hc.txs.1 _ _ hx
    exact .inr ⟨_, getTransaction_dump hx, Subtype.ext hk.symm, by rw [asRead_dump]; exact Subtype.ext hk.symm⟩

/-- A thread's `add_block` is cut short with its block stored and the height not yet raised; the other thread has not begun;
the process is killed, and nothing stored is lost. Started again, the node has the height it was flushed with, and the block
of the cut call, readable though above its height; adding a block there succeeds. -/
example (E : Env) (e : Err) : ∃ s t, BusyLife E (.idle s) ∧ Along E (.idle (Op.flush.run E s).final) (.idle t) ∧
    s.main.getHeight.val = 1 ∧ t.main.getHeight.val = 1 ∧
    t.main.findRawByHeight t.main.getHeight = some nextBlock.dump ∧
    Along E (.idle (Op.flush.run E s).final) (.idle ((Op.addBlock nextBlock').run E t).final) ∧
    ((Op.addBlock nextBlock').run E t).out = .ok () := by
  obtain ⟨s, hs⟩ : ∃ s, s = (openTree E Disk.empty).final := ⟨_, rfl⟩
  have b0 : BusyLife E (.idle s) := hs ▸ .opened Disk.empty .refl (openTree_fresh E).1
  have l0 : Life E (.idle s) := hs ▸ .opened Disk.empty .start (openTree_fresh E).1
  have e0 : s.main.chain.height = U256.one := by rw [hs, (openTree_fresh E).2]; rfl
  obtain ⟨f, hf⟩ : ∃ f, f = (Op.flush.run E s).final := ⟨_, rfl⟩
  have hfin := (flush_op E s).2
  have e1 : f.main.chain.height = U256.one := by rw [hf, hfin]; exact e0
  have hcf : MainChain.readConfig f.main.chain.config = .ok (U256.one, f.main.chain.difficulty) := by
    rw [hf, hfin]
    exact (MainChain.readConfig_written _ _).trans (by rw [← e0]; rfl)
  have lf : Life E (.idle f) := hf ▸ .call s .flush l0
  have a0 : Along E (.idle f) (.idle f) := .refl
  obtain ⟨t, ht⟩ : ∃ t : Tree, t = { f with main := { f.main with chain := f.main.chain.put1 nextBlock.dump } } := ⟨_, rfl⟩
  have r1 : Prog.Runs (Node.cut (.err e) 3 false (Job.prog E (.call (.add nextBlock)))) ⟨f, false⟩ (.done (.err e)) ⟨t, false⟩ := by
    refine .step (s' := ⟨f, true⟩) rfl (.step (s' := ⟨f, true⟩) rfl ?_)
    have key : Prog.Runs (Node.cut (.err e) 1 true (afterRead E nextBlock f.main.chain.height >>=
        fun _ => (pure .nothing : Prog Node Reply))) ⟨f, true⟩ (.done (.err e)) ⟨t, false⟩ := by
      unfold afterRead
      rw [if_neg (not_not.mpr (show nextBlock.info.height = f.main.chain.height from e1.symm))]
      refine .step (s' := ⟨t, true⟩) ?_ (.step (s' := ⟨t, false⟩) rfl .refl)
      rw [ht]
      rfl
    exact key
  have h0 : Exec (cutStart E f (fun i : Bool => .call (.add (if i then nextBlock else nextBlock')))
        (fun i => if i then some (3, .err e) else none)) [] _ := .refl
  obtain ⟨l1, h1⟩ := h0.runs true r1
  have a1 : Along E (.idle f) (.busy t) :=
    .working f Bool _ _ l1 _ a0 (by intro i; cases i; exacts [(trivial : nextBlock'.IsMain), (trivial : nextBlock.IsMain)]) h1
  have hc0 := close_is_crash E f lf
  have hc : Crash t t.close := by
    rw [ht]
    exact ⟨List.mem_cons_self, hc0.heightReference, hc0.transactions, rfl, hc0.summary, hc0.oldSummary, hc0.gas, hc0.oldGas,
      hc0.deriv⟩
  have a2 : Along E (.idle f) (.down t.close) := .crashBusy t _ a1 hc
  have hcfg : MainChain.readConfig t.close.config = .ok (U256.one, f.main.chain.difficulty) := by rw [ht]; exact hcf
  obtain ⟨o1, o2⟩ := openTree_pos (E := E) hcfg (by decide)
  have a3 : Along E (.idle f) (.idle (openTree E t.close).final) := .opened _ a2 o1
  have e3 : (openTree E t.close).final.main.chain.height = U256.one := by rw [o2]; rfl
  obtain ⟨g1, -⟩ := add_ok E (openTree E t.close).final nextBlock' (by rw [e3]; rfl) (by rw [e3]; decide)
  refine ⟨s, _, b0, hf ▸ a3, ?_, ?_, ?_, hf ▸ .call _ _ a3 trivial, g1⟩
  · exact congrArg U256.val e0
  · exact congrArg U256.val e3
  · unfold MainChain.findRawByHeight Chain.findRawByHeight
    rw [if_neg (show ¬ (openTree E t.close).final.main.chain.height.val < (openTree E t.close).final.main.getHeight.val from
      Nat.lt_irrefl _), show MainChain.getHeight _ = U256.one from e3, o2]
    show t.main.chain.blocks.cur.get _ = _
    rw [ht]
    show (f.main.chain.blocks.cur.insert f.main.chain.height.toBE.val nextBlock.dump).get _ = _
    rw [e1, KV.get_insert, if_pos rfl]

end BCT.Props
