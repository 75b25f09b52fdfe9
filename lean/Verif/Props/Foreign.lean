import Verif.Model.Foreign
import Verif.Props.Send
/-!
# C160 – C162: objects from outside the crate
-/

namespace BCT.Props
open BCT

section
variable {E : Env} {S : ∀ {α : Type}, Act Tree α → Prop}

/-- The building blocks of the calls with objects from anywhere. -/
structure WidePrims (E : Env) (S : ∀ {α : Type}, Act Tree α → Prop) : Prop where
  own : Prims E (fun _ => True) S
  addBlock : ∀ h d, S (Tree.onMain (MainChain.onChain (Chain.addBlock E h d)))
  store : ∀ d, S (Tree.onMain (Act.step fun m => { m with transactions := m.transactions.insert (E.sha256 d).val d }))

theorem onMain_bind {α β : Type} (x : Act MainChain α) (f : α → Act MainChain β) :
    Tree.onMain (x >>= f) = Tree.onMain x >>= fun a => Tree.onMain (f a) := Act.zoom_bind onMain_lens x f

theorem onMain_lift {α : Type} (o : Outcome α) : Tree.onMain (Act.lift o) = Act.lift o := rfl

theorem WidePrims.foreignBlock (P : WidePrims E S) (C : Act.Closed S) (a : BlockAnswers) :
    S (Tree.onMain (MainChain.addForeignBlock E a)) := by
  unfold MainChain.addForeignBlock
  rw [onMain_bind, onMain_lift]
  refine C.bind (C.lift _) fun d => ?_
  rw [onMain_bind, onMain_lift]
  exact C.bind (C.lift _) fun h => P.addBlock h d

theorem WidePrims.foreignTx (P : WidePrims E S) (C : Act.Closed S) (d : Outcome Bytes) :
    S (Tree.onMain (MainChain.addForeignTransaction E d)) := by
  unfold MainChain.addForeignTransaction
  rw [onMain_bind, onMain_lift]
  exact C.bind (C.lift _) fun d => P.store d

/-- `send_transaction` is made of the building blocks, whatever the object answers. -/
theorem WidePrims.sendForeign (P : WidePrims E S) (C : Act.Closed S) (a : TxAnswers) : S (Tree.sendForeign E a) := by
  unfold Tree.sendForeign
  refine C.bind C.get fun t => C.bind (C.lift _) fun _ => C.bind (C.lift _) fun _ => C.bind (C.lift _) fun _ =>
    C.bind (C.lift _) fun _ => C.bind (C.lift _) fun _ => C.bind (C.lift _) fun _ => ?_
  split
  · exact C.lift _
  · refine C.bind (C.lift _) fun _ => C.bind (C.lift _) fun _ => C.bind (C.lift _) fun _ => C.bind (C.lift _) fun _ =>
      C.bind (C.lift _) fun _ => ?_
    split
    · exact C.lift _
    · refine C.bind (P.foreignTx C _) fun _ => C.bind (C.lift _) fun m => ?_
      cases m with
      | none => exact C.pure _
      | some _ =>
        exact C.bind (C.lift _) fun _ => C.bind (C.lift _) fun _ => C.bind (P.own.sendAmount' C _ _ _) fun _ =>
          C.bind (C.lift _) fun _ => P.own.subGas _ _

/-- Every call is made of the building blocks. -/
theorem WideOp.sat (P : WidePrims E S) (C : Act.Closed S) (op : WideOp) : S (op.run E) := by
  cases op with
  | own op => exact Op.sat P.own C op op.adds_true
  | addBlock a => exact P.foreignBlock C a
  | addNewBlock a txs => exact C.bind (P.foreignBlock C a) fun _ => P.own.addTransactions C txs
  | addTransaction d => exact P.foreignTx C d
  | addTransactions ds =>
    show S (Tree.onMain (Act.forEach ds (MainChain.addForeignTransaction E)))
    unfold Tree.onMain
    rw [Act.zoom_forEach onMain_lens]
    exact C.forEach (fun d => P.foreignTx C d)
  | sendTransaction a => exact P.sendForeign C a

end

/-! ## What the databases always satisfy -/

/-- Entries of the transaction store: bytes under their hash. -/
def ByHash (E : Env) (m : KV) : Prop := ∀ k v, m.get k = some v → k = (E.sha256 v).val

/-- The ledgers can be read; the transaction store has bytes under their hash. -/
structure WideReadable (E : Env) (t : Tree) : Prop where
  txs : ByHash E t.main.transactions.cur
  summary : t.summary.All KV.Dec
  gas : t.gas.All KV.Dec

theorem ByHash.insert {E : Env} {m : KV} (h : ByHash E m) (d : Bytes) : ByHash E (m.insert (E.sha256 d).val d) := by
  intro k v hk
  rw [KV.get_insert] at hk
  split at hk
  · rename_i e; cases hk; exact e.symm
  · exact h k v hk

theorem readable_main {E : Env} {α : Type} {x : Act MainChain α}
    (hx : Act.Rel (fun x y : MainChain => ByHash E x.transactions.cur → ByHash E y.transactions.cur) x) :
    Act.Rel (fun s t => WideReadable E s → WideReadable E t) (Tree.onMain x) :=
  Act.rel_zoom hx fun _ _ h1 h2 => ⟨h1 h2.txs, h2.summary, h2.gas⟩

theorem readable_summary {E : Env} {x : Act Db Unit} (hx : Act.Rel (fun x y : Db => x.All KV.Dec → y.All KV.Dec) x) :
    Act.Rel (fun s t => WideReadable E s → WideReadable E t) (Tree.onSummary x) :=
  Act.rel_zoom hx fun _ _ h1 h2 => ⟨h2.txs, h1 h2.summary, h2.gas⟩

theorem readable_gas {E : Env} {x : Act Db Unit} (hx : Act.Rel (fun x y : Db => x.All KV.Dec → y.All KV.Dec) x) :
    Act.Rel (fun s t => WideReadable E s → WideReadable E t) (Tree.onGas x) :=
  Act.rel_zoom hx fun _ _ h1 h2 => ⟨h2.txs, h2.summary, h1 h2.gas⟩

theorem readable_flushMain {E : Env} :
    Act.Rel (fun s t => WideReadable E s → WideReadable E t) (Tree.onMain MainChain.flush) := by
  have C := Act.rel_closed (Act.inv_preord (fun x : MainChain => ByHash E x.transactions.cur))
  refine readable_main ?_
  unfold MainChain.flush MainChain.dumpConfig
  exact C.bind (C.bind (Act.rel_step fun _ h => h) fun _ => C.bind (Act.rel_step fun _ h => h) fun _ =>
    Act.rel_step fun _ h => h) fun _ => C.bind (Act.rel_step fun _ h => h) fun _ =>
      C.bind (Act.rel_step fun _ h => h) fun _ => Act.rel_step fun _ h => h

theorem readable_flush {E : Env} : Act.Rel (fun s t => WideReadable E s → WideReadable E t) Tree.flush := by
  have C := Act.rel_closed (Act.inv_preord (WideReadable E))
  unfold Tree.flush
  exact C.bind readable_flushMain fun _ =>
    C.bind (Act.rel_step fun _ h => ⟨h.txs, h.summary.flush, h.gas⟩) fun _ =>
    C.bind (Act.rel_step fun _ h => ⟨h.txs, h.summary, h.gas⟩) fun _ =>
    C.bind (Act.rel_step fun _ h => ⟨h.txs, h.summary, h.gas.flush⟩) fun _ =>
      Act.rel_step fun _ h => ⟨h.txs, h.summary, h.gas⟩

theorem readable_prims (E : Env) :
    WidePrims E (fun {α} (x : Act Tree α) => Act.Rel (fun s t => WideReadable E s → WideReadable E t) x) := by
  have C := Act.rel_closed (Act.inv_preord (WideReadable E))
  have hput : ∀ d, Act.Rel (fun x y : MainChain => ByHash E x.transactions.cur → ByHash E y.transactions.cur)
      (Act.step fun m => { m with transactions := m.transactions.insert (E.sha256 d).val d }) :=
    fun d => Act.rel_step fun _ h => h.insert d
  have hadd : ∀ h d, Act.Rel (fun x y : MainChain => ByHash E x.transactions.cur → ByHash E y.transactions.cur)
      (MainChain.onChain (Chain.addBlock E h d)) := fun h d =>
    Act.rel_zoom (Q := fun x y : MainChain => ByHash E x.transactions.cur → ByHash E y.transactions.cur)
      (part := fun m : MainChain => m.chain) (put := fun c m => { m with chain := c })
      (Act.rel_true (Chain.addBlock E h d)) fun _ _ _ h => h
  refine ⟨⟨fun b _ => readable_main (hadd _ _), fun t => readable_main (hput _), readable_flushMain,
    fun _ _ => readable_summary (Ledger.add_all _ _), fun _ _ => readable_summary (Ledger.set_all _ _),
    fun _ _ => readable_summary (Ledger.sub_all _ _), fun _ _ _ _ => readable_summary (Ledger.transfer_all _ _ _),
    fun _ _ => readable_gas (Ledger.add_all _ _), fun _ _ => readable_gas (Ledger.sub_all _ _),
    fun _ _ _ => readable_gas (Ledger.transfer_all _ _ _), readable_flush, ?_, fun o => ?_,
    fun o b => Act.rel_zoom (Act.rel_true _) fun _ _ _ h => ⟨h.txs, h.summary, h.gas⟩,
    fun o => Act.rel_zoom (Act.rel_true _) fun _ _ _ h => ⟨h.txs, h.summary, h.gas⟩⟩,
    fun h d => readable_main (hadd h d), fun d => readable_main (hput d)⟩
  · unfold Tree.rotateDbs
    exact C.bind readable_flush fun _ => C.bind (Act.rel_step fun _ h => ⟨h.txs, h.summary, h.gas⟩) fun _ =>
      C.bind (Act.rel_step fun _ h => ⟨h.txs, h.summary, h.gas⟩) fun _ =>
      C.bind (Act.rel_step fun _ h => ⟨h.txs, h.summary, h.gas⟩) fun _ =>
        Act.rel_step fun _ h => ⟨h.txs, h.summary, h.gas⟩
  · unfold Tree.getDerivativeChain
    refine C.bind C.get fun _ => ?_
    split
    · exact C.pure _
    · exact C.bind (C.lift _) fun _ => C.bind (C.lift _) fun _ => C.bind (C.lift _) fun _ =>
        Act.rel_step fun _ h => ⟨h.txs, h.summary, h.gas⟩

theorem readable_op (E : Env) (op : WideOp) : Act.Rel (fun s t => WideReadable E s → WideReadable E t) (op.run E) :=
  WideOp.sat (readable_prims E) (Act.rel_closed (Act.inv_preord _)) op

theorem wideRun_readable {E : Env} {s : Tree} (hr : WideRun E s) : WideReadable E s := by
  induction hr with
  | fresh =>
    have h := run_storeInv (E := E) (A := fun _ => True) .fresh
    exact ⟨fun k v hk => (h.txs.1 k v hk).1, h.summary, h.gas⟩
  | call s op _ ih => exact (readable_op E op s).1 ih

theorem wideRun_on {E : Env} {s t : Tree} (hr : WideRun E s) (hl : WideLater E s t) : WideRun E t := by
  induction hl with
  | refl => exact hr
  | call t op _ ih => exact .call t op ih

/-! ## Stored hashes stay -/

theorem txsGrow_wide (E : Env) : WidePrims E (fun {α} (x : Act Tree α) => Act.Rel TxsGrow x) :=
  ⟨txsGrow_prims E, fun h d => txsGrow_onMain (Act.rel_zoom
      (Q := fun x y : MainChain => ∀ k, (x.transactions.get k).isSome → (y.transactions.get k).isSome)
      (part := fun m : MainChain => m.chain) (put := fun c m => { m with chain := c })
      (Act.rel_true (Chain.addBlock E h d)) fun _ _ _ _ h => h),
    fun d => txsGrow_onMain (Act.rel_step fun m k h => by
      show (Db.get _ k).isSome
      rw [Db.get_insert]; split
      · rfl
      · exact h)⟩

theorem wideLater_txsGrow {E : Env} {s t : Tree} (h : WideLater E s t) : TxsGrow s t := by
  induction h with
  | refl => exact txsGrow_preord.refl _
  | call t op _ ih =>
    exact txsGrow_preord.trans ih (WideOp.sat (txsGrow_wide E) (Act.rel_closed txsGrow_preord) op t).1

/-! ## The chain as a pile of byte strings -/

/-- The chain stores exactly the byte strings `ds`, in order of height, each found under its hash. -/
structure Piled (E : Env) (c : Chain) (ds : List Bytes) : Prop where
  len : ds.length = c.height.val
  stored : ∀ q : U256, c.blocks.get q.toBE.val = ds[q.val]?
  refs : ∀ h : Hash, ∀ v, c.heightReference.get h.val = some v →
    ∃ q : U256, v = q.toBE.val ∧ ∃ d, ds[q.val]? = some d ∧ E.sha256 d = h
  found : ∀ d ∈ ds, (c.heightReference.get (E.sha256 d).val).isSome

theorem toBE_eq {p q : U256} : p.toBE.val = q.toBE.val ↔ p = q :=
  ⟨fun h => U256.ext (beBytes_inj (k := 32) p.lt q.lt h), fun h => h ▸ rfl⟩

theorem Piled.addBlock {E : Env} {c : Chain} {ds : List Bytes} {d : Bytes} (h : Piled E c ds)
    (hm : c.height.val + 1 < U256.size) : Piled E (Chain.addBlock E c.height d c).final (ds ++ [d]) := by
  rw [Chain.addBlock_right hm]
  have hl := h.len
  have hlast : (ds ++ [d])[c.height.val]? = some d := by rw [← hl]; simp
  refine ⟨by simp [Chain.put3, hl], fun q => ?_, fun k v hk => ?_, fun x hx => ?_⟩
  · show (c.blocks.insert c.height.toBE.val d).get q.toBE.val = _
    rw [Db.get_insert]
    by_cases hq : c.height = q
    · rw [if_pos (toBE_eq.mpr hq), ← hq, hlast]
    · rw [if_neg (fun e => hq (toBE_eq.mp e)), h.stored q]
      have hne : q.val ≠ ds.length := fun e => hq (U256.ext (by omega))
      by_cases hlt : q.val < ds.length
      · rw [List.getElem?_append_left hlt]
      · rw [List.getElem?_eq_none (by omega), List.getElem?_eq_none (by simp; omega)]
  · have hk' : (c.heightReference.insert (E.sha256 d).val c.height.toBE.val).get k.val = some v := hk
    rw [Db.get_insert] at hk'
    split at hk'
    · rename_i e
      cases hk'
      exact ⟨c.height, rfl, d, hlast, Subtype.ext e⟩
    · obtain ⟨q, h1, x, h2, h3⟩ := h.refs k v hk'
      refine ⟨q, h1, x, ?_, h3⟩
      obtain ⟨hi, _⟩ := List.getElem?_eq_some_iff.mp h2
      rw [List.getElem?_append_left hi, h2]
  · show ((c.heightReference.insert (E.sha256 d).val c.height.toBE.val).get _).isSome
    rw [Db.get_insert]
    split
    · rfl
    · rename_i e
      rcases List.mem_append.mp hx with hx | hx
      · exact h.found x hx
      · rw [List.mem_singleton.mp hx] at e; exact absurd rfl e

theorem Piled.raw {E : Env} {c : Chain} {ds : List Bytes} (h : Piled E c ds) (q : U256) :
    c.findRawByHeight q = ds[q.val]? := by
  unfold Chain.findRawByHeight
  split
  · rw [List.getElem?_eq_none (by have := h.len; omega)]
  · exact h.stored q

/-- The chain of `t` continues that of `s`. -/
def Piles (E : Env) (s t : Chain) : Prop :=
  s.height.val ≤ t.height.val ∧
  (t.height.val + 1 < U256.size → ∀ ds, Piled E s ds → ∃ new, Piled E t (ds ++ new))

theorem piles_preord (E : Env) : Act.PreOrd (Piles E) where
  refl s := ⟨Nat.le_refl _, fun _ ds h => ⟨[], by simpa using h⟩⟩
  trans := by
    rintro a b c ⟨h1, h2⟩ ⟨h3, h4⟩
    refine ⟨Nat.le_trans h1 h3, fun hc ds hd => ?_⟩
    obtain ⟨n1, k1⟩ := h2 (by omega) ds hd
    obtain ⟨n2, k2⟩ := h4 hc _ k1
    exact ⟨n1 ++ n2, by simpa using k2⟩

theorem Piled.same {E : Env} {s t : Chain} {ds : List Bytes} (h : Piled E s ds) (hs : Chain.Same s t) : Piled E t ds := by
  obtain ⟨h1, h2, h3⟩ := hs
  refine ⟨by rw [h3]; exact h.len, fun q => ?_, fun k v => ?_, fun d hd => ?_⟩
  · unfold Db.get; rw [h1]; exact h.stored q
  · unfold Db.get; rw [h2]; exact h.refs k v
  · unfold Db.get; rw [h2]; exact h.found d hd

theorem piles_add (E : Env) (bh : U256) (d : Bytes) : Act.RelF (Piles E) (Chain.addBlock E bh d) := by
  intro s
  by_cases hb : bh = s.height
  · subst hb
    by_cases hm : s.height.val + 1 < U256.size
    · refine ⟨?_, fun _ ds h => ⟨[d], h.addBlock hm⟩⟩
      rw [Chain.addBlock_right hm]; simp [Chain.put3]
    · rw [Chain.addBlock_max hm]
      exact ⟨Nat.le_refl _, fun h => absurd h hm⟩
  · rw [Chain.addBlock_wrong hb]; exact (piles_preord E).refl s

/-- The main chain of `t` continues that of `s`. -/
def MainPiles (E : Env) (s t : Tree) : Prop := Piles E s.main.chain t.main.chain

theorem mainPiles_preord (E : Env) : Act.PreOrd (MainPiles E) where
  refl _ := (piles_preord E).refl _
  trans h1 h2 := (piles_preord E).trans h1 h2

theorem mainPiles_wide (E : Env) : WidePrims E (fun {α} (x : Act Tree α) => Act.RelF (MainPiles E) x) := by
  have key : ∀ {α : Type} {x : Act Tree α}, Act.Rel MainSame x → Act.RelF (MainPiles E) x :=
    fun h => (h.mono fun _ _ h => show Piles E _ _ from
      ⟨by rw [h.2.2]; exact Nat.le_refl _, fun _ ds hd => ⟨[], by simpa using hd.same h⟩⟩).relF
  have hadd : ∀ h d, Act.RelF (MainPiles E) (Tree.onMain (MainChain.onChain (Chain.addBlock E h d))) := fun h d =>
    Act.relF_zoom (R := fun a b : MainChain => Piles E a.chain b.chain)
      (Act.relF_zoom (part := fun m : MainChain => m.chain) (put := fun c m => { m with chain := c })
        (piles_add E h d) (fun _ _ h => h)) (fun _ _ h => h)
  have hput : ∀ d, Act.RelF (MainPiles E) (Tree.onMain (Act.step fun m =>
      { m with transactions := m.transactions.insert (E.sha256 d).val d })) := fun d =>
    key (Act.rel_zoom (R := fun a b : MainChain => Chain.Same a.chain b.chain)
      (Act.rel_step fun _ => Chain.same_preord.refl _) (fun _ _ h => h))
  exact ⟨⟨fun b _ => hadd _ _, fun t => hput _, key (Act.rel_zoom MainChain.flush_same fun _ _ h => h),
    fun _ _ => key (Tree.onSummary_mainSame _), fun _ _ => key (Tree.onSummary_mainSame _),
    fun _ _ => key (Tree.onSummary_mainSame _), fun _ _ _ _ => key (Tree.onSummary_mainSame _),
    fun _ _ => key (Tree.onGas_mainSame _), fun _ _ => key (Tree.onGas_mainSame _),
    fun _ _ _ => key (Tree.onGas_mainSame _), key Tree.flush_mainSame, key Tree.rotate_mainSame,
    fun _ => key (Tree.getDeriv_mainSame _ _), fun _ _ => key (Tree.onDeriv_mainSame _ _),
    fun _ => key (Tree.onDeriv_mainSame _ _)⟩, hadd, hput⟩

theorem mainPiles_op (E : Env) (op : WideOp) : Act.RelF (MainPiles E) (op.run E) :=
  WideOp.sat (mainPiles_wide E) (Act.relF_closed (mainPiles_preord E)) op

theorem wideLater_piles {E : Env} {s t : Tree} (h : WideLater E s t) : MainPiles E s t := by
  induction h with
  | refl => exact (mainPiles_preord E).refl _
  | call t op _ ih => exact (mainPiles_preord E).trans ih (mainPiles_op E op t)

theorem wideRun_later {E : Env} {s : Tree} (hr : WideRun E s) : WideLater E (openTree E Disk.empty).final s := by
  induction hr with
  | fresh => exact .refl
  | call s op _ ih => exact .call s op ih

theorem wideRun_piled {E : Env} {s : Tree} (hr : WideRun E s) (hm : s.main.chain.height.val + 1 < U256.size) :
    ∃ ds, Piled E s.main.chain ds := by
  have hf : Piled E (openTree E Disk.empty).final.main.chain [(genesis E).dump] := by
    have h0 : Piled E (⟨Db.open' KV.empty, Db.open' KV.empty, U256.zero, BEGINNING_DIFFICULTY, none⟩ : Chain) [] :=
      ⟨rfl, fun q => rfl, fun h v hv => by simp [Db.get, Db.open', KV.empty, KV.get, lookup] at hv, fun d hd => by simp at hd⟩
    have h1 := h0.addBlock (d := (genesis E).dump) zero_add_one_lt
    rw [Chain.addBlock_right zero_add_one_lt] at h1
    rw [(openTree_fresh E).2]
    exact h1
  obtain ⟨new, h⟩ := (wideLater_piles (wideRun_later hr)).2 hm _ hf
  exact ⟨_, h⟩

/-! ## C162 -/

/-- C162. Whatever objects the node is given, its main chain has no gaps, and what is at a height stays there. -/
theorem C162_chain (E : Env) (s : Tree) (hr : WideRun E s) (hm : s.main.getHeight.val + 1 < U256.size) :
    (∀ q, (s.main.findRawByHeight q).isSome ↔ q.val < s.main.getHeight.val) ∧
    (∀ t, WideLater E s t → t.main.getHeight.val + 1 < U256.size → ∀ q raw, s.main.findRawByHeight q = some raw →
      t.main.findRawByHeight q = some raw) := by
  obtain ⟨ds, h⟩ := wideRun_piled hr hm
  refine ⟨fun q => ?_, fun t hl ht q raw hq => ?_⟩
  · rw [MainChain.findRawByHeight, h.raw, show s.main.getHeight = s.main.chain.height from rfl, ← h.len]; simp
  · obtain ⟨new, h'⟩ := (wideLater_piles hl).2 ht _ h
    rw [MainChain.findRawByHeight, h.raw] at hq
    obtain ⟨hi, _⟩ := List.getElem?_eq_some_iff.mp hq
    rw [MainChain.findRawByHeight, h'.raw, List.getElem?_append_left hi, hq]

/-- C162. Lookup by hash is truthful. -/
theorem C162_by_hash (E : Env) (s : Tree) (hr : WideRun E s) (hm : s.main.getHeight.val + 1 < U256.size) (h : Hash) :
    (∃ r, s.main.findRawByHash h = .ok r) ∧
    (∀ raw, s.main.findRawByHash h = .ok (some raw) →
      E.sha256 raw = h ∧ ∃ q, s.main.findRawByHeight q = some raw) ∧
    (∀ q raw, s.main.findRawByHeight q = some raw → E.sha256 raw = h →
      ∃ raw', s.main.findRawByHash h = .ok (some raw') ∧ E.sha256 raw' = E.sha256 raw) := by
  obtain ⟨ds, hd⟩ := wideRun_piled hr hm
  have raws := hd.raw
  have hash : s.main.findRawByHash h = match s.main.chain.heightReference.get h.val with
      | none => .ok none
      | some v => U256.fromBE v >>= fun q => .ok (s.main.findRawByHeight q) := rfl
  cases hg : s.main.chain.heightReference.get h.val with
  | none =>
    rw [hg] at hash
    refine ⟨⟨_, hash⟩, fun raw hraw => ?_, fun q raw hq e => ?_⟩
    · rw [hash] at hraw; cases hraw
    · rw [MainChain.findRawByHeight, raws] at hq
      have := hd.found raw (List.mem_of_getElem? hq)
      rw [e, hg] at this; cases this
  | some v =>
    obtain ⟨q, rfl, d, h1, h2⟩ := hd.refs h v hg
    rw [hg] at hash
    simp only [fromBE_toBE, Outcome.ok_bind, MainChain.findRawByHeight, raws, h1] at hash
    refine ⟨⟨_, hash⟩, fun raw hraw => ?_, fun q' raw hq e => ⟨d, hash, by rw [e, h2]⟩⟩
    rw [hash] at hraw; cases hraw
    exact ⟨h2, q, by rw [MainChain.findRawByHeight, raws, h1]⟩

/-- C162. The ledgers can be read for every address; the transaction store has bytes under their hash, and what is stored
stays, or two byte strings with the same SHA-256 digest are known. -/
theorem C162_stores (E : Env) (s : Tree) (hr : WideRun E s) :
    (∀ o, (∃ n, s.getAmount o = .ok n) ∧ ∃ n, s.getGas o = .ok n) ∧
    (∀ h raw, s.main.getTransactionRaw h = some raw → E.sha256 raw = h ∧
      ∀ t, WideLater E s t → t.main.getTransactionRaw h = some raw ∨
        ∃ raw', t.main.getTransactionRaw h = some raw' ∧ raw' ≠ raw ∧ E.sha256 raw' = E.sha256 raw) := by
  have hi := wideRun_readable hr
  refine ⟨fun o => ⟨⟨_, hi.summary.1.balance _⟩, ⟨_, hi.gas.1.balance _⟩⟩, fun h raw hraw => ?_⟩
  have he : E.sha256 raw = h := (Subtype.ext (hi.txs h.val raw hraw)).symm
  refine ⟨he, fun t hl => ?_⟩
  obtain ⟨raw', hraw'⟩ := Option.isSome_iff_exists.mp (wideLater_txsGrow hl h.val (by
    have : s.main.transactions.get h.val = some raw := hraw
    rw [this]; rfl))
  have h' : t.main.getTransactionRaw h = some raw' := hraw'
  by_cases e : raw' = raw
  · left; rw [h', e]
  · right
    refine ⟨raw', h', e, ?_⟩
    rw [he, Subtype.ext ((wideRun_readable (wideRun_on hr hl)).txs h.val raw' hraw')]

/-- C162. A block is accepted exactly when it gives its bytes and says that it is at the next height; then these bytes are
found at that height. Otherwise nothing is changed. -/
theorem C162_added (E : Env) (s : Tree) (a : BlockAnswers) (hm : s.main.getHeight.val + 1 < U256.size) :
    (((WideOp.addBlock a).run E s).out = .ok () ∧ ∃ d, a.dump = .ok d ∧ a.height = .ok s.main.getHeight ∧
      ((WideOp.addBlock a).run E s).final.main.getHeight.val = s.main.getHeight.val + 1 ∧
      ((WideOp.addBlock a).run E s).final.main.findRawByHeight s.main.getHeight = some d) ∨
    (((WideOp.addBlock a).run E s).out ≠ .ok () ∧ ((WideOp.addBlock a).run E s).final = s ∧
      ((∀ d, a.dump ≠ .ok d) ∨ a.height ≠ .ok s.main.getHeight)) := by
  show ((Tree.onMain (MainChain.addForeignBlock E a) s).out = .ok () ∧ _) ∨ _
  have fails : ∀ {x : Res MainChain Unit}, MainChain.addForeignBlock E a s.main = x → x.out ≠ .ok () → x.final = s.main →
      (Tree.onMain (MainChain.addForeignBlock E a) s).out ≠ .ok () ∧ (Tree.onMain (MainChain.addForeignBlock E a) s).final = s := by
    intro x hx h1 h2
    refine ⟨by show (MainChain.addForeignBlock E a s.main).out ≠ _; rw [hx]; exact h1, ?_⟩
    show ({ s with main := (MainChain.addForeignBlock E a s.main).final } : Tree) = s
    rw [hx, h2]
  obtain ⟨dump, height⟩ := a
  cases dump with
  | err e => right; obtain ⟨h1, h2⟩ := fails (x := ⟨.err .chainAddingBlock, s.main, []⟩) rfl (by simp) rfl; exact ⟨h1, h2, .inl (by simp)⟩
  | panic p => right; obtain ⟨h1, h2⟩ := fails (x := ⟨.panic p, s.main, []⟩) rfl (by simp) rfl; exact ⟨h1, h2, .inl (by simp)⟩
  | ub => right; obtain ⟨h1, h2⟩ := fails (x := ⟨.ub, s.main, []⟩) rfl (by simp) rfl; exact ⟨h1, h2, .inl (by simp)⟩
  | ok d =>
    cases height with
    | err e => right; obtain ⟨h1, h2⟩ := fails (x := ⟨.err e, s.main, []⟩) rfl (by simp) rfl; exact ⟨h1, h2, .inr (by simp)⟩
    | panic p => right; obtain ⟨h1, h2⟩ := fails (x := ⟨.panic p, s.main, []⟩) rfl (by simp) rfl; exact ⟨h1, h2, .inr (by simp)⟩
    | ub => right; obtain ⟨h1, h2⟩ := fails (x := ⟨.ub, s.main, []⟩) rfl (by simp) rfl; exact ⟨h1, h2, .inr (by simp)⟩
    | ok h =>
      have hrun : MainChain.addForeignBlock E ⟨.ok d, .ok h⟩ s.main = MainChain.onChain (Chain.addBlock E h d) s.main := rfl
      by_cases he : h = s.main.chain.height
      · left
        subst he
        have hx : Tree.onMain (MainChain.addForeignBlock E ⟨.ok d, .ok s.main.chain.height⟩) s = Tree.onMain (MainChain.onChain (Chain.addBlock E s.main.chain.height d)) s := rfl
        have hy := Chain.addBlock_right (E := E) (dump := d) (s := s.main.chain) hm
        refine ⟨?_, d, rfl, rfl, ?_, ?_⟩
        · show (Chain.addBlock E s.main.chain.height d s.main.chain).out = _
          rw [hy]
        · show (Chain.addBlock E s.main.chain.height d s.main.chain).final.height.val = _
          rw [hy]; rfl
        · show (Chain.addBlock E s.main.chain.height d s.main.chain).final.findRawByHeight s.main.chain.height = _
          rw [hy]
          have hlt : ¬ s.main.chain.height.val + 1 < s.main.chain.height.val := by omega
          show (if s.main.chain.height.val + 1 < s.main.chain.height.val then none
            else (s.main.chain.blocks.insert s.main.chain.height.toBE.val d).get s.main.chain.height.toBE.val) = _
          simp only [hlt, if_false, Db.get_insert, if_true]
      · right
        have hy := Chain.addBlock_wrong (E := E) (dump := d) he
        obtain ⟨h1, h2⟩ := fails (x := ⟨.err .chainAddingBlock, s.main, []⟩) (by
          rw [hrun]; unfold MainChain.onChain; rw [Act.zoom_run, hy]; rfl) (by simp) rfl
        exact ⟨h1, h2, .inr (fun e => he (by cases e; rfl))⟩

/-- C162. With the crate's own blocks and transactions the calls are those the other theorems are about. -/
theorem C162_own (E : Env) :
    (∀ b, MainChain.addForeignBlock E (BlockAnswers.own b) = MainChain.addBlock E b) ∧
    (∀ tx, MainChain.addForeignTransaction E (.ok tx.dump) = MainChain.addTransaction E tx) ∧
    (∀ txs : List Transaction, MainChain.addForeignTransactions E (txs.map fun tx => .ok tx.dump) =
      MainChain.addTransactions E txs) ∧
    (∀ b txs, Tree.addForeignNewBlock E (BlockAnswers.own b) txs = Tree.addNewBlock E b txs) := by
  have h1 : ∀ b, MainChain.addForeignBlock E (BlockAnswers.own b) = MainChain.addBlock E b := fun b => by
    unfold MainChain.addForeignBlock BlockAnswers.own
    simp only [Outcome.mapErr, Act.lift_ok_bind]
    rfl
  have h2 : ∀ tx : Transaction, MainChain.addForeignTransaction E (.ok tx.dump) = MainChain.addTransaction E tx :=
    fun tx => by
      unfold MainChain.addForeignTransaction
      simp only [Outcome.mapErr, Act.lift_ok_bind]
      rfl
  refine ⟨h1, h2, fun txs => ?_, fun b txs => ?_⟩
  · unfold MainChain.addForeignTransactions MainChain.addTransactions
    induction txs with
    | nil => rfl
    | cons t ts ih =>
      rw [List.map_cons]
      show (MainChain.addForeignTransaction E (.ok t.dump) >>= fun _ => Act.forEach (ts.map _) _) = _
      rw [h2, ih]
      rfl
  · unfold Tree.addForeignNewBlock Tree.addNewBlock
    rw [h1]

/-- The hypotheses of C162 are met by a node that was given three bytes as its block 1 – no block of the crate – and nine
bytes as a transaction. -/
example (E : Env) : ∃ s, WideRun E s ∧ s.main.getHeight.val = 2 ∧ s.main.getHeight.val + 1 < U256.size ∧
    s.main.findRawByHeight U256.one = some [1, 2, 3] ∧
    s.main.getTransactionRaw (E.sha256 (List.replicate 9 7)) = some (List.replicate 9 7) := by
  have hh : (openTree E Disk.empty).final.main.getHeight = U256.one := by rw [(openTree_fresh E).2]; rfl
  have hr := (WideRun.fresh (E := E)).call _ (.addBlock ⟨.ok [1, 2, 3], .ok U256.one⟩)
  rcases C162_added E (openTree E Disk.empty).final ⟨.ok [1, 2, 3], .ok U256.one⟩ (by rw [hh]; decide) with
    ⟨_, d, h1, _, h3, h4⟩ | ⟨_, _, h⟩
  · cases h1
    rw [hh] at h3 h4
    refine ⟨_, hr.call _ (.addTransaction (.ok (List.replicate 9 7))), h3, ?_, h4, ?_⟩
    · show (MainChain.getHeight _).val + 1 < _
      refine Nat.lt_of_le_of_lt (Nat.le_of_eq (congrArg (· + 1) h3)) (by decide)
    · show (Db.insert _ _ _).get _ = _
      rw [Db.get_insert, if_pos rfl]
  · rw [hh] at h
    rcases h with h | h
    · exact absurd rfl (h _)
    · exact absurd rfl h

/-! ## C160 -/

/-- The object's answers pass the two checks of `send_transaction`. -/
def Cleared (s : Tree) (f g : Spec.Accounts) (a : TxAnswers) : Prop :=
  ∃ x y k m last fee, a.gasSender = .ok x ∧ a.coinSender = .ok y ∧ a.size = .ok k ∧ a.amountAsked = .ok m ∧
    s.main.getLastBlock = .ok (some last) ∧ recalculateFee last.info.difficulty = .ok fee ∧
    625000000000 * k ≤ g x.val ∧ fee.val + (m.getD U256.zero).val ≤ f y.val

/-- All but the coins, the gas and the stored transactions is the same. -/
def RestSame (s t : Tree) : Prop :=
  t = { s with main := { s.main with transactions := t.main.transactions }, summary := t.summary, gas := t.gas }

/-- The same transactions are stored. -/
def NoneStored (s t : Tree) : Prop := ∀ h, t.main.getTransactionRaw h = s.main.getTransactionRaw h

/-- The bytes `d` are stored under their hash; otherwise the same transactions are stored. -/
def OneStored (E : Env) (d : Bytes) (s t : Tree) : Prop := ∀ h,
  t.main.getTransactionRaw h = if h = E.sha256 d then some d else s.main.getTransactionRaw h

/-- What the payer, the receiver and the amount named by the object make of the coins `f`. -/
def PaysAsNamed (a : TxAnswers) (f f' : Spec.Accounts) : Prop :=
  ∃ p r n, a.payer = .ok p ∧ a.receiver = .ok r ∧ a.amountMoved = .ok (some n) ∧
    (Spec.LedgerCall.send p.val r.val n.val).apply f = some f'

/-- What the gas payer and the size named by the object make of the gas `g`. -/
def ChargedAsNamed (a : TxAnswers) (g g' : Spec.Accounts) : Prop :=
  ∃ q k, a.gasPayer = .ok q ∧ a.size = .ok k ∧ (Spec.LedgerCall.sub q.val (625000000000 * k)).apply g = some g'

/-- The states `send_transaction` passes through with an object from anywhere. -/
inductive ForeignStage (E : Env) (a : TxAnswers) (s : Tree) (f g : Spec.Accounts) (t : Tree) : Prop where
  | start : RestSame s t → NoneStored s t → Shows t.summary f → Shows t.gas g → ForeignStage E a s f g t
  | stored (d : Bytes) : Cleared s f g a → a.dump = .ok d → RestSame s t → OneStored E d s t → Shows t.summary f →
      Shows t.gas g → ForeignStage E a s f g t
  | paid (d : Bytes) (f' : Spec.Accounts) : Cleared s f g a → a.dump = .ok d → RestSame s t → OneStored E d s t →
      PaysAsNamed a f f' → Shows t.summary f' → Shows t.gas g → ForeignStage E a s f g t
  | charged (d : Bytes) (f' g' : Spec.Accounts) : Cleared s f g a → a.dump = .ok d → RestSame s t → OneStored E d s t →
      PaysAsNamed a f f' → ChargedAsNamed a g g' → Shows t.summary f' → Shows t.gas g' → ForeignStage E a s f g t

/-- The states in which `send_transaction` reports success. -/
def ForeignDone (E : Env) (a : TxAnswers) (s : Tree) (f g : Spec.Accounts) (t : Tree) : Prop :=
  Cleared s f g a ∧ ∃ d, a.dump = .ok d ∧ RestSame s t ∧ OneStored E d s t ∧
    ((a.amountMoved = .ok none ∧ Shows t.summary f ∧ Shows t.gas g) ∨
     (∃ f' g', PaysAsNamed a f f' ∧ ChargedAsNamed a g g' ∧ Shows t.summary f' ∧ Shows t.gas g'))

/-- All states `x` passes through satisfy `Q`, and if it succeeds its last satisfies `W`. -/
def Visits (Q W : Tree → Prop) (x : Act Tree Unit) (s : Tree) : Prop :=
  Q (x s).final ∧ (∀ t ∈ (x s).trace, Q t) ∧ ((x s).out = .ok () → W (x s).final)

theorem visits_bind {Q W : Tree → Prop} {α : Type} {x : Act Tree α} {f : α → Act Tree Unit} {s : Tree}
    (h1 : Q (x s).final) (h2 : ∀ t ∈ (x s).trace, Q t) (h3 : ∀ v, (x s).out = .ok v → Visits Q W (f v) (x s).final) :
    Visits Q W (x >>= f) s := by
  rcases Act.bind_cases x f s with ⟨v, e1, e2, e3, e4⟩ | ⟨_, e2, e3, e4⟩
  · obtain ⟨k1, k2, k3⟩ := h3 v e1
    refine ⟨e2 ▸ k1, fun t ht => ?_, fun h => e2 ▸ k3 (e4 ▸ h)⟩
    rw [e3] at ht
    rcases List.mem_append.mp ht with ht | ht
    · exact h2 t ht
    · exact k2 t ht
  · exact ⟨e2 ▸ h1, fun t ht => h2 t (e3 ▸ ht), fun h => absurd h (e4 _)⟩

theorem visits_lift {Q W : Tree → Prop} {α : Type} {o : Outcome α} {f : α → Act Tree Unit} {s : Tree}
    (h1 : Q s) (h3 : ∀ v, o = .ok v → Visits Q W (f v) s) : Visits Q W (Act.lift o >>= f) s :=
  visits_bind (x := Act.lift o) h1 (by simp) h3

theorem visits_fail {Q W : Tree → Prop} {e : Err} {s : Tree} (h1 : Q s) : Visits Q W (Act.lift (.err e)) s :=
  ⟨h1, by simp, by simp⟩

theorem restSame_refl (s : Tree) : RestSame s s := rfl

theorem visits_send {E : Env} {s : Tree} {a : TxAnswers} {f g : Spec.Accounts} (hc : s.summary.cur.Dec)
    (hd : s.gas.cur.Dec) (hf : Shows s.summary f) (hg : Shows s.gas g) :
    Visits (ForeignStage E a s f g) (ForeignDone E a s f g) (Tree.sendForeign E a) s := by
  have q0 : ForeignStage E a s f g s := .start (restSame_refl s) (fun _ => rfl) hf hg
  unfold Tree.sendForeign
  refine visits_bind (x := Act.get) q0 (by simp) fun t ht => ?_
  simp only [Act.get_run, Outcome.ok.injEq] at ht ⊢
  subst ht
  refine visits_lift q0 fun x hx => visits_lift q0 fun sg hsg => visits_lift q0 fun y hy => visits_lift q0 fun sa hsa =>
    visits_lift q0 fun k hk => visits_lift q0 fun gr hgr => ?_
  have hgr' : gr.val = 625000000000 * k := by
    unfold U256.mulNat at hgr
    split at hgr
    · cases hgr; rfl
    · cases hgr
  have hsg' : sg.val = g x.val := by
    obtain ⟨b, h1, h2⟩ := hg x.val
    rw [show s.getGas x = _ from h1] at hsg
    cases hsg; exact h2
  have hsa' : sa.val = f y.val := by
    obtain ⟨b, h1, h2⟩ := hf y.val
    rw [show s.getAmount y = _ from h1] at hsa
    cases hsa; exact h2
  split
  · exact visits_fail q0
  rename_i hgas
  refine visits_lift q0 fun last? hl => visits_lift q0 fun last hl' => visits_lift q0 fun fee hfee =>
    visits_lift q0 fun m hm => visits_lift q0 fun nd hnd => ?_
  have hl : s.main.getLastBlock = .ok (some last) := by
    cases last? with
    | none => cases hl'
    | some b => cases hl'; exact hl
  have hnd' : nd.val = fee.val + (m.getD U256.zero).val := by
    unfold U256.add at hnd
    split at hnd
    · cases hnd; rfl
    · cases hnd
  split
  · exact visits_fail q0
  rename_i hcoin
  have clr : Cleared s f g a := ⟨x, y, k, m, last, fee, hx, hy, hk, hm, hl, hfee, by omega, by omega⟩
  cases hdump : a.dump with
  | err e => exact visits_bind q0 (by simp [MainChain.addForeignTransaction, Tree.onMain, Act.zoom_run, Outcome.mapErr]) (by simp [MainChain.addForeignTransaction, Tree.onMain, Act.zoom_run, Outcome.mapErr])
  | panic e => exact visits_bind q0 (by simp [MainChain.addForeignTransaction, Tree.onMain, Act.zoom_run, Outcome.mapErr]) (by simp [MainChain.addForeignTransaction, Tree.onMain, Act.zoom_run, Outcome.mapErr])
  | ub => exact visits_bind q0 (by simp [MainChain.addForeignTransaction, Tree.onMain, Act.zoom_run, Outcome.mapErr]) (by simp [MainChain.addForeignTransaction, Tree.onMain, Act.zoom_run, Outcome.mapErr])
  | ok d =>
    let s1 : Tree := { s with main := { s.main with transactions := s.main.transactions.insert (E.sha256 d).val d } }
    have hrun : Tree.onMain (MainChain.addForeignTransaction E (.ok d)) s = ⟨.ok (), s1, [s1]⟩ := rfl
    have b1 : RestSame s s1 := rfl
    have o1 : OneStored E d s s1 := by
      intro h
      show (Db.insert _ _ _).get _ = _
      rw [Db.get_insert]
      by_cases e : h = E.sha256 d
      · rw [if_pos e, if_pos (by rw [e])]
      · rw [if_neg e, if_neg (fun e' => e (Subtype.ext e'.symm))]; rfl
    have q1 : ForeignStage E a s f g s1 := .stored d clr hdump b1 o1 hf hg
    refine visits_bind (by rw [hrun]; exact q1) (by rw [hrun]; simpa using q1) fun _ _ => ?_
    rw [hrun]
    refine visits_lift q1 fun mv hmv => ?_
    cases mv with
    | none => exact ⟨q1, by simp, fun _ => ⟨clr, d, hdump, b1, o1, .inl ⟨hmv, hf, hg⟩⟩⟩
    | some n =>
      refine visits_lift q1 fun p hp => visits_lift q1 fun r hr => ?_
      -- the coins
      have pay : ∀ {t}, (Tree.sendAmount p.val r.val n s1).out = .ok t → ∃ f', PaysAsNamed a f f' ∧
          ∃ u : Db, Shows u f' ∧ (Tree.sendAmount p.val r.val n s1).final = { s1 with summary := u } ∧
            (∀ t ∈ (Tree.sendAmount p.val r.val n s1).trace, t = { s1 with summary := u }) := by
        intro _ ho
        unfold Tree.sendAmount at ho ⊢
        by_cases hpr : p.val = r.val
        · rw [if_pos hpr] at ho ⊢
          refine ⟨f, ⟨p, r, n, hp, hr, hmv, by rw [Spec.LedgerCall.apply_send, if_pos hpr]⟩, s.summary, hf, rfl, by simp⟩
        · rw [if_neg hpr] at ho ⊢
          unfold Tree.onSummary at ho ⊢
          rw [Act.zoom_run] at ho ⊢
          obtain ⟨r1, r2, r3⟩ := refines_transfer p.val r.val n hpr s.summary f hc hf
          have ho' : (Ledger.transfer p.val r.val n s.summary).out = .ok () := ho
          obtain ⟨f', hf'⟩ := Option.isSome_iff_exists.mp (r2.mp ho')
          refine ⟨f', ⟨p, r, n, hp, hr, hmv, hf'⟩, (Ledger.transfer p.val r.val n s.summary).final, ?_, rfl, ?_⟩
          · unfold Spec.LedgerCall.run at r1; rw [hf'] at r1; exact r1
          · rcases Ledger.transfer_run hc p.val r.val n with ⟨_, hlt, e⟩ | ⟨_, e⟩ | ⟨_, _, e⟩
            · intro t ht
              rw [show s1.summary = s.summary from rfl, e] at ht
              rw [e]
              simpa using ht
            · rw [e] at ho'; cases ho'
            · rw [e] at ho'; cases ho'
      have nopay : (∀ t, (Tree.sendAmount p.val r.val n s1).out ≠ .ok t) →
          (Tree.sendAmount p.val r.val n s1).final = s1 ∧ (Tree.sendAmount p.val r.val n s1).trace = [] := by
        intro ho
        unfold Tree.sendAmount at ho ⊢
        by_cases hpr : p.val = r.val
        · rw [if_pos hpr] at ho; exact absurd rfl (ho ())
        · rw [if_neg hpr] at ho ⊢
          unfold Tree.onSummary at ho ⊢
          rw [Act.zoom_run] at ho ⊢
          rcases Ledger.transfer_run hc p.val r.val n with ⟨_, hlt, e⟩ | ⟨_, e⟩ | ⟨_, _, e⟩
          · refine absurd ?_ (ho ())
            rw [show s1.summary = s.summary from rfl, e]
          all_goals
            rw [show s1.summary = s.summary from rfl, e]
            exact ⟨rfl, rfl⟩
      by_cases ho : ∃ t, (Tree.sendAmount p.val r.val n s1).out = .ok t
      · obtain ⟨w, ho⟩ := ho
        obtain ⟨f', hpay, u, hu, hfin, htr⟩ := pay ho
        have q2 : ForeignStage E a s f g { s1 with summary := u } := .paid d f' clr hdump rfl o1 hpay hu hg
        refine visits_bind (hfin ▸ q2) (fun t ht => htr t ht ▸ q2) fun _ _ => ?_
        rw [hfin]
        refine visits_lift q2 fun q hq => ?_
        unfold Tree.subGas Tree.onGas
        unfold Visits
        rw [Act.zoom_run]
        show ForeignStage E a s f g { s1 with summary := u, gas := (Ledger.sub q.val gr s.gas).final } ∧
          (∀ t ∈ (Ledger.sub q.val gr s.gas).trace.map _, ForeignStage E a s f g t) ∧
          ((Ledger.sub q.val gr s.gas).out = .ok () →
            ForeignDone E a s f g { s1 with summary := u, gas := (Ledger.sub q.val gr s.gas).final })
        obtain ⟨r1, r2, r3⟩ := refines_sub q.val gr s.gas g hd hg
        rcases r3 with ho | ⟨pp, e⟩
        · obtain ⟨g', hg'⟩ := Option.isSome_iff_exists.mp (r2.mp ho)
          unfold Spec.LedgerCall.run at r1; rw [hg'] at r1
          have chg : ChargedAsNamed a g g' := ⟨q, k, hq, hk, hgr' ▸ hg'⟩
          have q3 : ForeignStage E a s f g { s1 with summary := u, gas := (Ledger.sub q.val gr s.gas).final } :=
            .charged d f' g' clr hdump rfl o1 hpay chg hu r1
          refine ⟨q3, ?_, fun _ => ⟨clr, d, hdump, rfl, o1, .inr ⟨f', g', hpay, chg, hu, r1⟩⟩⟩
          rcases Ledger.sub_run hd q.val gr with ⟨_, e⟩ | ⟨_, e⟩
          · intro t ht
            rw [e] at ht q3
            simp only [List.map_cons, List.map_nil, List.mem_singleton] at ht
            rw [ht]; exact q3
          · rw [e] at ho; cases ho
        · rw [e]; exact ⟨q2, by simp, by simp⟩
      · obtain ⟨e1, e2⟩ := nopay (fun t h => ho ⟨t, h⟩)
        refine visits_bind (x := Tree.sendAmount p.val r.val n) (s := s1) (by rw [e1]; exact q1) (by rw [e2]; simp) fun v hv => absurd ⟨v, hv⟩ ho

/-- C160. Given an object that answers as a transaction of the crate does, `send_transaction` is what the other theorems are
about. -/
theorem C160_own (E : Env) (tx : Transaction) : Tree.sendForeign E (TxAnswers.own tx) = Tree.sendTransaction E tx := by
  have h := (C162_own E).2.1 tx
  unfold Tree.sendForeign Tree.sendTransaction TxAnswers.own
  simp only [Act.lift_ok_bind, h, Option.getD_some]

/-- C160. Whatever the object answers: `send_transaction` changes nothing before the two checks are passed, and after them
stores the bytes the object gave, moves what it named between those it named, and charges whom it named for the size it
named, in this order and nothing else. -/
theorem C160_effect (E : Env) (s : Tree) (a : TxAnswers) (f g : Spec.Accounts) (hr : WideRun E s)
    (hf : Shows s.summary f) (hg : Shows s.gas g) :
    (∀ t, t = ((WideOp.sendTransaction a).run E s).final ∨ t ∈ ((WideOp.sendTransaction a).run E s).trace →
      ForeignStage E a s f g t) ∧
    (((WideOp.sendTransaction a).run E s).out = .ok () →
      ForeignDone E a s f g ((WideOp.sendTransaction a).run E s).final) := by
  have hi := wideRun_readable hr
  obtain ⟨h1, h2, h3⟩ := visits_send (E := E) (a := a) hi.summary.1 hi.gas.1 hf hg
  exact ⟨fun t ht => ht.elim (fun e => e ▸ h1) (h2 t), h3⟩

theorem total_update {f : Spec.Accounts} {n : Nat} (hn : Spec.Total f n) (o : List UInt8) (v : Nat) :
    ∃ m, Spec.Total (f.update o v) m ∧ m + f o = n + v := by
  obtain ⟨l, hl, hc, rfl⟩ := hn
  have hsum : (l.map f).sum = f o + ((l.filter (· ≠ o)).map f).sum := by
    by_cases ho : o ∈ l
    · have hp : l.Perm (o :: l.erase o) := List.perm_cons_erase ho
      rw [(hp.map f).sum_nat, List.map_cons, List.sum_cons, hl.erase_eq_filter]
      congr 3
      exact List.filter_congr fun q _ => by by_cases e : q = o <;> simp [bne, e]
    · have h0 : f o = 0 := by
        apply Classical.byContradiction; intro h; exact ho (hc o h)
      rw [h0, Nat.zero_add, List.filter_eq_self.mpr fun q hq => by
        have : q ≠ o := fun e => ho (e ▸ hq)
        simpa using this]
  refine ⟨v + ((l.filter (· ≠ o)).map f).sum, ⟨o :: l.filter (· ≠ o), ?_, fun q hq => ?_, ?_⟩, by omega⟩
  · exact List.nodup_cons.mpr ⟨by simp, hl.filter _⟩
  · by_cases e : q = o
    · exact e ▸ List.mem_cons_self
    · refine List.mem_cons_of_mem _ (List.mem_filter.mpr ⟨hc q ?_, by simpa using e⟩)
      unfold Spec.Accounts.update at hq; rw [if_neg e] at hq; exact hq
  · rw [List.map_cons, List.sum_cons]
    congr 1
    · unfold Spec.Accounts.update; rw [if_pos rfl]
    · congr 1
      refine List.map_congr_left fun q hq => ?_
      have : q ≠ o := by simpa using (List.mem_filter.mp hq).2
      unfold Spec.Accounts.update; rw [if_neg this]

theorem total_send {f f' : Spec.Accounts} {a b : List UInt8} {n k : Nat}
    (h : (Spec.LedgerCall.send a b n).apply f = some f') (hk : Spec.Total f k) : Spec.Total f' k := by
  rw [Spec.LedgerCall.apply_send] at h
  split at h
  · cases h; exact hk
  · rename_i hab
    split at h
    · rename_i hle
      cases h
      obtain ⟨m1, h1, e1⟩ := total_update hk a (f a - n)
      obtain ⟨m2, h2, e2⟩ := total_update h1 b (f b + n)
      have hb : f.update a (f a - n) b = f b := by
        unfold Spec.Accounts.update; rw [if_neg (fun e => hab e.symm)]
      rw [hb] at e2
      have : m2 = k := by omega
      exact this ▸ h2
    · cases h

/-- C160. Whatever the object answers, at no moment of `send_transaction` have coins been made or lost or gas been made, and
nobody but the named payer has fewer coins, nobody but the named gas payer less gas. -/
theorem C160_conserved (E : Env) (s : Tree) (a : TxAnswers) (f g : Spec.Accounts) (n k : Nat) (hr : WideRun E s)
    (hf : Shows s.summary f) (hg : Shows s.gas g) (hn : Spec.Total f n) (hk : Spec.Total g k) (t : Tree)
    (ht : t = ((WideOp.sendTransaction a).run E s).final ∨ t ∈ ((WideOp.sendTransaction a).run E s).trace) :
    ∃ f' g' k', Shows t.summary f' ∧ Shows t.gas g' ∧ Spec.Total f' n ∧ Spec.Total g' k' ∧ k' ≤ k ∧
      (∀ q, f' q < f q → ∃ p, a.payer = .ok p ∧ q = p.val) ∧ (∀ q, g' q ≤ g q) ∧
      (∀ q, g' q < g q → ∃ p, a.gasPayer = .ok p ∧ q = p.val) := by
  have hpay : ∀ {f'}, PaysAsNamed a f f' → Spec.Total f' n ∧ ∀ q, f' q < f q → ∃ p, a.payer = .ok p ∧ q = p.val := by
    rintro f' ⟨p, r, m, h1, _, _, h4⟩
    refine ⟨total_send h4 hn, fun q hq => ⟨p, h1, ?_⟩⟩
    rw [Spec.LedgerCall.apply_send] at h4
    split at h4
    · cases h4; omega
    · split at h4
      · cases h4
        apply Classical.byContradiction
        intro hne
        unfold Spec.Accounts.update at hq
        split at hq
        · rename_i e; subst e; omega
        · omega
      · cases h4
  have hchg : ∀ {g'}, ChargedAsNamed a g g' → (∃ k', Spec.Total g' k' ∧ k' ≤ k) ∧ (∀ q, g' q ≤ g q) ∧
      ∀ q, g' q < g q → ∃ p, a.gasPayer = .ok p ∧ q = p.val := by
    rintro g' ⟨p, m, h1, _, h4⟩
    rw [Spec.LedgerCall.apply_sub] at h4
    split at h4
    · cases h4
      obtain ⟨m1, k1, e1⟩ := total_update hk p.val (g p.val - 625000000000 * m)
      refine ⟨⟨m1, k1, by omega⟩, fun q => ?_, fun q hq => ⟨p, h1, ?_⟩⟩
      · unfold Spec.Accounts.update; split
        · rename_i e; subst e; omega
        · omega
      · unfold Spec.Accounts.update at hq; split at hq
        · assumption
        · omega
    · cases h4
  cases (C160_effect E s a f g hr hf hg).1 t ht with
  | start _ _ h1 h2 => exact ⟨f, g, k, h1, h2, hn, hk, Nat.le_refl _, fun _ h => by omega, fun _ => Nat.le_refl _, fun _ h => by omega⟩
  | stored d _ _ _ _ h1 h2 =>
    exact ⟨f, g, k, h1, h2, hn, hk, Nat.le_refl _, fun _ h => by omega, fun _ => Nat.le_refl _, fun _ h => by omega⟩
  | paid d f' _ _ _ _ hp h1 h2 =>
    exact ⟨f', g, k, h1, h2, (hpay hp).1, hk, Nat.le_refl _, (hpay hp).2, fun _ => Nat.le_refl _, fun _ h => by omega⟩
  | charged d f' g' _ _ _ _ hp hc h1 h2 =>
    obtain ⟨⟨k', h3, h4⟩, h5, h6⟩ := hchg hc
    exact ⟨f', g', k', h1, h2, (hpay hp).1, h3, h4, (hpay hp).2, h5, h6⟩

theorem Run.wide {E : Env} {s : Tree} (hr : Run E s) : WideRun E s := by
  induction hr with
  | fresh => exact .fresh
  | call s op _ _ ih => exact .call s (.own op) ih

/-- An object with names, bytes and an amount, if any, that it gives whenever it is asked. -/
def plainObject (sender receiver : Address) (amount : Option U256) (d : Bytes) : TxAnswers :=
  ⟨.ok sender, .ok sender, .ok d.length, .ok amount, .ok d, .ok amount, .ok sender, .ok receiver, .ok sender⟩

/-- The hypotheses of C160 are met, with the checks passed, by a sender with coins and gas and an object of three bytes. -/
example (E : Env) : ∃ s f g, WideRun E s ∧ Shows s.summary f ∧ Shows s.gas g ∧
    Cleared s f g (plainObject exTx.sender exTx.receiver none [1, 2, 3]) := by
  obtain ⟨s, h1, h2, h3, _, last, h5, h6⟩ := funded E U256.zero
  refine ⟨s, _, _, Run.wide h1, h2, h3, exTx.sender, exTx.sender, 3, none, last, _, rfl, rfl, rfl, rfl, h5, h6, ?_, ?_⟩
  · rw [funded_gas]; omega
  · rw [funded_sender]; decide

/-- The node with some bytes stored. -/
def withBytes (E : Env) (s : Tree) (d : Bytes) : Tree :=
  { s with main := { s.main with transactions := s.main.transactions.insert (E.sha256 d).val d } }

/-- What `send_transaction` does with an object without an amount. -/
theorem send_none {E : Env} {s : Tree} {f g : Spec.Accounts} (hf : Shows s.summary f) (hg : Shows s.gas g)
    {x r : Address} {d : Bytes} {last : Block} {fee : U256} (hl : s.main.getLastBlock = .ok (some last))
    (hfee : recalculateFee last.info.difficulty = .ok fee) (h1 : 625000000000 * d.length ≤ g x.val)
    (h2 : fee.val ≤ f x.val) : ∃ t : Tree, t = withBytes E s d ∧
      (WideOp.sendTransaction (plainObject x r none d)).run E s = ⟨.ok (), t, [t]⟩ := by
  refine ⟨_, rfl, ?_⟩
  show Tree.sendForeign E _ s = _
  obtain ⟨sg, hsg, hsg'⟩ := hg x.val
  obtain ⟨sa, hsa, hsa'⟩ := hf x.val
  have hsg : s.getGas x = .ok sg := hsg
  have hsa : s.getAmount x = .ok sa := hsa
  have hlt : BYTE_GAS_PRICE.val * d.length < U256.size := by
    have := sg.lt
    show 625000000000 * d.length < _
    omega
  have hm : BYTE_GAS_PRICE.mulNat d.length = .ok ⟨_, hlt⟩ := by unfold U256.mulNat; rw [dif_pos hlt]
  have ha : fee.add U256.zero = .ok fee := by
    unfold U256.add
    rw [dif_pos (show fee.val + U256.zero.val < U256.size from fee.lt)]
    rfl
  have hst : Tree.onMain (MainChain.addForeignTransaction E (.ok d)) s = ⟨.ok (), withBytes E s d, [withBytes E s d]⟩ := rfl
  unfold Tree.sendForeign plainObject
  simp only [Act.get_bind, Act.lift_ok_bind, hsg, hsa, hm, hl, hfee, Outcome.ofOption_some, Option.getD_none, ha]
  rw [if_neg (by show ¬ sg.val < 625000000000 * d.length; omega), if_neg (by omega), Act.bind_ok hst]
  rfl

/-- Sending one object without an amount after the other. -/
def sendAll (E : Env) (x r : Address) : List Bytes → Tree → Tree
  | [], s => s
  | d :: ds, s => sendAll E x r ds ((WideOp.sendTransaction (plainObject x r none d)).run E s).final

/-- C161, the full claim: a successful `send_transaction` takes the price of the stored bytes from the sender's gas. -/
def C161_full : Prop := ∀ (E : Env) (s : Tree) (x r : Address) (m : Option U256) (d : Bytes) (g : Spec.Accounts),
  WideRun E s → Shows s.gas g → ((WideOp.sendTransaction (plainObject x r m d)).run E s).out = .ok () →
  ∃ g', Shows ((WideOp.sendTransaction (plainObject x r m d)).run E s).final.gas g' ∧
    g' x.val + 625000000000 * d.length = g x.val

/-- C161 is false: who can pay for each of some byte strings alone gets all of them stored and keeps coins and gas, if the
objects have no amount. -/
theorem C161_refuted :
    (∀ (E : Env) (x r : Address) (last : Block) (fee : U256) (ds : List Bytes) (s : Tree) (f g : Spec.Accounts),
      WideRun E s → Shows s.summary f → Shows s.gas g → s.main.getLastBlock = .ok (some last) →
      recalculateFee last.info.difficulty = .ok fee → fee.val ≤ f x.val →
      (∀ d ∈ ds, 625000000000 * d.length ≤ g x.val) →
      (∀ d ∈ ds, ((WideOp.sendTransaction (plainObject x r none d)).run E s).out = .ok ()) ∧
      WideRun E (sendAll E x r ds s) ∧ Shows (sendAll E x r ds s).summary f ∧ Shows (sendAll E x r ds s).gas g ∧
      ∀ d ∈ ds, ((sendAll E x r ds s).main.getTransactionRaw (E.sha256 d)).isSome) ∧ ¬ C161_full := by
  refine ⟨?_, fun hfull => ?_⟩
  · intro E x r last fee ds
    induction ds with
    | nil => intro s f g hr hf hg _ _ _ _; exact ⟨by simp, hr, hf, hg, by simp⟩
    | cons d ds ih =>
      intro s f g hr hf hg hl hfee h2 h1
      have hr' := WideRun.call s (.sendTransaction (plainObject x r none d)) hr
      obtain ⟨t, ht, e⟩ := send_none (E := E) (r := r) hf hg hl hfee (h1 d List.mem_cons_self) h2
      obtain ⟨_, k2, k3, k4, k5⟩ := ih ((WideOp.sendTransaction (plainObject x r none d)).run E s).final f g hr'
        (by rw [e, ht]; exact hf) (by rw [e, ht]; exact hg) (by rw [e, ht]; exact hl) hfee h2
        (fun d hd => h1 d (List.mem_cons_of_mem _ hd))
      refine ⟨fun d' hd' => ?_, k2, k3, k4, fun d' hd' => ?_⟩
      · obtain ⟨t', _, e'⟩ := send_none (E := E) (r := r) hf hg hl hfee (h1 d' hd') h2
        rw [e']
      · rcases List.mem_cons.mp hd' with rfl | hd'
        · have later : ∀ (ds : List Bytes) (u : Tree), WideLater E u (sendAll E x r ds u) := by
            intro ds
            induction ds with
            | nil => intro u; exact .refl
            | cons d ds ih =>
              intro u
              have trans : ∀ {a b c : Tree}, WideLater E a b → WideLater E b c → WideLater E a c := by
                intro a b c h1 h2
                induction h2 with
                | refl => exact h1
                | call t op _ ih => exact .call t op ih
              exact trans (.call u (.sendTransaction (plainObject x r none d)) .refl) (ih _)
          refine wideLater_txsGrow (later ds _) _ ?_
          rw [e, ht]
          show ((Db.insert _ _ _).get _).isSome
          rw [Db.get_insert, if_pos rfl]; rfl
        · exact k5 d' hd'
  · obtain ⟨s, h1, h2, h3, _, last, h5, h6⟩ := funded zeroEnv U256.zero
    obtain ⟨t, ht, e⟩ := send_none (E := zeroEnv) (x := exTx.sender) (r := exTx.receiver) (d := [0]) h2 h3 h5 h6
      (by rw [funded_gas]; simp) (by rw [funded_sender]; decide)
    obtain ⟨g', k1, k2⟩ := hfull zeroEnv s exTx.sender exTx.receiver none [0] _ (Run.wide h1) h3 (by rw [e])
    rw [e, ht] at k1
    rw [shows_eq k1] at k2
    rw [show fundedGas exTx.sender.val = _ from congrFun (shows_eq h3) exTx.sender.val] at k2
    rw [show (withBytes zeroEnv s [0]).gas = s.gas from rfl] at k2
    simp at k2

/-- C161, for objects with an amount: a successful `send_transaction` takes the price of the announced size from the
named gas payer, and stores the bytes. (Missing: objects without an amount, which pay nothing.) -/
theorem C161_amount_partial (E : Env) (s : Tree) (a : TxAnswers) (n : U256) (f g : Spec.Accounts) (hr : WideRun E s)
    (hf : Shows s.summary f) (hg : Shows s.gas g) (hn : a.amountMoved = .ok (some n))
    (ho : ((WideOp.sendTransaction a).run E s).out = .ok ()) :
    ∃ q k d, a.gasPayer = .ok q ∧ a.size = .ok k ∧ a.dump = .ok d ∧ 625000000000 * k ≤ g q.val ∧
      Shows ((WideOp.sendTransaction a).run E s).final.gas (g.update q.val (g q.val - 625000000000 * k)) ∧
      ((WideOp.sendTransaction a).run E s).final.main.getTransactionRaw (E.sha256 d) = some d := by
  obtain ⟨_, d, h1, _, h3, h4⟩ := (C160_effect E s a f g hr hf hg).2 ho
  rcases h4 with ⟨e, _⟩ | ⟨f', g', _, ⟨q, k, h5, h6, h7⟩, _, h9⟩
  · rw [hn] at e; cases e
  · rw [Spec.LedgerCall.apply_sub] at h7
    split at h7
    · cases h7
      exact ⟨q, k, d, h5, h6, h1, by assumption, h9, by rw [h3, if_pos rfl]⟩
    · cases h7

/-- The case is met by the crate's own transactions. -/
example (E : Env) : ∃ s f g, WideRun E s ∧ Shows s.summary f ∧ Shows s.gas g ∧
    (TxAnswers.own exTx).amountMoved = .ok (some exTx.amount) ∧
    ((WideOp.sendTransaction (TxAnswers.own exTx)).run E s).out = .ok () := by
  obtain ⟨s, h1, h2, h3, _, last, h5, h6⟩ := funded E U256.zero
  refine ⟨s, _, _, Run.wide h1, h2, h3, rfl, ?_⟩
  show (Tree.sendForeign E (TxAnswers.own exTx) s).out = _
  rw [C160_own]
  refine (C53_admission E s exTx _ _ h1 h2 h3).mpr ⟨funded_affordable _ h5 h6 exTx rfl rfl (by decide), .inr ?_⟩
  rw [funded_receiver]; decide

end BCT.Props
