import Verif.Lemmas.Deriv
/-!
# The balance databases
-/

namespace BCT

/-- Every stored value is an encoded number. -/
def KV.Dec (m : KV) : Prop := ∀ k v, m.get k = some v → ∃ a : U256, v = Ledger.encode a

/-- The balance of an address. -/
def KV.amt (m : KV) (k : Bytes) : U256 :=
  match Ledger.balance (m.get k) with
  | .ok a => a
  | _ => U256.zero

/-- The number a stored value denotes. -/
def storedAmount (v : Bytes) : Nat :=
  match Ledger.balance (some v) with
  | .ok a => a.val
  | _ => 0

/-- The sum of all balances in a database. -/
def KV.supply (m : KV) : Nat := (m.entries.map (fun e => storedAmount e.2)).sum

theorem KV.Dec.balance {m : KV} (h : m.Dec) (k : Bytes) : Ledger.balance (m.get k) = .ok (m.amt k) := by
  unfold KV.amt
  cases hk : m.get k with
  | none => rfl
  | some v =>
    obtain ⟨a, rfl⟩ := h k v hk
    rw [Ledger.balance_encode]

theorem KV.amt_insert (m : KV) (k q : Bytes) (a : U256) :
    (m.insert k (Ledger.encode a)).amt q = if k = q then a else m.amt q := by
  unfold KV.amt
  rw [KV.get_insert]
  by_cases h : k = q
  · simp only [if_pos h, Ledger.balance_encode]
  · simp only [if_neg h]

theorem KV.Dec.insert {m : KV} (h : m.Dec) (k : Bytes) (a : U256) : (m.insert k (Ledger.encode a)).Dec := by
  intro q v hq
  rw [KV.get_insert] at hq
  split at hq
  · cases hq; exact ⟨a, rfl⟩
  · exact h q v hq

theorem KV.dec_empty : KV.empty.Dec := fun k v h => by simp at h

theorem storedAmount_encode (a : U256) : storedAmount (Ledger.encode a) = a.val := by
  unfold storedAmount; rw [Ledger.balance_encode]

theorem sum_insertSorted (k v : Bytes) (l : List (Bytes × Bytes)) (hs : Sorted l) :
    ((insertSorted k v l).map (fun e => storedAmount e.2)).sum + ((lookup k l).map storedAmount).getD 0 =
      (l.map (fun e => storedAmount e.2)).sum + storedAmount v := by
  induction l with
  | nil => simp [insertSorted, lookup]
  | cons e l ih =>
    have hs' := List.pairwise_cons.mp hs
    simp only [insertSorted, lookup]
    by_cases hk : k = e.1
    · rw [if_pos hk, if_pos hk.symm]; simp; omega
    · rw [if_neg hk, if_neg (show ¬ e.1 = k from fun h => hk h.symm)]
      have ih := ih hs'.2
      split
      · rename_i hlt
        have : lookup k l = none := by
          cases hl : lookup k l with
          | none => rfl
          | some w =>
            have h1 := hs'.1 _ (lookup_mem hl)
            have := bytesLt_trans hlt h1
            simp only at this
            rw [bytesLt_irrefl] at this; simp at this
        simp [this]; omega
      · simp; omega

theorem KV.amt_get (m : KV) (k : Bytes) : (m.amt k).val = ((m.get k).map storedAmount).getD 0 := by
  unfold KV.amt storedAmount
  cases m.get k with
  | none => rfl
  | some v =>
    simp only [Option.map_some, Option.getD_some]
    split <;> rfl

theorem KV.supply_insert (m : KV) (k : Bytes) (a : U256) :
    (m.insert k (Ledger.encode a)).supply + (m.amt k).val = m.supply + a.val := by
  have := sum_insertSorted k (Ledger.encode a) m.entries m.sorted
  rw [storedAmount_encode] at this
  rw [KV.amt_get]
  exact this

theorem KV.supply_empty : KV.empty.supply = 0 := rfl

theorem le_sum_of_mem' {a : Nat} {l : List Nat} (h : a ∈ l) : a ≤ l.sum := by
  induction l with
  | nil => cases h
  | cons b l ih =>
    rw [List.sum_cons]
    rcases List.mem_cons.mp h with rfl | h
    · omega
    · have := ih h; omega

/-- A balance is at most the supply. -/
theorem KV.amt_le_supply (m : KV) (k : Bytes) : (m.amt k).val ≤ m.supply := by
  rw [KV.amt_get]
  cases h : m.get k with
  | none => simp
  | some v =>
    have := lookup_mem h
    unfold KV.supply
    simp only [Option.map_some, Option.getD_some]
    have hm : storedAmount v ∈ m.entries.map (fun e => storedAmount e.2) := List.mem_map.mpr ⟨_, this, rfl⟩
    exact le_sum_of_mem' hm

/-- Two different balances together are at most the supply. -/
theorem KV.amt_add_le_supply (m : KV) {k q : Bytes} (h : k ≠ q) : (m.amt k).val + (m.amt q).val ≤ m.supply := by
  have h1 := m.supply_insert k U256.zero
  have h2 := KV.amt_le_supply (m.insert k (Ledger.encode U256.zero)) q
  rw [KV.amt_insert, if_neg h] at h2
  have : U256.zero.val = 0 := rfl
  omega

namespace Ledger

theorem add_run {d : Db} (hd : d.cur.Dec) (o : Bytes) (a : U256) :
    (∃ h : (d.cur.amt o).val + a.val < U256.size,
      add o a d = ⟨.ok (), d.insert o (encode ⟨_, h⟩), [d.insert o (encode ⟨_, h⟩)]⟩) ∨
    (¬ (d.cur.amt o).val + a.val < U256.size ∧ add o a d = ⟨.panic .overflow, d, []⟩) := by
  by_cases h : (d.cur.amt o).val + a.val < U256.size
  · left
    refine ⟨h, ?_⟩
    unfold add
    rw [transact_ok (m := d.cur.insert o (encode ⟨_, h⟩))]
    · rfl
    · simp only [addClosure, hd.balance, Outcome.ok_bind, U256.add, dif_pos h]
  · right
    refine ⟨h, ?_⟩
    unfold add
    rw [transact_panic (p := .overflow)]
    simp only [addClosure, hd.balance, Outcome.ok_bind, U256.add, dif_neg h, Outcome.panic_bind]

theorem sub_lt {n m : U256} : n.val - m.val < U256.size := Nat.lt_of_le_of_lt (Nat.sub_le _ _) n.lt

theorem sub_run {d : Db} (hd : d.cur.Dec) (o : Bytes) (a : U256) :
    (a.val ≤ (d.cur.amt o).val ∧
      sub o a d = ⟨.ok (), d.insert o (encode ⟨(d.cur.amt o).val - a.val, sub_lt⟩),
        [d.insert o (encode ⟨(d.cur.amt o).val - a.val, sub_lt⟩)]⟩) ∨
    ((d.cur.amt o).val < a.val ∧ sub o a d = ⟨.panic .unwrap, d, []⟩) := by
  by_cases h : (d.cur.amt o).val < a.val
  · right
    refine ⟨h, ?_⟩
    unfold sub
    rw [transact_err (e := .txnAbort)]
    simp only [subClosure, hd.balance, Outcome.ok_bind, if_pos h]
  · left
    refine ⟨by omega, ?_⟩
    unfold sub
    rw [transact_ok (m := d.cur.insert o (encode ⟨(d.cur.amt o).val - a.val, sub_lt⟩))]
    · rfl
    · simp only [subClosure, hd.balance, Outcome.ok_bind, if_neg h, U256.sub]
      rw [if_pos (by omega)]
      rfl

/-- The contents after a transfer. -/
def moved (m : KV) (s t : Bytes) (a : U256) (h : (m.amt t).val + a.val < U256.size) : KV :=
  (m.insert s (encode ⟨(m.amt s).val - a.val, sub_lt⟩)).insert t (encode ⟨_, h⟩)

theorem transfer_run {d : Db} (hd : d.cur.Dec) (s t : Bytes) (a : U256) :
    (a.val ≤ (d.cur.amt s).val ∧ ∃ h : (d.cur.amt t).val + a.val < U256.size,
      transfer s t a d = ⟨.ok (), d.commit (fun _ => moved d.cur s t a h),
        [d.commit (fun _ => moved d.cur s t a h)]⟩) ∨
    ((d.cur.amt s).val < a.val ∧ transfer s t a d = ⟨.panic .unwrap, d, []⟩) ∨
    (a.val ≤ (d.cur.amt s).val ∧ ¬ (d.cur.amt t).val + a.val < U256.size ∧
      transfer s t a d = ⟨.panic .overflow, d, []⟩) := by
  by_cases h : (d.cur.amt s).val < a.val
  · right; left
    refine ⟨h, ?_⟩
    unfold transfer
    rw [transact_err (e := .txnAbort)]
    simp only [transferClosure, hd.balance, Outcome.ok_bind, if_pos h]
  · have hs : (d.cur.amt s).sub a = .ok ⟨(d.cur.amt s).val - a.val, sub_lt⟩ := by
      unfold U256.sub
      rw [if_pos (by omega)]
    by_cases ht : (d.cur.amt t).val + a.val < U256.size
    · left
      refine ⟨by omega, ht, ?_⟩
      unfold transfer
      rw [transact_ok (m := moved d.cur s t a ht)]
      simp only [transferClosure, hd.balance, Outcome.ok_bind, if_neg h, hs, U256.add, dif_pos ht]
      rfl
    · right; right
      refine ⟨by omega, ht, ?_⟩
      unfold transfer
      rw [transact_panic (p := .overflow)]
      simp only [transferClosure, hd.balance, Outcome.ok_bind, if_neg h, hs, U256.add, dif_neg ht, Outcome.panic_bind]

theorem moved_dec {m : KV} (hm : m.Dec) (s t : Bytes) (a : U256) (h : (m.amt t).val + a.val < U256.size) :
    (moved m s t a h).Dec := (hm.insert _ _).insert _ _

theorem moved_amt (m : KV) {s t : Bytes} (hst : s ≠ t) (a : U256) (h : (m.amt t).val + a.val < U256.size) (q : Bytes) :
    ((moved m s t a h).amt q).val = if q = s then (m.amt s).val - a.val else
      if q = t then (m.amt t).val + a.val else (m.amt q).val := by
  unfold moved
  rw [KV.amt_insert, KV.amt_insert]
  by_cases h1 : q = s
  · subst h1
    rw [if_neg (fun e => hst e.symm), if_pos rfl, if_pos rfl]
  · rw [if_neg h1, if_neg (fun e : s = q => h1 e.symm)]
    by_cases h2 : q = t
    · subst h2; simp
    · rw [if_neg h2, if_neg (fun e : t = q => h2 e.symm)]

theorem moved_supply (m : KV) {s t : Bytes} (hst : s ≠ t) (a : U256) (h : (m.amt t).val + a.val < U256.size)
    (ha : a.val ≤ (m.amt s).val) : (moved m s t a h).supply = m.supply := by
  unfold moved
  have h1 := m.supply_insert s ⟨(m.amt s).val - a.val, sub_lt⟩
  have h2 := (m.insert s (encode ⟨(m.amt s).val - a.val, sub_lt⟩)).supply_insert t ⟨_, h⟩
  rw [KV.amt_insert, if_neg hst] at h2
  simp only at h1 h2
  omega

end Ledger

/-! ## What all states of a database satisfy -/

/-- The current contents and everything a crash may leave satisfy `P`. -/
def Db.All (P : KV → Prop) (d : Db) : Prop := P d.cur ∧ ∀ m ∈ d.recov, P m

theorem Db.All.commit {P : KV → Prop} {d : Db} (h : d.All P) {f : KV → KV} (hf : P (f d.cur)) : (d.commit f).All P :=
  ⟨hf, fun m hm => by
    rcases List.mem_cons.mp hm with rfl | hm
    · exact hf
    · exact h.2 m hm⟩

theorem Db.All.flush {P : KV → Prop} {d : Db} (h : d.All P) : d.flush.All P :=
  ⟨h.1, fun m hm => by rw [List.mem_singleton.mp hm]; exact h.1⟩

theorem Db.all_open {P : KV → Prop} {m : KV} (h : P m) : (Db.open' m).All P :=
  ⟨h, fun m' hm => by rw [List.mem_singleton.mp hm]; exact h⟩

/-- Entries of the transaction store: a transaction under the hash of its bytes. -/
def TxKeyed (E : Env) (m : KV) : Prop :=
  ∀ k v, m.get k = some v → k = (E.sha256 v).val ∧ ∃ t : Transaction, v = t.dump

/-- What the databases of a node always satisfy. -/
structure StoreInv (E : Env) (t : Tree) : Prop where
  txs : t.main.transactions.All (TxKeyed E)
  summary : t.summary.All KV.Dec
  oldSummary : t.oldSummary.All KV.Dec
  gas : t.gas.All KV.Dec
  oldGas : t.oldGas.All KV.Dec

theorem Act.inv_preord {σ : Type} (P : σ → Prop) : Act.PreOrd (fun s t => P s → P t) :=
  ⟨fun _ h => h, fun h1 h2 h => h2 (h1 h)⟩

theorem Ledger.add_all (o : Bytes) (a : U256) : Act.Rel (fun x y : Db => x.All KV.Dec → y.All KV.Dec) (Ledger.add o a) := by
  intro d
  refine ⟨fun h => ?_, fun t ht h => ?_⟩ <;> rcases Ledger.add_run h.1 o a with ⟨hlt, e⟩ | ⟨hlt, e⟩
  · rw [e]; exact h.commit (h.1.insert _ _)
  · rw [e]; exact h
  · rw [e] at ht; rw [List.mem_singleton.mp ht]; exact h.commit (h.1.insert _ _)
  · rw [e] at ht; simp at ht

theorem Ledger.sub_all (o : Bytes) (a : U256) : Act.Rel (fun x y : Db => x.All KV.Dec → y.All KV.Dec) (Ledger.sub o a) := by
  intro d
  refine ⟨fun h => ?_, fun t ht h => ?_⟩ <;> rcases Ledger.sub_run h.1 o a with ⟨hlt, e⟩ | ⟨hlt, e⟩
  · rw [e]; exact h.commit (h.1.insert _ _)
  · rw [e]; exact h
  · rw [e] at ht; rw [List.mem_singleton.mp ht]; exact h.commit (h.1.insert _ _)
  · rw [e] at ht; simp at ht

theorem Ledger.transfer_all (s t : Bytes) (a : U256) :
    Act.Rel (fun x y : Db => x.All KV.Dec → y.All KV.Dec) (Ledger.transfer s t a) := by
  intro d
  refine ⟨fun h => ?_, fun x hx h => ?_⟩ <;>
    rcases Ledger.transfer_run h.1 s t a with ⟨_, hlt, e⟩ | ⟨_, e⟩ | ⟨_, _, e⟩
  · rw [e]; exact h.commit (moved_dec h.1 _ _ _ _)
  · rw [e]; exact h
  · rw [e]; exact h
  · rw [e] at hx; rw [List.mem_singleton.mp hx]; exact h.commit (moved_dec h.1 _ _ _ _)
  · rw [e] at hx; simp at hx
  · rw [e] at hx; simp at hx

theorem Ledger.set_all (o : Bytes) (a : U256) : Act.Rel (fun x y : Db => x.All KV.Dec → y.All KV.Dec) (Ledger.set o a) := by
  intro d
  rw [Ledger.set_run]
  exact ⟨fun h => h.commit (h.1.insert _ _), fun t ht h => by
    rw [List.mem_singleton.mp ht]; exact h.commit (h.1.insert _ _)⟩

section
variable {E : Env}

theorem storeInv_onSummary {x : Act Db Unit} (hx : Act.Rel (fun x y : Db => x.All KV.Dec → y.All KV.Dec) x) :
    Act.Rel (fun s t => StoreInv E s → StoreInv E t) (Tree.onSummary x) :=
  Act.rel_zoom hx fun _ _ h1 h2 => ⟨h2.txs, h1 h2.summary, h2.oldSummary, h2.gas, h2.oldGas⟩

theorem storeInv_onGas {x : Act Db Unit} (hx : Act.Rel (fun x y : Db => x.All KV.Dec → y.All KV.Dec) x) :
    Act.Rel (fun s t => StoreInv E s → StoreInv E t) (Tree.onGas x) :=
  Act.rel_zoom hx fun _ _ h1 h2 => ⟨h2.txs, h2.summary, h2.oldSummary, h1 h2.gas, h2.oldGas⟩

theorem storeInv_onMain {α : Type} {x : Act MainChain α}
    (hx : Act.Rel (fun x y : MainChain => x.transactions.All (TxKeyed E) → y.transactions.All (TxKeyed E)) x) :
    Act.Rel (fun s t => StoreInv E s → StoreInv E t) (Tree.onMain x) :=
  Act.rel_zoom hx fun _ _ h1 h2 => ⟨h1 h2.txs, h2.summary, h2.oldSummary, h2.gas, h2.oldGas⟩

theorem storeInv_onDeriv {α : Type} (o : Address) (x : Act DerivativeChain α) :
    Act.Rel (fun s t => StoreInv E s → StoreInv E t) (Tree.onDeriv o x) :=
  Act.rel_zoom (Act.rel_true x) fun _ _ _ h => ⟨h.txs, h.summary, h.oldSummary, h.gas, h.oldGas⟩

theorem mainAddBlock_txs (b : Block) :
    Act.Rel (fun x y : MainChain => y.transactions = x.transactions) (MainChain.addBlock E b) :=
  Act.rel_zoom (Q := fun x y : MainChain => y.transactions = x.transactions) (part := fun m : MainChain => m.chain)
    (put := fun c m => { m with chain := c }) (Act.rel_true (Chain.addBlock E b.info.height b.dump)) fun _ _ _ => rfl

theorem TxKeyed.insert {m : KV} (h : TxKeyed E m) (t : Transaction) :
    TxKeyed E (m.insert (E.sha256 t.dump).val t.dump) := by
  intro k v hk
  rw [KV.get_insert] at hk
  split at hk
  · rename_i e; cases hk; exact ⟨e.symm, t, rfl⟩
  · exact h k v hk

theorem mainAddTx_keyed (t : Transaction) :
    Act.Rel (fun x y : MainChain => x.transactions.All (TxKeyed E) → y.transactions.All (TxKeyed E))
      (MainChain.addTransaction E t) :=
  Act.rel_step fun _ h => h.commit (h.1.insert t)

theorem mainFlush_keyed :
    Act.Rel (fun x y : MainChain => x.transactions.All (TxKeyed E) → y.transactions.All (TxKeyed E)) MainChain.flush := by
  have C := Act.rel_closed (Act.inv_preord (fun x : MainChain => x.transactions.All (TxKeyed E)))
  have W : ∀ f, Act.Rel (fun x y : MainChain => x.transactions.All (TxKeyed E) → y.transactions.All (TxKeyed E))
      (MainChain.writeConfig f) := fun f => Act.rel_step fun _ h => h
  unfold MainChain.flush MainChain.dumpConfig
  exact C.bind (C.bind (W _) fun _ => C.bind (W _) fun _ => W _) fun _ =>
    C.bind (Act.rel_step fun _ h => h) fun _ => C.bind (Act.rel_step fun _ h => h) fun _ =>
      Act.rel_step fun _ h => h.flush

theorem flush_storeInv : Act.Rel (fun s t => StoreInv E s → StoreInv E t) Tree.flush := by
  have C := Act.rel_closed (Act.inv_preord (StoreInv E))
  unfold Tree.flush
  refine C.bind (storeInv_onMain mainFlush_keyed) fun _ => ?_
  refine C.bind (Act.rel_step fun _ h => ⟨h.txs, h.summary.flush, h.oldSummary, h.gas, h.oldGas⟩) fun _ => ?_
  refine C.bind (Act.rel_step fun _ h => ⟨h.txs, h.summary, h.oldSummary.flush, h.gas, h.oldGas⟩) fun _ => ?_
  refine C.bind (Act.rel_step fun _ h => ⟨h.txs, h.summary, h.oldSummary, h.gas.flush, h.oldGas⟩) fun _ => ?_
  exact Act.rel_step fun _ h => ⟨h.txs, h.summary, h.oldSummary, h.gas, h.oldGas.flush⟩

theorem rotate_storeInv : Act.Rel (fun s t => StoreInv E s → StoreInv E t) Tree.rotateDbs := by
  have C := Act.rel_closed (Act.inv_preord (StoreInv E))
  unfold Tree.rotateDbs
  refine C.bind flush_storeInv fun _ => ?_
  refine C.bind (Act.rel_step fun _ h => ⟨h.txs, h.summary, Db.all_open KV.dec_empty, h.gas, h.oldGas⟩) fun _ => ?_
  refine C.bind (Act.rel_step fun _ h => ⟨h.txs, h.summary, h.oldSummary, h.gas, Db.all_open KV.dec_empty⟩) fun _ => ?_
  refine C.bind (Act.rel_step fun _ h => ⟨h.txs, h.summary, Db.all_open h.summary.1, h.gas, h.oldGas⟩) fun _ => ?_
  exact Act.rel_step fun _ h => ⟨h.txs, h.summary, h.oldSummary, h.gas, Db.all_open h.gas.1⟩

theorem getDeriv_storeInv (o : Address) :
    Act.Rel (fun s t => StoreInv E s → StoreInv E t) (Tree.getDerivativeChain E o) := by
  have C := Act.rel_closed (Act.inv_preord (StoreInv E))
  unfold Tree.getDerivativeChain
  refine C.bind C.get fun _ => ?_
  split
  · exact C.pure _
  · exact C.bind (C.lift _) fun _ => C.bind (C.lift _) fun _ => C.bind (C.lift _) fun _ =>
      Act.rel_step fun _ h => ⟨h.txs, h.summary, h.oldSummary, h.gas, h.oldGas⟩

theorem storeInv_prims : Prims E (fun _ => True)
    (fun {α} (x : Act Tree α) => Act.Rel (fun s t => StoreInv E s → StoreInv E t) x) :=
  ⟨fun b _ => storeInv_onMain ((mainAddBlock_txs b).mono fun _ _ h1 h2 => by rw [h1]; exact h2),
    fun t => storeInv_onMain (mainAddTx_keyed t), storeInv_onMain mainFlush_keyed,
    fun _ _ => storeInv_onSummary (Ledger.add_all _ _), fun _ _ => storeInv_onSummary (Ledger.set_all _ _),
    fun _ _ => storeInv_onSummary (Ledger.sub_all _ _), fun _ _ _ _ => storeInv_onSummary (Ledger.transfer_all _ _ _),
    fun _ _ => storeInv_onGas (Ledger.add_all _ _), fun _ _ => storeInv_onGas (Ledger.sub_all _ _),
    fun _ _ _ => storeInv_onGas (Ledger.transfer_all _ _ _), flush_storeInv, rotate_storeInv, getDeriv_storeInv,
    fun _ _ => storeInv_onDeriv _ _, fun _ => storeInv_onDeriv _ _⟩

end

theorem Op.storeInv (E : Env) (op : Op) : Act.Rel (fun s t => StoreInv E s → StoreInv E t) (op.run E) :=
  Op.sat storeInv_prims (Act.rel_closed (Act.inv_preord _)) op op.adds_true

theorem run_storeInv {E : Env} {A : Op → Prop} {s : Tree} (hr : RunWith E A s) : StoreInv E s := by
  induction hr with
  | fresh =>
    rw [(openTree_fresh E).2]
    have hk : TxKeyed E KV.empty := fun k v h => by simp at h
    exact ⟨Db.all_open hk, (Db.all_open KV.dec_empty).commit (KV.dec_empty.insert _ _), Db.all_open KV.dec_empty,
      Db.all_open KV.dec_empty, Db.all_open KV.dec_empty⟩
  | call s op _ _ ih => exact (Op.storeInv E op s).1 ih

end BCT
