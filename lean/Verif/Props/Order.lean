import Verif.Props.RedoDeriv
/-!
# C177: what accepted calls come to does not depend on their order
-/

namespace BCT.Props
open BCT

/-! ## Statement -/

/-- Calls that move coins or gas by an amount, or store transactions. -/
def Op.Adding : Op → Prop
  | .addAmount .. | .subAmount .. | .sendAmount .. | .addGas .. | .subGas .. | .sendGas .. | .sendTransaction _
  | .addTransaction _ | .addTransactions _ => True
  | _ => False

/-- Each of the calls, one after the other, is accepted. -/
def AllAccepted (E : Env) : Tree → List Op → Prop
  | _, [] => True
  | s, op :: ops => (op.run E s).out = .ok () ∧ AllAccepted E (op.run E s).final ops

/-- What moving `n` from `a` to `b` adds to the account `k`. -/
def moveDelta (a b : Bytes) (n : Nat) (k : Bytes) : Int :=
  if a = b then 0 else if k = a then -n else if k = b then n else 0

/-- What a call that is accepted adds to the coins of the account `k`. -/
def coinDelta : Op → Bytes → Int
  | .addAmount o a, k => if k = o then a.val else 0
  | .subAmount o a, k => if k = o then -a.val else 0
  | .sendAmount a b n, k => moveDelta a b n.val k
  | .sendTransaction tx, k => moveDelta tx.sender.val tx.receiver.val tx.amount.val k
  | _, _ => 0

/-- What a call that is accepted adds to the gas of the account `k`. Gas sent to oneself is gained. -/
def gasDelta : Op → Bytes → Int
  | .addGas o a, k => if k = o then a.val else 0
  | .subGas o a, k => if k = o then -a.val else 0
  | .sendGas a b n, k => if a = b then (if k = a then n.val else 0) else moveDelta a b n.val k
  | .sendTransaction tx, k => if k = tx.sender.val then -(625000000000 * tx.getDumpSize : Nat) else 0
  | _, _ => 0

/-- The transactions a call stores. -/
def Op.stores : Op → List Transaction
  | .sendTransaction tx | .addTransaction tx => [tx]
  | .addTransactions txs => txs
  | _ => []

/-! ## Ledgers -/

/-- The accounts a call writes to. -/
def coinNames : Op → List Bytes
  | .addAmount o _ | .subAmount o _ => [o]
  | .sendAmount a b _ => if a = b then [] else [a, b]
  | .sendTransaction tx => if tx.sender.val = tx.receiver.val then [] else [tx.sender.val, tx.receiver.val]
  | _ => []

def gasNames : Op → List Bytes
  | .addGas o _ | .subGas o _ => [o]
  | .sendGas a b _ => [a, b]
  | .sendTransaction tx => [tx.sender.val]
  | _ => []

/-- The accounts `l` are written, each changing by `δ`. -/
def Shift (m m' : KV) (l : List Bytes) (δ : Bytes → Int) : Prop :=
  ∀ k, if k ∈ l then ∃ n : U256, m'.get k = some (Ledger.encode n) ∧ (n.val : Int) = (m.amt k).val + δ k
    else m'.get k = m.get k ∧ δ k = 0

theorem amt_encoded {m : KV} {k : Bytes} {n : U256} (h : m.get k = some (Ledger.encode n)) : m.amt k = n := by
  unfold KV.amt
  rw [h, Ledger.balance_encode]

theorem amt_congr {m m' : KV} {k : Bytes} (h : m'.get k = m.get k) : m'.amt k = m.amt k := by
  unfold KV.amt
  rw [h]

theorem Shift.refl (m : KV) : Shift m m [] fun _ => 0 := fun k => by simp

theorem Shift.trans {m m' m'' : KV} {l l' : List Bytes} {δ δ' : Bytes → Int} (h : Shift m m' l δ) (h' : Shift m' m'' l' δ') :
    Shift m m'' (l ++ l') fun k => δ k + δ' k := by
  intro k
  have a := h k
  have b := h' k
  by_cases h1 : k ∈ l
  · rw [if_pos h1] at a
    obtain ⟨n, a1, a2⟩ := a
    rw [if_pos (List.mem_append_left _ h1)]
    by_cases h2 : k ∈ l'
    · rw [if_pos h2, amt_encoded a1] at b
      obtain ⟨n', b1, b2⟩ := b
      exact ⟨n', b1, by simp only; omega⟩
    · rw [if_neg h2] at b
      exact ⟨n, b.1.trans a1, by simp only; omega⟩
  · rw [if_neg h1] at a
    by_cases h2 : k ∈ l'
    · rw [if_pos (List.mem_append_right _ h2)]
      rw [if_pos h2, amt_congr a.1] at b
      obtain ⟨n', b1, b2⟩ := b
      exact ⟨n', b1, by simp only; omega⟩
    · rw [if_neg h2] at b
      rw [if_neg (by simp [h1, h2])]
      exact ⟨b.1.trans a.1, by simp only; omega⟩

theorem Shift.amt {m m' : KV} {l : List Bytes} {δ : Bytes → Int} (h : Shift m m' l δ) (k : Bytes) :
    ((m'.amt k).val : Int) = (m.amt k).val + δ k := by
  have a := h k
  split at a
  · obtain ⟨n, a1, a2⟩ := a
    rw [amt_encoded a1]; exact a2
  · rw [amt_congr a.1]; omega

theorem Shift.unique {m m₁ m₂ : KV} {l₁ l₂ : List Bytes} {δ₁ δ₂ : Bytes → Int} (h₁ : Shift m m₁ l₁ δ₁) (h₂ : Shift m m₂ l₂ δ₂)
    (hl : ∀ k, k ∈ l₁ ↔ k ∈ l₂) (hδ : ∀ k, δ₁ k = δ₂ k) : m₂ = m₁ := by
  refine KV.ext_get fun k => ?_
  have a := h₁ k
  have b := h₂ k
  by_cases hk : k ∈ l₁
  · rw [if_pos hk] at a
    rw [if_pos ((hl k).mp hk)] at b
    obtain ⟨n, a1, a2⟩ := a
    obtain ⟨n', b1, b2⟩ := b
    have : n' = n := by
      have := hδ k
      have e : n'.val = n.val := by omega
      cases n; cases n'; cases e; rfl
    rw [a1, b1, this]
  · rw [if_neg hk] at a
    rw [if_neg fun h => hk ((hl k).mpr h)] at b
    exact b.1.trans a.1.symm

theorem shift_insert (m : KV) (o : Bytes) (n : U256) (δ : Int) (h : (n.val : Int) = (m.amt o).val + δ) :
    Shift m (m.insert o (Ledger.encode n)) [o] fun k => if k = o then δ else 0 := by
  intro k
  rw [KV.get_insert]
  by_cases hk : k = o
  · subst hk
    rw [if_pos (List.mem_singleton.mpr rfl), if_pos rfl]
    exact ⟨n, rfl, by simp only; exact h⟩
  · rw [if_neg (by simpa using hk), if_neg fun e => hk e.symm]
    exact ⟨rfl, if_neg hk⟩

theorem shift_moved {m : KV} {a b : Bytes} {n : U256} (hab : a ≠ b) (hle : n.val ≤ (m.amt a).val)
    (hlt : (m.amt b).val + n.val < U256.size) : Shift m (Ledger.moved m a b n hlt) [a, b] (moveDelta a b n.val) := by
  intro k
  unfold Ledger.moved moveDelta
  rw [KV.get_insert, KV.get_insert, if_neg hab]
  by_cases hb : k = b
  · subst hb
    rw [if_pos (by simp), if_pos rfl, if_neg fun e => hab e.symm, if_pos rfl]
    exact ⟨_, rfl, by simp⟩
  · by_cases ha : k = a
    · subst ha
      rw [if_pos (by simp), if_neg fun e => hb e.symm, if_pos rfl, if_pos rfl]
      exact ⟨_, rfl, by simp only; omega⟩
    · rw [if_neg (by simp [ha, hb]), if_neg fun e => hb e.symm, if_neg fun e => ha e.symm, if_neg ha, if_neg hb]
      exact ⟨rfl, rfl⟩

theorem shift_moved_self {m : KV} {a : Bytes} {n : U256} (hlt : (m.amt a).val + n.val < U256.size) :
    Shift m (Ledger.moved m a a n hlt) [a, a] fun k => if k = a then (n.val : Int) else 0 := by
  intro k
  unfold Ledger.moved
  rw [KV.get_insert, KV.get_insert]
  by_cases ha : k = a
  · subst ha
    rw [if_pos (by simp), if_pos rfl]
    exact ⟨_, rfl, by simp⟩
  · rw [if_neg (by simp [ha]), if_neg fun e => ha e.symm, if_neg fun e => ha e.symm]
    exact ⟨rfl, if_neg ha⟩

/-! ## One call -/

theorem coins_shift {E : Env} {s : Tree} (hi : StoreInv E s) {op : Op} (ha : Op.Adding op) (ho : (op.run E s).out = .ok ()) :
    Shift s.summary.cur (op.run E s).final.summary.cur (coinNames op) (coinDelta op) := by
  have idle : ¬ mayChange op .coins → coinNames op = [] → (coinDelta op = fun _ => 0) →
      Shift s.summary.cur (op.run E s).final.summary.cur (coinNames op) (coinDelta op) := by
    intro h1 h2 h3
    have h4 : (op.run E s).final.summary.cur = s.summary.cur := (C104_frame E op .coins h1 s).1
    rw [h2, h3, h4]
    exact Shift.refl _
  cases op with
  | addAmount o a =>
    have e : (Op.addAmount o a).run E s = Tree.onSummary (Ledger.add o a) s := rfl
    rw [e] at ho ⊢
    unfold Tree.onSummary at ho ⊢
    rw [Act.zoom_run] at ho ⊢
    rcases Ledger.add_run hi.summary.1 o a with ⟨hlt, e⟩ | ⟨_, e⟩ <;> rw [e] at ho ⊢
    · exact shift_insert _ _ _ _ (by simp)
    · cases ho
  | subAmount o a =>
    have e : (Op.subAmount o a).run E s = Tree.onSummary (Ledger.sub o a) s := rfl
    rw [e] at ho ⊢
    unfold Tree.onSummary at ho ⊢
    rw [Act.zoom_run] at ho ⊢
    rcases Ledger.sub_run hi.summary.1 o a with ⟨hle, e⟩ | ⟨_, e⟩ <;> rw [e] at ho ⊢
    · exact shift_insert _ _ _ _ (by simp only; omega)
    · cases ho
  | sendAmount a b n =>
    have e : (Op.sendAmount a b n).run E s = Tree.sendAmount a b n s := rfl
    rw [e] at ho ⊢
    unfold Tree.sendAmount at ho ⊢
    by_cases hab : a = b
    · rw [if_pos hab]
      have h1 : coinNames (.sendAmount a b n) = [] := if_pos hab
      have h2 : coinDelta (.sendAmount a b n) = fun _ => 0 := funext fun k => if_pos hab
      rw [h1, h2]
      exact Shift.refl _
    · rw [if_neg hab] at ho ⊢
      unfold Tree.onSummary at ho ⊢
      rw [Act.zoom_run] at ho ⊢
      rcases Ledger.transfer_run hi.summary.1 a b n with ⟨h, hlt, e⟩ | ⟨h, e⟩ | ⟨h, hlt, e⟩ <;> rw [e] at ho ⊢
      · have h1 : coinNames (.sendAmount a b n) = [a, b] := if_neg hab
        rw [h1]
        exact shift_moved hab h hlt
      · cases ho
      · cases ho
  | sendTransaction tx =>
    rw [send_op] at ho ⊢
    rcases sendTransaction_cases E s tx hi.summary.1 hi.gas.1 with ⟨l, fee, h, ha, h1, h2, _⟩ | ⟨_, _, _, _, _, e⟩ | ⟨_, o, hn, e⟩
    · rw [h2]
      show Shift _ (paid s.summary tx h).cur _ _
      unfold paid
      by_cases hs : tx.sender = tx.receiver
      · rw [dif_pos hs]
        have h1 : coinNames (.sendTransaction tx) = [] := if_pos (congrArg _ hs)
        have h2 : coinDelta (.sendTransaction tx) = fun _ => 0 := funext fun k => if_pos (congrArg _ hs)
        rw [h1, h2]
        exact Shift.refl _
      · have hs' : tx.sender.val ≠ tx.receiver.val := fun e => hs (Subtype.ext e)
        rw [dif_neg hs]
        have h1 : coinNames (.sendTransaction tx) = [tx.sender.val, tx.receiver.val] := if_neg hs'
        rw [h1]
        have := ha.coins
        exact shift_moved hs' (by omega) _
    · rw [e] at ho; cases ho
    · rw [e] at ho; exact absurd ho (hn ())
  | addTransaction _ => exact idle (by simp [mayChange]) rfl rfl
  | addTransactions _ => exact idle (by simp [mayChange]) rfl rfl
  | addGas _ _ => exact idle (by simp [mayChange]) rfl rfl
  | subGas _ _ => exact idle (by simp [mayChange]) rfl rfl
  | sendGas _ _ _ => exact idle (by simp [mayChange]) rfl rfl
  | _ => exact ha.elim

theorem gas_shift {E : Env} {s : Tree} (hi : StoreInv E s) {op : Op} (ha : Op.Adding op) (ho : (op.run E s).out = .ok ()) :
    Shift s.gas.cur (op.run E s).final.gas.cur (gasNames op) (gasDelta op) := by
  have idle : ¬ mayChange op .gas → gasNames op = [] → (gasDelta op = fun _ => 0) →
      Shift s.gas.cur (op.run E s).final.gas.cur (gasNames op) (gasDelta op) := by
    intro h1 h2 h3
    have h4 : (op.run E s).final.gas.cur = s.gas.cur := (C104_frame E op .gas h1 s).1
    rw [h2, h3, h4]
    exact Shift.refl _
  cases op with
  | addGas o a =>
    have e : (Op.addGas o a).run E s = Tree.onGas (Ledger.add o a) s := rfl
    rw [e] at ho ⊢
    unfold Tree.onGas at ho ⊢
    rw [Act.zoom_run] at ho ⊢
    rcases Ledger.add_run hi.gas.1 o a with ⟨hlt, e⟩ | ⟨_, e⟩ <;> rw [e] at ho ⊢
    · exact shift_insert _ _ _ _ (by simp)
    · cases ho
  | subGas o a =>
    have e : (Op.subGas o a).run E s = Tree.onGas (Ledger.sub o a) s := rfl
    rw [e] at ho ⊢
    unfold Tree.onGas at ho ⊢
    rw [Act.zoom_run] at ho ⊢
    rcases Ledger.sub_run hi.gas.1 o a with ⟨hle, e⟩ | ⟨_, e⟩ <;> rw [e] at ho ⊢
    · exact shift_insert _ _ _ _ (by simp only; omega)
    · cases ho
  | sendGas a b n =>
    rw [sendGas_op] at ho ⊢
    rcases Ledger.transfer_run hi.gas.1 a b n with ⟨h, hlt, e⟩ | ⟨h, e⟩ | ⟨h, hlt, e⟩ <;> rw [e] at ho ⊢
    · by_cases hab : a = b
      · subst hab
        have h2 : gasDelta (.sendGas a a n) = fun k => if k = a then (n.val : Int) else 0 := funext fun k => if_pos rfl
        rw [h2]
        exact shift_moved_self hlt
      · have h2 : gasDelta (.sendGas a b n) = moveDelta a b n.val := funext fun k => if_neg hab
        rw [h2]
        exact shift_moved hab h hlt
    · cases ho
    · cases ho
  | sendTransaction tx =>
    rw [send_op] at ho ⊢
    rcases sendTransaction_cases E s tx hi.summary.1 hi.gas.1 with ⟨l, fee, h, ha, h1, h2, _⟩ | ⟨_, _, _, _, _, e⟩ | ⟨_, o, hn, e⟩
    · rw [h2]
      have h3 := ha.gas
      have h5 : gasCost tx = 625000000000 * tx.getDumpSize := rfl
      refine shift_insert _ _ _ _ ?_
      simp only
      omega
    · rw [e] at ho; cases ho
    · rw [e] at ho; exact absurd ho (hn ())
  | addTransaction _ => exact idle (by simp [mayChange]) rfl rfl
  | addTransactions _ => exact idle (by simp [mayChange]) rfl rfl
  | addAmount _ _ => exact idle (by simp [mayChange]) rfl rfl
  | subAmount _ _ => exact idle (by simp [mayChange]) rfl rfl
  | sendAmount _ _ _ => exact idle (by simp [mayChange]) rfl rfl
  | _ => exact ha.elim

/-- Each of the transactions `l` is stored under its hash. -/
def FiledTxs (E : Env) (m m' : KV) (l : List Transaction) : Prop :=
  ∀ k, (∃ tx ∈ l, (E.sha256 tx.dump).val = k ∧ m'.get k = some tx.dump) ∨
    ((∀ tx ∈ l, (E.sha256 tx.dump).val ≠ k) ∧ m'.get k = m.get k)

theorem FiledTxs.refl (E : Env) (m : KV) : FiledTxs E m m [] := fun k => .inr ⟨(fun _ h => by cases h), rfl⟩

theorem FiledTxs.trans {E : Env} {m m' m'' : KV} {l l' : List Transaction} (h : FiledTxs E m m' l) (h' : FiledTxs E m' m'' l') :
    FiledTxs E m m'' (l ++ l') := by
  intro k
  rcases h' k with ⟨tx, h1, h2, h3⟩ | ⟨h1, h2⟩
  · exact .inl ⟨tx, List.mem_append_right _ h1, h2, h3⟩
  · rcases h k with ⟨tx, g1, g2, g3⟩ | ⟨g1, g2⟩
    · exact .inl ⟨tx, List.mem_append_left _ g1, g2, h2.trans g3⟩
    · exact .inr ⟨fun tx ht => (List.mem_append.mp ht).elim (g1 tx) (h1 tx), h2.trans g2⟩

theorem filed_one (E : Env) (m : KV) (tx : Transaction) : FiledTxs E m (m.insert (E.sha256 tx.dump).val tx.dump) [tx] := by
  intro k
  rw [KV.get_insert]
  by_cases h : (E.sha256 tx.dump).val = k
  · exact .inl ⟨tx, List.mem_singleton.mpr rfl, h, if_pos h⟩
  · exact .inr ⟨fun u hu => by rw [List.mem_singleton.mp hu]; exact h, if_neg h⟩

theorem filed_all (E : Env) (txs : List Transaction) (s : Tree) :
    FiledTxs E s.main.transactions.cur (Tree.onMain (MainChain.addTransactions E txs) s).final.main.transactions.cur txs := by
  unfold Tree.onMain MainChain.addTransactions
  rw [Act.zoom_forEach onMain_lens]
  induction txs generalizing s with
  | nil => exact FiledTxs.refl _ _
  | cons u ts ih => exact (filed_one E _ u).trans (ih _)

theorem txs_step {E : Env} {s : Tree} (hi : StoreInv E s) {op : Op} (ha : Op.Adding op) (ho : (op.run E s).out = .ok ()) :
    FiledTxs E s.main.transactions.cur (op.run E s).final.main.transactions.cur (Op.stores op) := by
  have idle : ¬ mayChange op .transactions → Op.stores op = [] →
      FiledTxs E s.main.transactions.cur (op.run E s).final.main.transactions.cur (Op.stores op) := by
    intro h1 h2
    have h4 : (op.run E s).final.main.transactions.cur = s.main.transactions.cur := (C104_frame E op .transactions h1 s).1
    rw [h2, h4]
    exact FiledTxs.refl _ _
  cases op with
  | addTransaction tx => exact filed_one E _ tx
  | addTransactions txs => exact filed_all E txs s
  | sendTransaction tx =>
    rw [send_op] at ho ⊢
    rcases sendTransaction_cases E s tx hi.summary.1 hi.gas.1 with ⟨l, fee, h, ha, h1, h2, _⟩ | ⟨_, _, _, _, _, e⟩ | ⟨_, o, hn, e⟩
    · rw [h2]; exact filed_one E _ tx
    · rw [e] at ho; cases ho
    · rw [e] at ho; exact absurd ho (hn ())
  | addGas _ _ => exact idle (by simp [mayChange]) rfl
  | subGas _ _ => exact idle (by simp [mayChange]) rfl
  | sendGas _ _ _ => exact idle (by simp [mayChange]) rfl
  | addAmount _ _ => exact idle (by simp [mayChange]) rfl
  | subAmount _ _ => exact idle (by simp [mayChange]) rfl
  | sendAmount _ _ _ => exact idle (by simp [mayChange]) rfl
  | _ => exact ha.elim

/-! ## Histories -/

theorem history_steps {E : Env} {ops : List Op} (ha : ∀ op ∈ ops, Op.Adding op) : ∀ {s : Tree}, StoreInv E s →
    AllAccepted E s ops →
    Shift s.summary.cur (runAll E s ops).summary.cur (ops.flatMap coinNames) (fun k => (ops.map fun op => coinDelta op k).sum) ∧
    Shift s.gas.cur (runAll E s ops).gas.cur (ops.flatMap gasNames) (fun k => (ops.map fun op => gasDelta op k).sum) ∧
    FiledTxs E s.main.transactions.cur (runAll E s ops).main.transactions.cur (ops.flatMap Op.stores) ∧
    ∀ p : Part, p ≠ .coins → p ≠ .gas → p ≠ .transactions → p.Same s (runAll E s ops) := by
  induction ops with
  | nil => exact fun _ _ => ⟨Shift.refl _, Shift.refl _, FiledTxs.refl _ _, fun p _ _ _ => (same_preord p).refl _⟩
  | cons op ops ih =>
    intro s hi ⟨h1, h2⟩
    have ha1 := ha op List.mem_cons_self
    obtain ⟨i1, i2, i3, i4⟩ := ih (fun o ho => ha o (List.mem_cons_of_mem _ ho)) ((Op.storeInv E op s).1 hi) h2
    refine ⟨(coins_shift hi ha1 h1).trans i1, (gas_shift hi ha1 h1).trans i2, (txs_step hi ha1 h1).trans i3, ?_⟩
    intro p p1 p2 p3
    refine (same_preord p).trans (C104_frame E op p ?_ s).1 (i4 p p1 p2 p3)
    cases op <;> first | exact ha1.elim | simp [mayChange, p1, p2, p3]

theorem perm_sum_int {l l' : List Int} (h : l.Perm l') : l.sum = l'.sum := by
  induction h with
  | nil => rfl
  | cons a _ ih => simp only [List.sum_cons, ih]
  | swap a b l => simp only [List.sum_cons]; omega
  | trans _ _ i1 i2 => exact i1.trans i2

/-! ## Property -/

/-- C177. What calls that are all accepted come to: every account has what it had and what the calls added to it. -/
theorem C177_sum (E : Env) (s : Tree) (hs : Life E (.idle s)) (ops : List Op) (ha : ∀ op ∈ ops, Op.Adding op)
    (ho : AllAccepted E s ops) (f g f' g' : Spec.Accounts) (hf : Shows s.summary f) (hg : Shows s.gas g)
    (hf' : Shows (runAll E s ops).summary f') (hg' : Shows (runAll E s ops).gas g') (k : Bytes) :
    (f' k : Int) = f k + (ops.map fun op => coinDelta op k).sum ∧
    (g' k : Int) = g k + (ops.map fun op => gasDelta op k).sum := by
  obtain ⟨h1, h2, _⟩ := history_steps ha (life_storeInv hs) ho
  rw [shows_eq hf, shows_eq hg, shows_eq hf', shows_eq hg']
  exact ⟨h1.amt k, h2.amt k⟩

/-- C177. The same calls in another order: if all are accepted in both orders, and no two of the transactions collide,
then the node is left the same in every part. -/
theorem C177_order (E : Env) (s : Tree) (hs : Life E (.idle s)) (ops ops' : List Op) (hp : ops.Perm ops')
    (ha : ∀ op ∈ ops, Op.Adding op) (ho : AllAccepted E s ops) (ho' : AllAccepted E s ops')
    (hc : ∀ tx ∈ ops.flatMap Op.stores, ∀ tx' ∈ ops.flatMap Op.stores,
      E.sha256 tx.dump = E.sha256 tx'.dump → tx.dump = tx'.dump) (p : Part) :
    p.Same (runAll E s ops) (runAll E s ops') := by
  have hi := life_storeInv hs
  obtain ⟨a1, a2, a3, a4⟩ := history_steps ha hi ho
  obtain ⟨b1, b2, b3, b4⟩ := history_steps (fun op h => ha op (hp.mem_iff.mpr h)) hi ho'
  have mem : ∀ {β : Type} (f : Op → List β) (x : β), x ∈ ops.flatMap f ↔ x ∈ ops'.flatMap f := by
    intro β f x
    simp only [List.mem_flatMap, hp.mem_iff]
  by_cases p1 : p = .coins
  · subst p1
    exact a1.unique b1 (mem _) fun k => perm_sum_int (hp.map _)
  by_cases p2 : p = .gas
  · subst p2
    exact a2.unique b2 (mem _) fun k => perm_sum_int (hp.map _)
  by_cases p3 : p = .transactions
  · subst p3
    refine KV.ext_get fun k => ?_
    rcases a3 k with ⟨tx, g1, g2, g3⟩ | ⟨g1, g2⟩ <;> rcases b3 k with ⟨tx', q1, q2, q3⟩ | ⟨q1, q2⟩
    · rw [g3, q3, hc tx g1 tx' ((mem _ _).mpr q1) (Subtype.ext (g2.trans q2.symm))]
    · exact absurd g2 (q1 tx ((mem _ _).mp g1))
    · exact absurd q2 (g1 tx' ((mem _ _).mpr q1))
    · rw [g2, q2]
  exact (same_preord p).trans (part_symm (a4 p p1 p2 p3)) (b4 p p1 p2 p3)

theorem addGas_op (E : Env) (s : Tree) (o : Bytes) (a : U256) : (Op.addGas o a).run E s =
    ⟨(Ledger.add o a s.gas).out, { s with gas := (Ledger.add o a s.gas).final },
      (Ledger.add o a s.gas).trace.map (fun d => { s with gas := d })⟩ := rfl

theorem subGas_op (E : Env) (s : Tree) (o : Bytes) (a : U256) : (Op.subGas o a).run E s =
    ⟨(Ledger.sub o a s.gas).out, { s with gas := (Ledger.sub o a s.gas).final },
      (Ledger.sub o a s.gas).trace.map (fun d => { s with gas := d })⟩ := rfl

/-- A node on which an account has no gas: gas can be given and taken, but not taken and given. -/
theorem give_take (E : Env) (s : Tree) (hi : StoreInv E s) (o : Bytes) (h0 : (s.gas.cur.amt o).val = 0) :
    AllAccepted E s [.addGas o U256.one, .subGas o U256.one] ∧ ¬ AllAccepted E s [.subGas o U256.one, .addGas o U256.one] ∧
    ((runAll E s [.addGas o U256.one, .subGas o U256.one]).gas.cur.amt o).val = 0 ∧
    ((runAll E s [.subGas o U256.one, .addGas o U256.one]).gas.cur.amt o).val = 1 := by
  have one : U256.one.val = 1 := rfl
  have size : 1 < U256.size := by decide
  have sub : ((Op.subGas o U256.one).run E s) = ⟨.panic .unwrap, s, []⟩ := by
    rw [subGas_op]
    rcases Ledger.sub_run hi.gas.1 o U256.one with ⟨h, _⟩ | ⟨_, e⟩
    · omega
    · rw [e]; rfl
  obtain ⟨s', hs'⟩ : ∃ s', s' = ((Op.addGas o U256.one).run E s).final := ⟨_, rfl⟩
  have add : ((Op.addGas o U256.one).run E s).out = .ok () ∧ (s'.gas.cur.amt o).val = 1 := by
    rw [hs', addGas_op]
    rcases Ledger.add_run hi.gas.1 o U256.one with ⟨h, e⟩ | ⟨h, _⟩
    · rw [e]
      refine ⟨rfl, ?_⟩
      show ((s.gas.cur.insert o _).amt o).val = 1
      rw [KV.amt_insert, if_pos rfl]
      show (s.gas.cur.amt o).val + U256.one.val = 1
      omega
    · omega
  have hi' : StoreInv E s' := by rw [hs']; exact (Op.storeInv E _ s).1 hi
  have back : ((Op.subGas o U256.one).run E s').out = .ok () ∧ (((Op.subGas o U256.one).run E s').final.gas.cur.amt o).val = 0 := by
    rw [subGas_op]
    rcases Ledger.sub_run hi'.gas.1 o U256.one with ⟨_, e⟩ | ⟨h, _⟩
    · rw [e]
      refine ⟨rfl, ?_⟩
      show ((s'.gas.cur.insert o _).amt o).val = 0
      rw [KV.amt_insert, if_pos rfl]
      show (s'.gas.cur.amt o).val - U256.one.val = 0
      omega
    · omega
  refine ⟨⟨add.1, by rw [← hs']; exact back.1, trivial⟩, fun h => ?_, ?_, ?_⟩
  · have := h.1
    rw [sub] at this
    cases this
  · show ((((Op.subGas o U256.one).run E ((Op.addGas o U256.one).run E s).final).final).gas.cur.amt o).val = 0
    rw [← hs']; exact back.2
  · show (((Op.addGas o U256.one).run E ((Op.subGas o U256.one).run E s).final).final.gas.cur.amt o).val = 1
    rw [sub]
    rw [hs'] at add
    exact add.2

/-- C177. The order may decide which calls are accepted: the same two calls are both accepted in one order, in the other
the first is refused, and the account is left with something else. -/
theorem C177_refused (E : Env) : ∃ s ops ops', Life E (.idle s) ∧ ops.Perm ops' ∧ (∀ op ∈ ops, Op.Adding op) ∧
    AllAccepted E s ops ∧ ¬ AllAccepted E s ops' ∧ ¬ Part.gas.Same (runAll E s ops) (runAll E s ops') := by
  have hi : StoreInv E (openTree E Disk.empty).final := life_storeInv (life_fresh E)
  have h0 : ((openTree E Disk.empty).final.gas.cur.amt ROOT_PUBLIC_ADDRESS.val).val = 0 := by
    rw [(openTree_fresh E).2]; rfl
  obtain ⟨h1, h2, h3, h4⟩ := give_take E _ hi _ h0
  refine ⟨_, _, _, life_fresh E, List.Perm.swap _ _ _, ?_, h1, h2, fun h => ?_⟩
  · intro op ho
    simp only [List.mem_cons, List.not_mem_nil, or_false] at ho
    rcases ho with rfl | rfl <;> exact trivial
  · have h : (_ : KV) = _ := h
    rw [h, h3] at h4
    cases h4

/-- C177. Of the calls on balances, `set_amount` is left out with reason: two of them are accepted in either order, and
what the account is left with depends on it. -/
theorem C177_set (E : Env) (s : Tree) (o : Bytes) (a b : U256) (hab : a ≠ b) :
    AllAccepted E s [.setAmount o a, .setAmount o b] ∧ AllAccepted E s [.setAmount o b, .setAmount o a] ∧
    ¬ Part.coins.Same (runAll E s [.setAmount o a, .setAmount o b]) (runAll E s [.setAmount o b, .setAmount o a]) := by
  have run : ∀ (a : U256) (x : Tree), (Op.setAmount o a).run E x = ⟨.ok (), { x with summary := x.summary.insert o (Ledger.encode a) },
      [{ x with summary := x.summary.insert o (Ledger.encode a) }]⟩ := by
    intro a x
    show Tree.setAmount o a x = _
    unfold Tree.setAmount Tree.onSummary
    rw [Act.zoom_run, Ledger.set_run]
    rfl
  refine ⟨⟨by rw [run], by rw [run], trivial⟩, ⟨by rw [run], by rw [run], trivial⟩, fun h => hab ?_⟩
  have h : ((Op.setAmount o a).run E ((Op.setAmount o b).run E s).final).final.summary.cur =
    ((Op.setAmount o b).run E ((Op.setAmount o a).run E s).final).final.summary.cur := h
  rw [run, run, run, run] at h
  have h' : (KV.insert (KV.insert s.summary.cur o _) o (Ledger.encode a)).amt o =
    (KV.insert (KV.insert s.summary.cur o _) o (Ledger.encode b)).amt o := congrArg (fun m => KV.amt m o) h
  rw [KV.amt_insert, if_pos rfl, KV.amt_insert, if_pos rfl] at h'
  exact h'

/-! ## The hypotheses can be met -/

theorem subAmount_op (E : Env) (s : Tree) (o : Bytes) (a : U256) : (Op.subAmount o a).run E s =
    ⟨(Ledger.sub o a s.summary).out, { s with summary := (Ledger.sub o a s.summary).final },
      (Ledger.sub o a s.summary).trace.map (fun d => { s with summary := d })⟩ := rfl

/-- A transaction and a withdrawal from its sender, accepted in both orders. -/
example : ∃ s ops ops', Life idEnv (.idle s) ∧ ops.Perm ops' ∧ ops ≠ ops' ∧ (∀ op ∈ ops, Op.Adding op) ∧
    AllAccepted idEnv s ops ∧ AllAccepted idEnv s ops' ∧
    (∀ tx ∈ ops.flatMap Op.stores, ∀ tx' ∈ ops.flatMap Op.stores,
      idEnv.sha256 tx.dump = idEnv.sha256 tx'.dump → tx.dump = tx'.dump) ∧
    (ops.map fun op => coinDelta op exTx.sender.val).sum = -1001 := by
  obtain ⟨s, h1, h2, h3, h4, l, h5, h6⟩ := funded idEnv U256.zero
  have one : U256.one.val = 1 := rfl
  have am : exTx.amount.val = 1000 := rfl
  have ha := funded_affordable U256.zero h5 h6 exTx rfl rfl (by decide)
  have fit : ∀ f : Spec.Accounts, f exTx.receiver.val = 0 → f exTx.receiver.val + exTx.amount.val < 2 ^ 256 := by
    intro f h; rw [h]; decide
  have recv : fundedCoins U256.zero exTx.receiver.val = 0 := funded_receiver _
  have ok1 : ((Op.sendTransaction exTx).run idEnv s).out = .ok () :=
    (C53_admission idEnv s exTx _ _ h1 h2 h3).mpr ⟨ha, .inr (fit _ recv)⟩
  have take : ∀ x : Tree, StoreInv idEnv x → 1 ≤ (x.summary.cur.amt exTx.sender.val).val →
      ((Op.subAmount exTx.sender.val U256.one).run idEnv x).out = .ok () ∧
      ((Op.subAmount exTx.sender.val U256.one).run idEnv x).final = { x with
        summary := x.summary.insert exTx.sender.val (Ledger.encode ⟨(x.summary.cur.amt exTx.sender.val).val - U256.one.val, Ledger.sub_lt⟩) } := by
    intro x hx h
    rw [subAmount_op]
    rcases Ledger.sub_run hx.summary.1 exTx.sender.val U256.one with ⟨_, e⟩ | ⟨h, _⟩
    · rw [e]; exact ⟨rfl, rfl⟩
    · omega
  have hi := run_storeInv h1
  have hs : (s.summary.cur.amt exTx.sender.val).val = 1000000000 := by
    have := congrFun (shows_eq h2) exTx.sender.val
    rw [funded_sender] at this
    exact this.symm
  obtain ⟨s1, e1, _, _, c1, _⟩ := (C52_effect idEnv s exTx _ _ h1 h2 h3).1 ok1
  have hs1 : (s1.summary.cur.amt exTx.sender.val).val = 1000000000 - 1000 := by
    have := congrFun (shows_eq c1) exTx.sender.val
    rw [if_neg exTx_ne] at this
    unfold Spec.Accounts.update at this
    rw [if_neg fun e => exTx_ne (Subtype.ext e), if_pos rfl, funded_sender, am] at this
    exact this.symm
  have hi1 : StoreInv idEnv s1 := by rw [← e1]; exact (Op.storeInv idEnv _ s).1 hi
  obtain ⟨t1, t2⟩ := take s hi (by omega)
  refine ⟨s, [.sendTransaction exTx, .subAmount exTx.sender.val U256.one],
    [.subAmount exTx.sender.val U256.one, .sendTransaction exTx], run_life h1, List.Perm.swap _ _ _, by simp, ?_,
    ⟨ok1, by rw [e1]; exact (take s1 hi1 (by omega)).1, trivial⟩, ⟨t1, ?_, trivial⟩, ?_, ?_⟩
  · intro op ho
    simp only [List.mem_cons, List.not_mem_nil, or_false] at ho
    rcases ho with rfl | rfl <;> exact trivial
  · have hr2 : Run idEnv ((Op.subAmount exTx.sender.val U256.one).run idEnv s).final := .call _ _ h1 trivial
    rw [t2] at hr2 ⊢
    have c2 := shows_amt (run_storeInv hr2).summary.1
    obtain ⟨l', fee, a1, a2, a3, a4⟩ := ha
    rw [h5] at a1; cases a1
    rw [h6] at a2; cases a2
    refine (C53_admission idEnv _ exTx _ _ hr2 c2 h3).mpr ⟨⟨l, _, h5, h6, a3, ?_⟩, .inr ?_⟩
    · show _ ≤ ((s.summary.cur.insert exTx.sender.val _).amt exTx.sender.val).val
      rw [KV.amt_insert, if_pos rfl]
      show 1000 + 62500 ≤ (s.summary.cur.amt exTx.sender.val).val - 1
      omega
    · show ((s.summary.cur.insert exTx.sender.val _).amt exTx.receiver.val).val + exTx.amount.val < 2 ^ 256
      rw [KV.amt_insert, if_neg fun e => exTx_ne (Subtype.ext e)]
      have := congrFun (shows_eq h2) exTx.receiver.val
      rw [recv] at this
      rw [← this]
      decide
  · intro tx h tx' h' _
    simp only [List.flatMap_cons, Op.stores, List.flatMap_nil, List.append_nil, List.mem_singleton] at h h'
    rw [h, h']
  · decide +kernel

end BCT.Props
