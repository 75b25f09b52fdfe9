import Verif.Props.OrdersSchedules
/-!
# C182: exactly what suffices for every order and every schedule
-/

namespace BCT.Props
open BCT

/-! ## Statement -/

/-- The coins an account must have for the call to be accepted; `fee` is the fee for sending a transaction. -/
def needsCoins (fee : Nat) : Op → Bytes → Nat
  | .sendTransaction tx, k => if k = tx.sender.val then fee + tx.amount.val else 0
  | .subAmount o n, k => if k = o then n.val else 0
  | .sendAmount a b n, k => if a ≠ b ∧ k = a then n.val else 0
  | _, _ => 0

/-- The coins by which the call makes an account poorer. -/
def takesCoins : Op → Bytes → Nat
  | .sendTransaction tx, k => if tx.sender.val ≠ tx.receiver.val ∧ k = tx.sender.val then tx.amount.val else 0
  | .subAmount o n, k => if k = o then n.val else 0
  | .sendAmount a b n, k => if a ≠ b ∧ k = a then n.val else 0
  | _, _ => 0

/-- The coins by which the call makes an account richer. -/
def givesCoins : Op → Bytes → Nat
  | .sendTransaction tx, k => if tx.sender.val ≠ tx.receiver.val ∧ k = tx.receiver.val then tx.amount.val else 0
  | .addAmount o n, k => if k = o then n.val else 0
  | .sendAmount a b n, k => if a ≠ b ∧ k = b then n.val else 0
  | _, _ => 0

/-- The gas an account must have for the call to be accepted. -/
def needsGas : Op → Bytes → Nat
  | .sendTransaction tx, k => if k = tx.sender.val then 625000000000 * tx.getDumpSize else 0
  | .subGas o n, k => if k = o then n.val else 0
  | .sendGas a _ n, k => if k = a then n.val else 0
  | _, _ => 0

/-- The gas by which the call makes an account poorer. -/
def takesGas : Op → Bytes → Nat
  | .sendTransaction tx, k => if k = tx.sender.val then 625000000000 * tx.getDumpSize else 0
  | .subGas o n, k => if k = o then n.val else 0
  | .sendGas a b n, k => if a ≠ b ∧ k = a then n.val else 0
  | _, _ => 0

/-- The gas by which the call makes an account richer. Gas sent to oneself is created. -/
def givesGas : Op → Bytes → Nat
  | .addGas o n, k => if k = o then n.val else 0
  | .sendGas _ b n, k => if k = b then n.val else 0
  | _, _ => 0

/-- Each account has what any one of the calls needs even after all others have taken from it, and room for what all of them
together give to it. -/
structure Enough {ι : Type} [Fintype ι] [DecidableEq ι] (op : ι → Op) (f g : Spec.Accounts) (fee : Nat) : Prop where
  coins : ∀ i k, needsCoins fee (op i) k + ∑ j ∈ Finset.univ.erase i, takesCoins (op j) k ≤ f k
  room : ∀ k, f k + ∑ i, givesCoins (op i) k < 2 ^ 256
  gas : ∀ i k, needsGas (op i) k + ∑ j ∈ Finset.univ.erase i, takesGas (op j) k ≤ g k
  tank : ∀ k, g k + ∑ i, givesGas (op i) k < 2 ^ 256

/-! ## One call -/

theorem move_net (a b : Bytes) (n : Nat) (k : Bytes) :
    moveDelta a b n k = ((if a ≠ b ∧ k = b then n else 0 : Nat) : Int) - (if a ≠ b ∧ k = a then n else 0 : Nat) := by
  by_cases h : a = b
  · simp [moveDelta, h]
  · rw [move_exact h]
    simp only [ne_eq, h, not_false_eq_true, true_and]

theorem coins_net (op : Op) (k : Bytes) : coinDelta op k = (givesCoins op k : Int) - takesCoins op k := by
  cases op with
  | sendTransaction tx => exact move_net _ _ _ _
  | sendAmount a b n => exact move_net _ _ _ _
  | addAmount o n => exact coins_exact (op := .addAmount o n) trivial k
  | subAmount o n => exact coins_exact (op := .subAmount o n) trivial k
  | _ => rfl

theorem gas_net (op : Op) (k : Bytes) : gasDelta op k = (givesGas op k : Int) - takesGas op k := by
  cases op with
  | sendTransaction tx =>
    change (if k = tx.sender.val then -((625000000000 * tx.getDumpSize : Nat) : Int) else 0) =
      ((0 : Nat) : Int) - (if k = tx.sender.val then 625000000000 * tx.getDumpSize else 0 : Nat)
    split_ifs
    · exact (Int.zero_sub _).symm
    · rfl
  | sendGas a b n =>
    change (if a = b then (if k = a then (n.val : Int) else 0) else moveDelta a b n.val k) =
      ((if k = b then n.val else 0 : Nat) : Int) - (if a ≠ b ∧ k = a then n.val else 0 : Nat)
    by_cases h : a = b
    · subst h
      by_cases hk : k = a <;> simp [hk]
    · rw [if_neg h, move_exact h]
      simp only [ne_eq, h, not_false_eq_true, true_and]
  | addGas o n => exact gas_exact (op := .addGas o n) trivial k
  | subGas o n => exact gas_exact (op := .subGas o n) trivial k
  | _ => rfl

theorem one_way (op : Op) (k : Bytes) : (takesCoins op k = 0 ∨ givesCoins op k = 0) ∧ (takesGas op k = 0 ∨ givesGas op k = 0) := by
  have move : ∀ (a b : Bytes) (n : Nat), (if a ≠ b ∧ k = a then n else 0) = 0 ∨ (if k = b then n else 0) = 0 := by
    intro a b n
    by_cases h : a ≠ b ∧ k = a
    · exact .inr (if_neg fun e => h.1 (h.2.symm.trans e))
    · exact .inl (if_neg h)
  have move' : ∀ (a b : Bytes) (n : Nat), (if a ≠ b ∧ k = a then n else 0) = 0 ∨ (if a ≠ b ∧ k = b then n else 0) = 0 := by
    intro a b n
    by_cases h : a ≠ b ∧ k = a
    · exact .inr (if_neg fun e => h.1 (h.2.symm.trans e.2))
    · exact .inl (if_neg h)
  cases op with
  | sendTransaction tx => exact ⟨move' _ _ _, .inr rfl⟩
  | sendAmount a b n => exact ⟨move' _ _ _, .inl rfl⟩
  | sendGas a b n => exact ⟨.inl rfl, move _ _ _⟩
  | subAmount o n => exact ⟨.inr rfl, .inl rfl⟩
  | subGas o n => exact ⟨.inl rfl, .inr rfl⟩
  | _ => exact ⟨.inl rfl, .inl rfl⟩

/-- An accepted call found what it needs. -/
theorem accepted_needs {E : Env} {s : Tree} (hi : StoreInv E s) {last : Block} {fee : U256}
    (hl : s.main.getLastBlock = .ok (some last)) (hfee : recalculateFee last.info.difficulty = .ok fee) {op : Op}
    (h : (op.run E s).out = .ok ()) (k : Bytes) :
    needsCoins fee.val op k ≤ (s.summary.cur.amt k).val ∧ needsGas op k ≤ (s.gas.cur.amt k).val := by
  have nil : ∀ n, 0 ≤ n := Nat.zero_le
  have sub : ∀ {d : Db} (_ : d.cur.Dec) {o : Bytes} {n : U256}, (Ledger.sub o n d).out = .ok () →
      (if k = o then n.val else 0) ≤ (d.cur.amt k).val := by
    intro d hd o n h
    split_ifs with hk
    · subst hk
      rcases Ledger.sub_run hd k n with ⟨h1, _⟩ | ⟨_, e⟩
      · exact h1
      · rw [e] at h; cases h
    · exact nil _
  have move : ∀ {d : Db} (_ : d.cur.Dec) {a b : Bytes} {n : U256}, (Ledger.transfer a b n d).out = .ok () →
      (if k = a then n.val else 0) ≤ (d.cur.amt k).val := by
    intro d hd a b n h
    split_ifs with hk
    · subst hk
      rcases Ledger.transfer_run hd k b n with ⟨h1, _⟩ | ⟨_, e⟩ | ⟨_, _, e⟩
      · exact h1
      · rw [e] at h; cases h
      · rw [e] at h; cases h
    · exact nil _
  cases op with
  | subAmount o n => exact ⟨sub hi.summary.1 h, nil _⟩
  | subGas o n => exact ⟨nil _, sub hi.gas.1 h⟩
  | sendGas a b n => exact ⟨nil _, move hi.gas.1 h⟩
  | sendAmount a b n =>
    refine ⟨?_, nil _⟩
    change (if a ≠ b ∧ k = a then n.val else 0) ≤ _
    by_cases hab : a = b
    · rw [if_neg fun e => e.1 hab]; exact nil _
    · have h : (Tree.sendAmount a b n s).out = .ok () := h
      unfold Tree.sendAmount at h
      rw [if_neg hab] at h
      simp only [ne_eq, hab, not_false_eq_true, true_and]
      exact move hi.summary.1 h
  | sendTransaction tx =>
    have c := send_needs hi hl hfee h
    constructor
    · change (if k = tx.sender.val then fee.val + tx.amount.val else 0) ≤ _
      split_ifs with hk
      · subst hk; exact c
      · exact nil _
    · change (if k = tx.sender.val then 625000000000 * tx.getDumpSize else 0) ≤ _
      split_ifs with hk
      · subst hk
        rw [send_op] at h
        rcases sendTransaction_cases E s tx hi.summary.1 hi.gas.1 with ⟨l, fee', _, ha, _⟩ | ⟨_, _, _, _, _, e⟩ | ⟨_, o, ho, e⟩
        · obtain ⟨_, _, _, _, a3, _⟩ := (affordable_iff (shows_amt hi.summary.1) (shows_amt hi.gas.1)).mpr ⟨l, fee', ha⟩
          exact a3
        · rw [e] at h; cases h
        · rw [e] at h; exact absurd h (ho _)
      · exact nil _
  | _ => exact ⟨nil _, nil _⟩

/-- What the call finds while it is under way. -/
structure Finds (op : Op) (fee : Nat) (n : Node) (took : Bool) : Prop where
  coins : took = false → ∀ k, needsCoins fee op k ≤ (n.data.summary.cur.amt k).val ∧
    (n.data.summary.cur.amt k).val + givesCoins op k < U256.size
  gas : ∀ k, needsGas op k ≤ (n.data.gas.cur.amt k).val ∧ (n.data.gas.cur.amt k).val + givesGas op k < U256.size

theorem found_send (E : Env) (tx : Transaction) {m : MainChain} {last : Block} {fee : U256}
    (hl : m.getLastBlock = .ok (some last)) (hfee : recalculateFee last.info.difficulty = .ok fee) :
    Sure m.chain (Finds (.sendTransaction tx) fee.val) (coinDelta (.sendTransaction tx)) (gasDelta (.sendTransaction tx))
      (Node.sendTransaction E tx) false := by
  have burn : needsGas (.sendTransaction tx) tx.sender.val = 625000000000 * tx.getDumpSize := if_pos rfl
  have spend : needsCoins fee.val (.sendTransaction tx) tx.sender.val = fee.val + tx.amount.val := if_pos rfl
  unfold Node.sendTransaction
  refine sure_peek (P := fun a => 625000000000 * tx.getDumpSize ≤ a.val) (peeks_read fun n h1 h2 _ => ⟨_, h1.1.balance _, by
    rw [← burn]; exact (h2.gas _).1⟩) fun a ha => ?_
  refine sure_peek (P := fun b => fee.val + tx.amount.val ≤ b.val) (peeks_read fun n h1 h2 _ => ⟨_, h1.2.balance _, by
    rw [← spend]; exact (h2.coins rfl _).1⟩) fun b hb => ?_
  have hlt : 625000000000 * tx.getDumpSize < U256.size := by have := a.lt; omega
  have hmul : BYTE_GAS_PRICE.mulNat tx.getDumpSize = .ok ⟨_, hlt⟩ := by
    unfold U256.mulNat
    exact dif_pos hlt
  refine sure_peek (peeks_lift hmul (P := (· = ⟨_, hlt⟩)) rfl) fun v hv => ?_
  have hv : v.val = 625000000000 * tx.getDumpSize := by rw [hv]
  rw [if_neg (by omega)]
  refine sure_peek (peeks_last hl) fun x hx => sure_peek (peeks_lift (P := (· = last)) (by rw [hx]; rfl) rfl) fun y hy =>
    sure_peek (peeks_lift (P := (· = fee)) (by rw [hy]; exact hfee) rfl) fun z hz => ?_
  have hlt : fee.val + tx.amount.val < U256.size := by have := b.lt; omega
  refine sure_peek (peeks_lift (a := ⟨_, hlt⟩) (P := (· = ⟨_, hlt⟩)) (by rw [hz]; exact dif_pos hlt) rfl) fun w hw => ?_
  rw [if_neg (by rw [hw]; simp only; omega)]
  refine sure_peek (P := fun _ => True) ?_ fun _ _ => sure_pay (whole_sendAmount _ _ _) ?_
    (fun t => transfer_main _ _ _ t) (fun t => rfl) (fun n h1 h2 => ?_) fun n h1 h2 => ?_
  · intro n n' h1 h2 h3 h4
    cases h4
    exact ⟨⟨rfl, rfl⟩, h3, (), rfl, trivial⟩
  · have h : gasDelta (.sendTransaction tx) = gasDelta (.subGas tx.sender.val v) := funext fun k => by
      change (if _ then _ else _) = (if _ then _ else _)
      rw [hv]
    rw [h]
    exact whole_subGas _ _
  · by_cases hab : tx.sender.val = tx.receiver.val
    · unfold Tree.sendAmount
      rw [if_pos hab]
      rfl
    · have gain : givesCoins (.sendTransaction tx) tx.receiver.val = tx.amount.val := if_pos ⟨hab, rfl⟩
      refine sendAmount_fits h1.2 ?_ ?_
      · have := (h2.coins rfl tx.sender.val).1
        omega
      · rw [← gain]; exact (h2.coins rfl _).2
  · exact sub_fits h1.1 (by rw [hv, ← burn]; exact (h2.gas _).1)

theorem found_deal (E : Env) {d : Deal} {op : Op} (h : d.op = some op) {m : MainChain} {last : Block} {fee : U256}
    (hl : m.getLastBlock = .ok (some last)) (hfee : recalculateFee last.info.difficulty = .ok fee) :
    Sure m.chain (Finds op fee.val) (coinDelta op) (gasDelta op) (d.prog E) false := by
  cases d with
  | send tx => cases h; exact sure_map _ (found_send E tx hl hfee)
  | brief x =>
    cases x with
    | addAmount o n =>
      cases h
      refine sure_map _ (sure_act (whole_addAmount o n) (fun _ => rfl) fun m h1 h2 => add_fits h1.2 ?_)
      have := (h2.coins rfl o).2
      rwa [show givesCoins (.addAmount o n) o = n.val from if_pos rfl] at this
    | subAmount o n =>
      cases h
      refine sure_map _ (sure_act (whole_subAmount o n) (fun _ => rfl) fun m h1 h2 => sub_fits h1.2 ?_)
      have := (h2.coins rfl o).1
      rwa [show needsCoins fee.val (.subAmount o n) o = n.val from if_pos rfl] at this
    | sendAmount a b n =>
      cases h
      refine sure_map _ (sure_act (whole_sendAmount a b n) (fun t => transfer_main _ _ _ t) fun m h1 h2 => ?_)
      by_cases hab : a = b
      · unfold Tree.sendAmount
        rw [if_pos hab]
        rfl
      · have c1 := (h2.coins rfl a).1
        have c2 := (h2.coins rfl b).2
        rw [show needsCoins fee.val (.sendAmount a b n) a = n.val from if_pos ⟨hab, rfl⟩] at c1
        rw [show givesCoins (.sendAmount a b n) b = n.val from if_pos ⟨hab, rfl⟩] at c2
        exact sendAmount_fits h1.2 c1 c2
    | addGas o n =>
      cases h
      refine sure_map _ (sure_act (whole_addGas o n) (fun _ => rfl) fun m h1 h2 => add_fits h1.1 ?_)
      have := (h2.gas o).2
      rwa [show givesGas (.addGas o n) o = n.val from if_pos rfl] at this
    | subGas o n =>
      cases h
      refine sure_map _ (sure_act (whole_subGas o n) (fun _ => rfl) fun m h1 h2 => sub_fits h1.1 ?_)
      have := (h2.gas o).1
      rwa [show needsGas (.subGas o n) o = n.val from if_pos rfl] at this
    | sendGas a b n =>
      cases h
      refine sure_map _ (sure_act (whole_sendGas a b n) (fun _ => rfl) fun m h1 h2 => transfer_fits h1.1 ?_ ?_)
      · have := (h2.gas a).1
        rwa [show needsGas (.sendGas a b n) a = n.val from if_pos rfl] at this
      · have := (h2.gas b).2
        rwa [show givesGas (.sendGas a b n) b = n.val from if_pos rfl] at this
    | _ => cases h
  | _ => cases h

/-! ## All threads -/

section
variable {ι : Type} [DecidableEq ι] [Fintype ι]

theorem exec_found {E : Env} {s : Tree} (hs : Readable ⟨s, false⟩) {last : Block} {fee : U256}
    (hl : s.main.getLastBlock = .ok (some last)) (hfee : recalculateFee last.info.difficulty = .ok fee)
    {call : ι → Deal} {op : ι → Op} (ho : ∀ i, (call i).op = some (op i))
    (hen : Enough op (fun k => (s.summary.cur.amt k).val) (fun k => (s.gas.cur.amt k).val) fee.val)
    {log : List (Event ι Node)} {c : Config ι Node Reply} (h : Exec ⟨⟨s, false⟩, fun i => (call i).prog E⟩ log c) :
    Readable c.shared ∧ c.shared.data.main.chain = s.main.chain ∧ ∃ took : ι → Bool,
      (∀ k, ((c.shared.data.summary.cur.amt k).val : Int) = (s.summary.cur.amt k).val + ∑ i, if took i = true then coinDelta (op i) k else 0) ∧
      (∀ k, ((c.shared.data.gas.cur.amt k).val : Int) =
        (s.gas.cur.amt k).val + ∑ i, if cameThrough (c.threads i) = true then gasDelta (op i) k else 0) ∧
      ∀ i, Sure s.main.chain (Finds (op i) fee.val) (coinDelta (op i)) (gasDelta (op i)) (c.threads i) (took i) := by
  induction h with
  | refl =>
    have hb := fun i => found_deal E (ho i) hl hfee
    refine ⟨hs, rfl, fun _ => false, fun k => by simp, fun k => ?_, hb⟩
    have : ∀ i, cameThrough ((call i).prog E) ≠ true := fun i h => by cases (hb i).through h
    simp [this]
  | @step log c i next rest s' _ hi hn ih =>
    obtain ⟨hr, hch, took, h1, h2, h3⟩ := ih
    have h4 := h3 i
    rw [hi] at h4
    have hnot : cameThrough (c.threads i) = false := by rw [hi]; rfl
    have size : (2 : Nat) ^ 256 = U256.size := rfl
    have hK : Finds (op i) fee.val c.shared (took i) := by
      refine ⟨fun ht k => ?_, fun k => ?_⟩
      · have w := sum_within took (fun j => coinDelta (op j) k) (fun j => takesCoins (op j) k) (fun j => givesCoins (op j) k)
          (fun j => by have := coins_net (op j) k; omega) i ht
        have e := (Finset.add_sum_erase Finset.univ (fun j => takesCoins (op j) k) (Finset.mem_univ i)).symm
        have := h1 k
        have := hen.coins i k
        have := hen.room k
        constructor <;> omega
      · have w := sum_within (fun j => cameThrough (c.threads j)) (fun j => gasDelta (op j) k) (fun j => takesGas (op j) k)
          (fun j => givesGas (op j) k) (fun j => by have := gas_net (op j) k; omega) i hnot
        have e := (Finset.add_sum_erase Finset.univ (fun j => takesGas (op j) k) (Finset.mem_univ i)).symm
        have := h2 k
        have := hen.gas i k
        have := hen.tank k
        constructor <;> omega
    obtain ⟨g1, g0, t', g2, g3, g4, g5⟩ := h4 _ _ hr hK hch hn
    refine ⟨g1, g0, Function.update took i t', fun k => ?_, fun k => ?_, fun j => ?_⟩
    · rw [sum_gain took _ (fun j => coinDelta (op j) k) i (by rw [Function.update_self]; exact g2)
        (fun j hj => Function.update_of_ne hj _ _), Function.update_self]
      have := g3 k
      have := h1 k
      simp only at *
      omega
    · have e := sum_gain (fun j => cameThrough (c.threads j)) (fun j => cameThrough (Function.update c.threads i (rest c.shared) j))
        (fun j => gasDelta (op j) k) i (fun h => by rw [hnot] at h; cases h) (fun j hj => by rw [Function.update_of_ne hj])
      rw [Function.update_self, hnot] at e
      simp only [true_and] at e
      simp only
      rw [e]
      have := g4 k
      have := h2 k
      omega
    · by_cases hj : j = i
      · subst hj
        simp only [Function.update_self]
        exact g5
      · simp only [Function.update_of_ne hj]
        exact h3 j

/-! ## All orders -/

theorem some_first {E : Env} {s : Tree} {op : ι → Op} (h : SafeOrders E s op) (A : Finset ι) :
    AllAccepted E s (A.toList.map op) := by
  have := h (A.toList ++ (Finset.univ \ A).toList) ?_ ?_
  · rw [List.map_append] at this
    exact (accepted_append this).1
  · rw [List.nodup_append']
    refine ⟨Finset.nodup_toList _, Finset.nodup_toList _, fun i h1 h2 => ?_⟩
    exact (Finset.mem_sdiff.mp (Finset.mem_toList.mp h2)).2 (Finset.mem_toList.mp h1)
  · intro i
    by_cases hi : i ∈ A
    · exact List.mem_append_left _ (Finset.mem_toList.mpr hi)
    · exact List.mem_append_right _ (Finset.mem_toList.mpr (Finset.mem_sdiff.mpr ⟨Finset.mem_univ i, hi⟩))

theorem then_one {E : Env} {s : Tree} {op : ι → Op} (h : SafeOrders E s op) (A : Finset ι) {i : ι} (hi : i ∉ A) :
    ((op i).run E (runAll E s (A.toList.map op))).out = .ok () := by
  have := h (A.toList ++ i :: (Finset.univ \ insert i A).toList) ?_ ?_
  · rw [List.map_append] at this
    exact (accepted_append this).2.1
  · rw [List.nodup_append', List.nodup_cons]
    refine ⟨Finset.nodup_toList _, ⟨fun h => ?_, Finset.nodup_toList _⟩, fun j h1 h2 => ?_⟩
    · exact (Finset.mem_sdiff.mp (Finset.mem_toList.mp h)).2 (Finset.mem_insert_self _ _)
    · have h1 := Finset.mem_toList.mp h1
      rcases List.mem_cons.mp h2 with rfl | h2
      · exact hi h1
      · exact (Finset.mem_sdiff.mp (Finset.mem_toList.mp h2)).2 (Finset.mem_insert_of_mem h1)
  · intro j
    by_cases hj : j ∈ A
    · exact List.mem_append_left _ (Finset.mem_toList.mpr hj)
    · refine List.mem_append_right _ (List.mem_cons.mpr ?_)
      by_cases e : j = i
      · exact .inl e
      · exact .inr (Finset.mem_toList.mpr (Finset.mem_sdiff.mpr ⟨Finset.mem_univ j, fun h =>
          (Finset.mem_insert.mp h).elim e hj⟩))

omit [DecidableEq ι] [Fintype ι] in
theorem sum_only (A : Finset ι) (op : ι → Op) (q : Op → Nat) (d : Op → Int) (c : Int)
    (h : ∀ j ∈ A, q (op j) ≠ 0 → d (op j) = c * q (op j)) :
    (((A.filter fun j => q (op j) ≠ 0).toList.map op).map d).sum = c * (∑ j ∈ A, q (op j) : Nat) := by
  rw [List.map_map, Finset.sum_map_toList, ← Finset.sum_filter_ne_zero A, Nat.cast_sum, Finset.mul_sum]
  exact Finset.sum_congr rfl fun j hj => h j (Finset.mem_filter.mp hj).1 (Finset.mem_filter.mp hj).2

theorem orders_enough {E : Env} {s : Tree} (hi : StoreInv E s) {last : Block} {fee : U256}
    (hl : s.main.getLastBlock = .ok (some last)) (hfee : recalculateFee last.info.difficulty = .ok fee) {op : ι → Op}
    (ha : ∀ i, Op.Adding (op i)) (h : SafeOrders E s op) :
    Enough op (fun k => (s.summary.cur.amt k).val) (fun k => (s.gas.cur.amt k).val) fee.val := by
  have add : ∀ A : Finset ι, ∀ o ∈ A.toList.map op, Op.Adding o := fun A o h => by
    obtain ⟨i, _, rfl⟩ := List.mem_map.mp h
    exact ha i
  have steps := fun A : Finset ι => history_steps (add A) hi (some_first h A)
  have needs := fun (A : Finset ι) (i : ι) (hn : i ∉ A) => accepted_needs (runAll_storeInv _ hi)
    ((runAll_last (add A) s).trans hl) hfee (then_one h A hn)
  refine ⟨fun i k => ?_, fun k => ?_, fun i k => ?_, fun k => ?_⟩
  · have e := (steps ((Finset.univ.erase i).filter fun j => takesCoins (op j) k ≠ 0)).1.amt k
    rw [sum_only _ op (takesCoins · k) (coinDelta · k) (-1) fun j _ h0 => by
      rw [coins_net, (one_way (op j) k).1.resolve_left h0]; omega] at e
    have := (needs ((Finset.univ.erase i).filter fun j => takesCoins (op j) k ≠ 0) i (by simp) k).1
    omega
  · have e := (steps (Finset.univ.filter fun j => givesCoins (op j) k ≠ 0)).1.amt k
    rw [sum_only _ op (givesCoins · k) (coinDelta · k) 1 fun j _ h0 => by
      rw [coins_net, (one_way (op j) k).1.resolve_right h0]; omega] at e
    have := ((runAll E s ((Finset.univ.filter fun j => givesCoins (op j) k ≠ 0).toList.map op)).summary.cur.amt k).lt
    have : _ < 2 ^ 256 := this
    omega
  · have e := (steps ((Finset.univ.erase i).filter fun j => takesGas (op j) k ≠ 0)).2.1.amt k
    rw [sum_only _ op (takesGas · k) (gasDelta · k) (-1) fun j _ h0 => by
      rw [gas_net, (one_way (op j) k).2.resolve_left h0]; omega] at e
    have := (needs ((Finset.univ.erase i).filter fun j => takesGas (op j) k ≠ 0) i (by simp) k).2
    omega
  · have e := (steps (Finset.univ.filter fun j => givesGas (op j) k ≠ 0)).2.1.amt k
    rw [sum_only _ op (givesGas · k) (gasDelta · k) 1 fun j _ h0 => by
      rw [gas_net, (one_way (op j) k).2.resolve_right h0]; omega] at e
    have := ((runAll E s ((Finset.univ.filter fun j => givesGas (op j) k ≠ 0).toList.map op)).gas.cur.amt k).lt
    have : _ < 2 ^ 256 := this
    omega

/-! ## Property -/

/-- C182. Calls by threads, calls from an account to itself included: no schedule refuses one exactly if no order does, and that is so
exactly if there is enough for each after all others. -/
theorem C182_exact (E : Env) (s : Tree) (hr : Run E s) (f g : Spec.Accounts) (hf : Shows s.summary f) (hg : Shows s.gas g)
    (last : Block) (fee : U256) (hl : s.main.getLastBlock = .ok (some last)) (hfee : recalculateFee last.info.difficulty = .ok fee)
    (call : ι → Deal) (op : ι → Op) (ho : ∀ i, (call i).op = some (op i)) :
    (SafeSchedules E s call ↔ SafeOrders E s op) ∧ (SafeSchedules E s call ↔ Enough op f g fee.val) := by
  have hi := run_storeInv hr
  have ef := shows_eq hf
  have eg := shows_eq hg
  subst ef eg
  have cov : SafeOrders E s op → Enough op _ _ fee.val := orders_enough hi hl hfee fun i => (deal_amounts (ho i)).2.1
  have safe : Enough op (fun k => (s.summary.cur.amt k).val) (fun k => (s.gas.cur.amt k).val) fee.val → SafeSchedules E s call := by
    rintro h log c hx i ⟨o, hd⟩
    obtain ⟨-, -, took, -, -, h4⟩ := exec_found (E := E) ⟨hi.gas.1, hi.summary.1⟩ hl hfee ho h hx
    have h5 := h4 i
    rw [hd] at h5
    cases o with
    | ok r => exact ⟨r, hd⟩
    | err e => exact absurd h5.2 (by simp [cameThrough])
    | panic e => exact absurd h5.2 (by simp [cameThrough])
    | ub => exact absurd h5.2 (by simp [cameThrough])
  have ord := C181_orders E s call op ho
  exact ⟨⟨ord, fun h => safe (cov h)⟩, ⟨fun h => cov (ord h), safe⟩⟩

end

/-! ## Instances -/

/-- A transaction, and more coins than there are sent by its sender to themselves. -/
def payAndTurn (b : Bool) : Deal := bif b then .send exTx else .brief (.sendAmount exTx.sender.val exTx.sender.val (U256.ofNat 1000000000000))

/-- The hypotheses of `C182_exact` are met, and the calls are safe, although one of them is not covered in the sense of C179. -/
theorem pay_and_turn_safe (E : Env) : ∃ s f g last fee, ∃ op : Bool → Op, Run E s ∧ Shows s.summary f ∧ Shows s.gas g ∧
    s.main.getLastBlock = .ok (some last) ∧ recalculateFee last.info.difficulty = .ok fee ∧ (∀ b, (payAndTurn b).op = some (op b)) ∧
    SafeSchedules E s payAndTurn ∧ ¬ Covered payAndTurn f g fee.val := by
  obtain ⟨s, h1, h2, h3, h4, l, h5, h6⟩ := funded E U256.zero
  have hsize : exTx.getDumpSize = 145 := by decide +kernel
  have ha : exTx.amount.val = 1000 := rfl
  have hz : U256.zero.val = 0 := rfl
  have hfee : (U256.ofNat 62500).val = 62500 := rfl
  have hv : (U256.ofNat 1000000000000).val = 1000000000000 := by decide
  have hne : exTx.sender.val ≠ exTx.receiver.val := fun e => exTx_ne (Subtype.ext e)
  obtain ⟨op, hop⟩ : ∃ op : Bool → Op, op = fun b => bif b then .sendTransaction exTx else
    .sendAmount exTx.sender.val exTx.sender.val (U256.ofNat 1000000000000) := ⟨_, rfl⟩
  have et : op true = .sendTransaction exTx := by rw [hop]; rfl
  have ef : op false = .sendAmount exTx.sender.val exTx.sender.val (U256.ofNat 1000000000000) := by rw [hop]; rfl
  have ho : ∀ b, (payAndTurn b).op = some (op b) := by
    intro b
    cases b
    · rw [ef]; rfl
    · rw [et]; rfl
  have er : ∀ (b : Bool) (q : Bool → Nat), ∑ j ∈ Finset.univ.erase b, q j = q (!b) := by
    intro b q
    cases b <;> rfl
  refine ⟨s, _, _, l, _, op, h1, h2, h3, h5, h6, ho, (C182_exact E s h1 _ _ h2 h3 l _ h5 h6 _ op ho).2.mpr ?_, fun h => ?_⟩
  · refine ⟨fun i k => ?_, fun k => ?_, fun i k => ?_, fun k => ?_⟩
    · rw [er]
      cases i <;> simp only [Bool.not_true, Bool.not_false, et, ef, needsCoins, takesCoins, ne_eq, hne, not_true_eq_false,
        not_false_eq_true, true_and, false_and, if_false]
      all_goals
        by_cases hk : k = exTx.sender.val
        · subst hk; rw [if_pos rfl, funded_sender, ha]; decide
        · rw [if_neg hk]; omega
    · rw [Fintype.sum_bool]
      simp only [et, ef, givesCoins, ne_eq, hne, not_true_eq_false, not_false_eq_true, true_and, false_and, if_false]
      by_cases hk : k = exTx.receiver.val
      · subst hk; rw [if_pos rfl, funded_receiver, ha, hz]; decide
      · rw [if_neg hk]
        obtain ⟨a, _, a2⟩ := h2 k
        rw [← a2]
        exact a.lt
    · rw [er]
      cases i <;> simp only [Bool.not_true, Bool.not_false, et, ef, needsGas, takesGas]
      all_goals
        by_cases hk : k = exTx.sender.val
        · subst hk; rw [if_pos rfl, funded_gas, hsize]; decide
        · rw [if_neg hk]; omega
    · rw [Fintype.sum_bool]
      simp only [et, ef, givesGas]
      obtain ⟨a, _, a2⟩ := h3 k
      rw [← a2]
      exact a.lt
  · have := h.coins exTx.sender.val
    rw [Fintype.sum_bool, show payAndTurn true = .send exTx from rfl, show payAndTurn false =
      .brief (.sendAmount exTx.sender.val exTx.sender.val (U256.ofNat 1000000000000)) from rfl] at this
    simp only [Deal.spends, if_true] at this
    rw [funded_sender, ha, hv] at this
    omega

end BCT.Props
