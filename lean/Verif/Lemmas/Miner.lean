import Verif.Model.Examples
import Verif.Lemmas.NodeRestart
import Verif.Props.DerivEmit
/-!
# The example programs on the abstract node
-/

namespace Spec

theorem bytes_tri (a b : List UInt8) : a < b ∨ a = b ∨ b < a := by
  rcases List.le_total a b with h | h
  · rcases List.le_iff_lt_or_eq.mp h with h | h
    · exact .inl h
    · exact .inr (.inl h)
  · rcases List.le_iff_lt_or_eq.mp h with h | h
    · exact .inr (.inr h)
    · exact .inr (.inl h.symm)

namespace Book

theorem entry_put (b : Book) (o q : List UInt8) (v : Nat) : (b.put o v).entry q = if q = o then some v else b.entry q := by
  have hirr : ∀ a : List UInt8, ¬ a < a := List.lt_irrefl
  have hany : ∀ a b : List UInt8, a < b → ¬ b < a := fun a b h1 h2 => hirr a (List.lt_trans h1 h2)
  unfold Book.entry Book.put
  rw [List.find?_append, List.find?_cons, List.find?_filter, List.find?_filter]
  by_cases hq : q = o
  · subst hq
    have h1 : b.find? (fun e => decide (decide (e.1 < q) = true ∧ decide (e.1 = q) = true)) = none := by
      rw [List.find?_eq_none]
      intro e _ he
      simp only [decide_eq_true_eq] at he
      rw [he.2] at he
      exact hirr q he.1
    rw [h1]
    simp
  · rw [if_neg hq]
    have hq' : decide (o = q) = false := by simpa using fun h : o = q => hq h.symm
    simp only [hq']
    rcases bytes_tri q o with h | h | h
    · have h1 : (fun e : List UInt8 × Nat => decide (decide (e.1 < o) = true ∧ decide (e.1 = q) = true)) =
          fun e => decide (e.1 = q) := by
        funext e
        by_cases he : e.1 = q
        · simp [he, h]
        · simp [he]
      have h2 : (fun e : List UInt8 × Nat => decide (decide (o < e.1) = true ∧ decide (e.1 = q) = true)) = fun _ => false := by
        funext e
        by_cases he : e.1 = q
        · simp only [he, decide_eq_true_eq]; simpa using hany _ _ h
        · simp [he]
      rw [h1, h2]
      cases b.find? (fun e => decide (e.1 = q)) with
      | none => simp
      | some e => rfl
    · exact absurd h hq
    · have h1 : (fun e : List UInt8 × Nat => decide (decide (e.1 < o) = true ∧ decide (e.1 = q) = true)) = fun _ => false := by
        funext e
        by_cases he : e.1 = q
        · simp only [he, decide_eq_true_eq]; simpa using hany _ _ h
        · simp [he]
      have h2 : (fun e : List UInt8 × Nat => decide (decide (o < e.1) = true ∧ decide (e.1 = q) = true)) =
          fun e => decide (e.1 = q) := by
        funext e
        by_cases he : e.1 = q
        · simp [he, h]
        · simp [he]
      rw [h1, h2]
      have h3 : b.find? (fun _ => false) = none := by rw [List.find?_eq_none]; simp
      rw [h3]
      rfl

theorem get_put (b : Book) (o q : List UInt8) (v : Nat) : (b.put o v).get q = if q = o then v else b.get q := by
  unfold Book.get
  rw [entry_put]
  by_cases h : q = o <;> simp [h]

end Book
end Spec

namespace BCT
open BCT.Props

-- what a block pays, and the price of the transaction of the sending example: 141 bytes
local notation "WAGE" => 25000000000000000
local notation "POSTAGE" => 88125000000000

/-- The fees that go with a chain: for every block but the last, the fee for its difficulty, unless the block after it ends an
epoch. -/
def feesOf (bs : List Block) : Nat :=
  ((List.range (bs.length - 1)).map fun i => if (i + 1) % 1000000 = 0 then 0 else
    match bs[i]? with
    | some b => Spec.fee b.info.difficulty
    | none => 0).sum

/-- The payments since the root account was last filled up. -/
def paidOut (K : Nat) : Nat := K % 1000000 + if 1000000 ≤ K then 1 else 0

theorem feesOf_append {bs : List Block} {last b : Block} (h : bs.getLast? = some last) :
    feesOf (bs ++ [b]) = feesOf bs + if bs.length % 1000000 = 0 then 0 else Spec.fee last.info.difficulty := by
  have hne : bs ≠ [] := by rintro rfl; cases h
  have hpos : 0 < bs.length := List.length_pos_iff.mpr hne
  unfold feesOf
  have e : (bs ++ [b]).length - 1 = (bs.length - 1) + 1 := by simp; omega
  rw [e, List.range_succ, List.map_append, List.sum_append]
  congr 1
  · congr 1
    apply List.map_congr_left
    intro i hi
    rw [List.mem_range] at hi
    rw [List.getElem?_append_left (by omega)]
  · have e1 : bs.length - 1 + 1 = bs.length := by omega
    simp only [List.map_cons, List.map_nil, List.sum_cons, List.sum_nil, e1]
    rw [List.getElem?_append_left (by omega), ← List.getLast?_eq_getElem?, h]
    rfl

theorem feesOf_le (bs : List Block) : feesOf bs ≤ 16000000 * (bs.length - 1) := by
  unfold feesOf
  generalize bs.length - 1 = k
  induction k with
  | zero => simp
  | succ k ih =>
    rw [List.range_succ, List.map_append, List.sum_append]
    simp only [List.map_cons, List.map_nil, List.sum_cons, List.sum_nil]
    have : (if (k + 1) % 1000000 = 0 then 0 else
        match bs[k]? with
        | some b => Spec.fee b.info.difficulty
        | none => 0) ≤ 16000000 := by
      split
      · omega
      · cases bs[k]? with
        | none => simp
        | some b =>
          have := zeroBits_le b.info.difficulty
          show 62500 * Spec.zeroBits _ ≤ _
          omega
    omega

theorem paidOut_succ (K : Nat) : paidOut (K + 1) = if (K + 1) % 1000000 = 0 then 1 else paidOut K + 1 := by
  unfold paidOut
  by_cases h : (K + 1) % 1000000 = 0
  · rw [if_pos h, if_pos (by omega)]; omega
  · rw [if_neg h]
    have h1 : (K + 1) % 1000000 = K % 1000000 + 1 := by omega
    have h2 : 1000000 ≤ K + 1 ↔ 1000000 ≤ K := by omega
    simp only [h1, h2]
    omega

theorem paidOut_le (K : Nat) : paidOut K ≤ 1000000 := by
  unfold paidOut
  split <;> omega

/-- The owner's chain, open or saved. -/
def ownChain (n : Spec.Node) (o : Address) : Option (Hash × List DerivativeBlock) := (n.chains o).or (n.saved o)

/-- Where the example programs leave the node: `K` blocks mined on the main chain, `M` on the wallet's chain, `N` transactions sent, the
clock last seen at `T`. -/
structure Ready (E : Env) (w : Address) (T : UInt64) (K M N : Nat) (n : Spec.Node) : Prop where
  length : n.blocks.length = K + 1
  main : ∀ b ∈ n.blocks, Spec.readable b = true ∧ GoodHead b.info.difficulty ∧ (E.overflowChecks = true → b.info.timestamp ≤ T)
  founders : ∀ b ∈ n.blocks.tail, b.info.founder = w
  coins : n.coins.get w.val + 228 * N = WAGE * K + feesOf n.blocks
  root : ∃ s ≤ N, n.coins.get Spec.root.val + WAGE * paidOut K = Spec.emission + 228 * s
  others : ∀ a : List UInt8, a ≠ w.val → a ≠ Spec.root.val → n.coins.get a = 0
  gas : n.gas.get w.val + POSTAGE * N = WAGE * M
  gasOthers : ∀ a : List UInt8, a ≠ w.val → n.gas.get a = 0
  chains : ∀ o, o ≠ w → n.chains o = none ∧ n.saved o = none
  saved : ∀ c, n.saved w = some c → c.2.length ≤ M
  noChain : ownChain n w = none → M = 0
  chain : ∀ c, ownChain n w = some c → (∃ b ∈ n.blocks, Spec.digest E b = c.1) ∧ c.2.length = M ∧
    ∀ d ∈ c.2, GoodHead d.defaultInfo.difficulty ∧ d.defaultInfo.founder = w ∧
      (E.overflowChecks = true → d.defaultInfo.timestamp ≤ T)

section
variable {E : Env} {w : Address} {T : UInt64} {K M N : Nat} {n : Spec.Node} {t : Tree}

namespace Ready

theorem short (r : Ready E w T K M N n) : Short (K + M + 1) n := by
  refine ⟨by rw [r.length]; omega, fun o c ho => ?_⟩
  by_cases hw : o = w
  · subst hw
    rcases ho with ho | ho
    · have := (r.chain c (by unfold ownChain; rw [ho]; rfl)).2.1
      omega
    · have := r.saved c ho
      omega
  · rw [(r.chains o hw).1, (r.chains o hw).2] at ho
    rcases ho with ho | ho <;> cases ho

theorem tip (r : Ready E w T K M N n) : ∃ b, n.blocks.getLast? = some b ∧ n.tip = some b ∧ b ∈ n.blocks := by
  have hne : n.blocks ≠ [] := by intro h; have := r.length; rw [h] at this; simp at this
  obtain ⟨b, hb⟩ : ∃ b, n.blocks.getLast? = some b := ⟨_, List.getLast?_eq_some_getLast hne⟩
  have hm := List.mem_of_getLast? hb
  exact ⟨b, hb, by unfold Spec.Node.tip; rw [hb]; simp [(r.main b hm).1], hm⟩

theorem start (E : Env) (w : Address) (hw : w ≠ Spec.root) : Ready E w 1597924800 0 0 0 (Spec.Node.start E) := by
  have hr : Spec.firstDifficulty = BEGINNING_DIFFICULTY := rfl
  have hw' : ¬ Spec.root.val = w.val := fun h => hw (Subtype.ext h.symm)
  refine ⟨rfl, fun b hb => ?_, fun b hb => (by cases hb), ?_, ⟨0, Nat.le_refl _, ?_⟩, fun a h1 h2 => ?_, rfl, fun a _ => rfl,
    fun o _ => ⟨rfl, rfl⟩, fun c hc => (by cases hc), fun _ => rfl, fun c hc => by cases hc⟩
  · have : b = Spec.firstBlock E := List.mem_singleton.mp hb
    subst this
    exact ⟨rfl, (show GoodHead Spec.firstDifficulty by rw [hr]; exact good_beginning), fun _ => UInt64.le_refl _⟩
  · simp [Spec.Node.start, Spec.Book.get, Spec.Book.entry, feesOf, hw']
  · simp [Spec.Node.start, Spec.Book.get, Spec.Book.entry, paidOut]
  · have : ¬ Spec.root.val = a := fun h => h2 h.symm
    simp [Spec.Node.start, Spec.Book.get, Spec.Book.entry, this]

/-- Another process. -/
theorem restarted (r : Ready E w T K M N n) (hw : w ≠ Spec.root) : Ready E w T K M N n.restarted ∧ ∀ o, n.restarted.chains o = none := by
  have hown : ownChain n.restarted w = ownChain n w := by
    unfold ownChain Spec.Node.restarted
    simp only
    cases n.chains w <;> rfl
  have hne : w.val ≠ Spec.root.val := fun h => hw (Subtype.ext h)
  have hcoins : ∀ a : List UInt8, a ≠ Spec.root.val → n.restarted.coins.get a = n.coins.get a := by
    intro a ha
    unfold Spec.Node.restarted
    simp only
    split
    · rw [Spec.Book.get_put, if_neg ha]
    · rfl
  refine ⟨⟨r.length, r.main, r.founders, ?_, ?_, ?_, r.gas, r.gasOthers, fun o ho => ⟨rfl, ?_⟩, ?_, ?_, ?_⟩, fun _ => rfl⟩
  · rw [hcoins _ hne]; exact r.coins
  · by_cases h1 : n.blocks.length = 1
    · refine ⟨0, Nat.zero_le _, ?_⟩
      have hK : K = 0 := by have := r.length; omega
      unfold Spec.Node.restarted
      simp only [h1, if_true]
      rw [Spec.Book.get_put, if_pos rfl, hK]
      simp [paidOut]
    · have : n.restarted.coins = n.coins := by unfold Spec.Node.restarted; simp only [h1, if_false]
      rw [this]
      exact r.root
  · intro a h1 h2
    rw [hcoins a h2]
    exact r.others a h1 h2
  · unfold Spec.Node.restarted
    simp only [(r.chains o ho).1, (r.chains o ho).2]
  · intro c hc
    have : ownChain n w = some c := by rw [← hown]; exact hc
    exact Nat.le_of_eq (r.chain c this).2.1
  · rw [hown]; exact r.noChain
  · rw [hown]; exact r.chain

/-- One more block on the main chain. -/
theorem emit (r : Ready E w T K M N n) {txs : List Hash} (ht : txs = [] ↔ (K + 1) % 1000000 = 0)
    {c : UInt64} (hc : E.overflowChecks = true → T ≤ c) {pow : BytesN 32} {last : Block} (hl : n.tip = some last)
    (hwork : Spec.enoughWork E (Spec.digest E last) last.info.difficulty txs pow = true) :
    ∃ b n1, n.mine E pow w txs c = (.done, n1) ∧ n1.blocks = n.blocks ++ [b] ∧
      n1.coins = (if (K + 1) % 1000000 = 0 then n.coins.put Spec.root.val Spec.emission else n.coins) ∧ n1.gas = n.gas ∧
      n1.chains = n.chains ∧ n1.saved = n.saved ∧ Spec.readable b = true ∧ GoodHead b.info.difficulty ∧
      b.info.timestamp = c ∧ b.info.founder = w ∧ n1.txs = n.txs ∧
      (¬ (K + 1) % 1000000 = 0 → ∃ tb, b = .transaction tb ∧ tb.transactions = txs) := by
  obtain ⟨b', hb1, hb2, hb3⟩ := r.tip
  rw [hl] at hb2
  cases hb2
  obtain ⟨_, hgood, hts⟩ := r.main last hb3
  have hord : last.info.timestamp ≤ c ∨ E.overflowChecks = false := by
    cases ho : E.overflowChecks with
    | false => exact .inr rfl
    | true => exact .inl (UInt64.le_trans (hts ho) (hc ho))
  obtain ⟨d, hd⟩ := next_ok (E := E) hgood hord
  have hgood' := next_good hgood hd
  unfold Spec.Node.mine
  simp only [hl, hwork, hd, r.length, not_true_eq_false, if_false]
  by_cases he : (K + 1) % 1000000 = 0
  · have ht' := ht.mpr he
    simp only [he, ht', if_true]
    exact ⟨_, _, rfl, rfl, rfl, rfl, rfl, rfl, rfl, hgood', rfl, rfl, rfl, fun h => absurd trivial h⟩
  · have ht' : ¬ txs = [] := fun h => he (ht.mp h)
    simp only [he, ht', if_false]
    exact ⟨_, _, rfl, rfl, rfl, rfl, rfl, rfl, rfl, hgood', rfl, rfl, rfl, fun _ => ⟨_, rfl, rfl⟩⟩

/-- One more block on the main chain, with the payments that go with it. -/
theorem mined (r : Ready E w T K M N n) (hw : w ≠ Spec.root) (hb : K + M < 10 ^ 50) {txs : List Hash}
    (ht : txs = [] ↔ (K + 1) % 1000000 = 0)
    {c : UInt64} (hc : E.overflowChecks = true → T ≤ c) {pow : BytesN 32} {last : Block} (hl : n.tip = some last)
    (hwork : Spec.enoughWork E (Spec.digest E last) last.info.difficulty txs pow = true) :
    ∃ n1 n2 n3, n.mine E pow w txs c = (.done, n1) ∧
      n1.step E (.sendAmount ROOT_PUBLIC_ADDRESS.val w.val MAIN_CHAIN_PAYMENT) = (.done, n2) ∧
      (if (K + 1) % 1000000 = 0 then n3 = n2
        else n2.step E (.addAmount w.val ⟨Spec.fee last.info.difficulty, fee_lt _⟩) = (.done, n3)) ∧
      Ready E w c (K + 1) M N n3 ∧ n3.chains = n.chains ∧ n3.txs = n.txs ∧
      n1.coins.get w.val = n.coins.get w.val ∧ n2.coins.get w.val = n.coins.get w.val + WAGE ∧
      (∃ f ≤ 16000000, n3.coins.get w.val = n.coins.get w.val + WAGE + f) ∧ n1.blocks = n3.blocks ∧ n2.blocks = n3.blocks ∧
      ∃ b, n3.blocks = n.blocks ++ [b] ∧ (¬ (K + 1) % 1000000 = 0 → ∃ tb, b = .transaction tb ∧ tb.transactions = txs) := by
  obtain ⟨b, n1, h1, hbl, hco, hga, hch, hsa, hrd, hgd, htm, hfo, htxs, hcon⟩ := r.emit ht hc hl hwork
  have hne : w.val ≠ Spec.root.val := fun h => hw (Subtype.ext h)
  have hne' : ¬ (ROOT_PUBLIC_ADDRESS.val = w.val) := fun h => hne h.symm
  obtain ⟨s, hs, hroot⟩ := r.root
  have hcw := r.coins
  have hfees := feesOf_le n.blocks
  have hlen := r.length
  rw [hlen] at hfees
  have hpo := paidOut_le K
  have hem : Spec.emission = 50010000000000000000000000 := rfl
  have h256 : (2 : Nat) ^ 256 = 115792089237316195423570985008687907853269984665640564039457584007913129639936 := by decide
  have h50 : (10 : Nat) ^ 50 = 100000000000000000000000000000000000000000000000000 := by decide
  have hlast := r.tip
  obtain ⟨b', hb1, hb2, _⟩ := hlast
  rw [hl] at hb2
  cases hb2
  have hfee : Spec.fee last.info.difficulty ≤ 16000000 := by
    have := zeroBits_le last.info.difficulty
    unfold Spec.fee
    omega
  -- the payment
  have g1w : n1.coins.get w.val = n.coins.get w.val := by
    rw [hco]
    split
    · rw [Spec.Book.get_put, if_neg hne]
    · rfl
  have g1r : ∃ s' ≤ N, n1.coins.get Spec.root.val + WAGE * (paidOut (K + 1) - 1) = Spec.emission + 228 * s' := by
    rw [hco, paidOut_succ]
    by_cases he : (K + 1) % 1000000 = 0
    · rw [if_pos he, if_pos he, Spec.Book.get_put, if_pos rfl]
      exact ⟨0, Nat.zero_le _, by simp⟩
    · rw [if_neg he, if_neg he]
      exact ⟨s, hs, hroot⟩
  obtain ⟨s', hs', hroot'⟩ := g1r
  have hpo1 := paidOut_le (K + 1)
  have hpo2 : 1 ≤ paidOut (K + 1) := by rw [paidOut_succ]; split <;> omega
  have hmv : n1.coins.move ROOT_PUBLIC_ADDRESS.val w.val MAIN_CHAIN_PAYMENT.val =
      some ((n1.coins.put Spec.root.val (n1.coins.get Spec.root.val - WAGE)).put w.val (n1.coins.get w.val + WAGE)) := by
    unfold Spec.Book.move
    rw [if_pos]
    · rfl
    · rw [(show MAIN_CHAIN_PAYMENT.val = WAGE from rfl), g1w, h256]
      refine ⟨?_, ?_⟩
      · show WAGE ≤ n1.coins.get Spec.root.val
        omega
      · omega
  generalize hc2 : (n1.coins.put Spec.root.val (n1.coins.get Spec.root.val - WAGE)).put w.val (n1.coins.get w.val + WAGE) = c2 at hmv
  have hstep2 : n1.step E (.sendAmount ROOT_PUBLIC_ADDRESS.val w.val MAIN_CHAIN_PAYMENT) = (.done, { n1 with coins := c2 }) := by
    show (if ROOT_PUBLIC_ADDRESS.val = w.val then _ else n1.coinChange _) = _
    rw [if_neg hne', hmv]
    rfl
  have g2 : ∀ a, c2.get a = if a = w.val then n.coins.get w.val + WAGE else if a = Spec.root.val then
      n1.coins.get Spec.root.val - WAGE else n1.coins.get a := by
    intro a
    rw [← hc2, Spec.Book.get_put, Spec.Book.get_put, g1w]
  -- the fee
  have hadd : c2.add w.val (Spec.fee last.info.difficulty) = some (c2.put w.val (c2.get w.val + Spec.fee last.info.difficulty)) := by
    unfold Spec.Book.add
    rw [if_pos]
    rw [g2, if_pos rfl, h256]
    omega
  have key : ∀ c3 : Spec.Book, c3 = (if (K + 1) % 1000000 = 0 then c2 else
      c2.put w.val (c2.get w.val + Spec.fee last.info.difficulty)) → Ready E w c (K + 1) M N { n1 with coins := c3 } := by
    intro c3 hc3
    have g3 : ∀ a, a ≠ w.val → c3.get a = c2.get a := by
      intro a ha
      rw [hc3]
      split
      · rfl
      · rw [Spec.Book.get_put, if_neg ha]
    have g3w : c3.get w.val = n.coins.get w.val + WAGE +
        if n.blocks.length % 1000000 = 0 then 0 else Spec.fee last.info.difficulty := by
      rw [hc3, hlen]
      split
      · rw [g2, if_pos rfl]
      · rw [Spec.Book.get_put, if_pos rfl, g2, if_pos rfl]
    have hown : ownChain { n1 with coins := c3 } w = ownChain n w := by
      unfold ownChain
      show (n1.chains w).or (n1.saved w) = _
      rw [hch, hsa]
    refine ⟨?_, fun x hx => ?_, fun x hx => ?_, ?_, ⟨s', hs', ?_⟩, fun a h1 h2 => ?_, ?_, fun a ha => ?_, fun o ho => ?_,
      fun c' hc' => ?_, ?_, fun c' hc' => ?_⟩
    · show n1.blocks.length = _
      rw [hbl, List.length_append, hlen]
      rfl
    · have hx' : x ∈ n1.blocks := hx
      rw [hbl, List.mem_append, List.mem_singleton] at hx'
      rcases hx' with hx' | rfl
      · obtain ⟨a1, a2, a3⟩ := r.main x hx'
        exact ⟨a1, a2, fun h => UInt64.le_trans (a3 h) (hc h)⟩
      · exact ⟨hrd, hgd, fun _ => by rw [htm]; exact UInt64.le_refl _⟩
    · have hx' : x ∈ n1.blocks.tail := hx
      rw [hbl] at hx'
      have hnn : n.blocks ≠ [] := by rintro h; rw [h] at hlen; simp at hlen
      rw [List.tail_append_of_ne_nil hnn, List.mem_append, List.mem_singleton] at hx'
      rcases hx' with hx' | rfl
      · exact r.founders x hx'
      · exact hfo
    · show c3.get w.val + 228 * N = WAGE * (K + 1) + feesOf n1.blocks
      rw [g3w, hbl, feesOf_append hb1]
      omega
    · show c3.get Spec.root.val + _ = _
      rw [g3 _ (fun h => hne h.symm), g2, if_neg (fun h => hne h.symm), if_pos rfl]
      omega
    · show c3.get a = 0
      rw [g3 a h1, g2, if_neg h1, if_neg h2, hco]
      split
      · rw [Spec.Book.get_put, if_neg h2]; exact r.others a h1 h2
      · exact r.others a h1 h2
    · show n1.gas.get w.val + _ = _
      rw [hga]; exact r.gas
    · show n1.gas.get a = 0
      rw [hga]; exact r.gasOthers a ha
    · show n1.chains o = none ∧ n1.saved o = none
      rw [hch, hsa]; exact r.chains o ho
    · have : n1.saved w = some c' := hc'
      rw [hsa] at this
      exact r.saved c' this
    · rw [hown]; exact r.noChain
    · rw [hown] at hc'
      obtain ⟨⟨x, hx, hxd⟩, a2, a3⟩ := r.chain c' hc'
      refine ⟨⟨x, ?_, hxd⟩, a2, fun d hd => ?_⟩
      · show x ∈ n1.blocks
        rw [hbl]; exact List.mem_append_left _ hx
      · obtain ⟨e1, e2, e3⟩ := a3 d hd
        exact ⟨e1, e2, fun h => UInt64.le_trans (e3 h) (hc h)⟩
  by_cases he : (K + 1) % 1000000 = 0
  · exact ⟨n1, _, { n1 with coins := c2 }, h1, hstep2, by rw [if_pos he], key c2 (by rw [if_pos he]), hch, htxs,
      g1w, by show c2.get w.val = _; rw [g2, if_pos rfl], ⟨0, by omega, by show c2.get w.val = _; rw [g2, if_pos rfl]⟩, rfl, rfl, b, hbl, hcon⟩
  · refine ⟨n1, _, { n1 with coins := c2.put w.val (c2.get w.val + Spec.fee last.info.difficulty) }, h1, hstep2, ?_,
      key _ (by rw [if_neg he]), hch, htxs, g1w, by show c2.get w.val = _; rw [g2, if_pos rfl],
      ⟨_, hfee, by show (c2.put _ _).get w.val = _; rw [Spec.Book.get_put, if_pos rfl, g2, if_pos rfl]⟩, rfl, rfl, b, hbl, hcon⟩
    rw [if_neg he]
    show Spec.Node.coinChange _ (c2.add w.val (Spec.fee last.info.difficulty)) = _
    rw [hadd]
    rfl

/-! ## The wallet's own chain -/

/-- What the next block of the chain follows. -/
theorem base (r : Ready E w T K M N n) {c : Hash × List DerivativeBlock} (hc : n.chains w = some c) :
    ∃ p, baseOf E n c = some p ∧ GoodHead p.2.1 ∧ (E.overflowChecks = true → p.2.2 ≤ T) := by
  obtain ⟨⟨x, hx, hxd⟩, _, a3⟩ := r.chain c (by unfold ownChain; rw [hc]; rfl)
  unfold baseOf
  cases hl : c.2.getLast? with
  | some d =>
    obtain ⟨e1, _, e3⟩ := a3 d (List.mem_of_getLast? hl)
    exact ⟨_, rfl, e1, e3⟩
  | none =>
    simp only
    cases hf : n.withDigest E c.1 with
    | none =>
      unfold Spec.Node.withDigest at hf
      rw [List.find?_eq_none] at hf
      exact absurd (decide_eq_true hxd) (hf x (List.mem_reverse.mpr hx))
    | some y =>
      have hy : y ∈ n.blocks := List.mem_reverse.mp (List.mem_of_find?_eq_some hf)
      obtain ⟨m1, _, m3⟩ := r.main y hy
      refine ⟨_, by simp [m1]; rfl, ?_, m3⟩
      have hr : Spec.firstDifficulty = BEGINNING_DIFFICULTY := rfl
      rw [hr]; exact good_beginning

theorem opens (r : Ready E w T K M N n) :
    ∃ n', n.step E (.getDerivativeChain w) = (.done, n') ∧ Ready E w T K M N n' ∧ (n'.chains w).isSome := by
  show ∃ n', n.withChain E w (fun n _ => (.done, n)) = _ ∧ _
  unfold Spec.Node.withChain Spec.Node.openChain
  cases hc : n.chains w with
  | some c =>
    refine ⟨n, ?_, r, by rw [hc]; rfl⟩
    simp only [hc]
  | none =>
    obtain ⟨b, _, ht, hm⟩ := r.tip
    simp only [ht, Option.map_some]
    have h1 : (n.setChain w ((n.saved w).getD (Spec.digest E b, []))).chains w = some ((n.saved w).getD (Spec.digest E b, [])) := by
      simp [Spec.Node.setChain]
    simp only [h1]
    have hown : ownChain n w = n.saved w := by unfold ownChain; rw [hc]; rfl
    refine ⟨_, rfl, ⟨r.length, r.main, r.founders, r.coins, r.root, r.others, r.gas, r.gasOthers, fun o ho => ?_, r.saved,
      fun h => ?_, fun c' h => ?_⟩, by rw [h1]; rfl⟩
    · exact ⟨by simp only [Spec.Node.setChain, if_neg ho]; exact (r.chains o ho).1, (r.chains o ho).2⟩
    · unfold ownChain at h
      rw [h1] at h
      cases h
    · unfold ownChain at h
      rw [h1] at h
      have hc' : (n.saved w).getD (Spec.digest E b, []) = c' := by cases h; rfl
      cases hs : n.saved w with
      | some c =>
        rw [hs] at hc' hown
        cases hc'
        exact r.chain _ hown
      | none =>
        rw [hs] at hc' hown
        subst hc'
        refine ⟨⟨b, hm, rfl⟩, (r.noChain hown).symm, fun d hd => by cases hd⟩

theorem derived (r : Ready E w T K M N n) (hb : K + M < 10 ^ 50) {clock : UInt64} (hcl : E.overflowChecks = true → T ≤ clock)
    {c : Hash × List DerivativeBlock} (hc : n.chains w = some c) {p : Hash × Hash × UInt64} (hp : baseOf E n c = some p)
    {pow : BytesN 32} (hwork : Spec.enoughWork E p.1 p.2.1 [] pow = true) :
    ∃ n1 n2, n.step E (.emitDerivative pow w clock) = (.done, n1) ∧
      n1.step E (.addGas w.val MAIN_CHAIN_PAYMENT) = (.done, n2) ∧ Ready E w clock K (M + 1) N n2 ∧
      ∃ c', n2.chains w = some c' := by
  obtain ⟨p', hp', hg, ht⟩ := r.base hc
  rw [hp] at hp'
  cases hp'
  obtain ⟨prev, difficulty, before⟩ := p
  have hord : before ≤ clock ∨ E.overflowChecks = false := by
    cases ho : E.overflowChecks with
    | false => exact .inr rfl
    | true => exact .inl (UInt64.le_trans (ht ho) (hcl ho))
  obtain ⟨d, hd⟩ := next_ok (E := E) hg hord
  have hgood' := next_good hg hd
  have hown : ownChain n w = some c := by unfold ownChain; rw [hc]; rfl
  obtain ⟨a1, a2, a3⟩ := r.chain c hown
  have hmine : n.step E (.emitDerivative pow w clock) = n.mineOn E pow w clock c := by
    show n.withChain E w _ = _
    unfold Spec.Node.withChain Spec.Node.openChain
    simp only [hc]
  have hbase : (match c.2.getLast? with
    | some d => some (Spec.digest E (.derivative d), d.defaultInfo.difficulty, d.defaultInfo.timestamp)
    | none => ((n.withDigest E c.1).filter Spec.readable).map (fun b => (Spec.digest E b, Spec.firstDifficulty, b.info.timestamp)))
      = some (prev, difficulty, before) := hp
  have hm2 : ∃ blk : DerivativeBlock, n.mineOn E pow w clock c = (.done, n.setChain w (c.1, c.2 ++ [blk])) ∧
      GoodHead blk.defaultInfo.difficulty ∧ blk.defaultInfo.founder = w ∧ blk.defaultInfo.timestamp = clock := by
    unfold Spec.Node.mineOn Spec.Node.mineFrom
    split
    · rename_i heq
      exact absurd (hbase.symm.trans heq) (by simp)
    · rename_i p1 p2 p3 heq
      have := hbase.symm.trans heq
      cases this
      simp only at hwork hd
      simp only [hwork, hd, not_true_eq_false, if_false]
      exact ⟨_, rfl, hgood', rfl, rfl⟩
  obtain ⟨blk, hm3, b1, b2, b3⟩ := hm2
  have hgw := r.gas
  have h256 : (2 : Nat) ^ 256 = 115792089237316195423570985008687907853269984665640564039457584007913129639936 := by decide
  have h50 : (10 : Nat) ^ 50 = 100000000000000000000000000000000000000000000000000 := by decide
  have hadd : n.gas.add w.val MAIN_CHAIN_PAYMENT.val = some (n.gas.put w.val (n.gas.get w.val + WAGE)) := by
    rw [show MAIN_CHAIN_PAYMENT.val = WAGE from rfl]
    unfold Spec.Book.add
    rw [if_pos]
    rw [h256]
    omega
  have hch : (n.setChain w (c.1, c.2 ++ [blk])).chains w = some (c.1, c.2 ++ [blk]) := by simp [Spec.Node.setChain]
  refine ⟨_, { n.setChain w (c.1, c.2 ++ [blk]) with gas := n.gas.put w.val (n.gas.get w.val + WAGE) }, hmine.trans hm3, ?_, ?_, _, hch⟩
  · have e : ∀ m : Spec.Node, m.step E (.addGas w.val MAIN_CHAIN_PAYMENT) = m.gasChange (m.gas.add w.val MAIN_CHAIN_PAYMENT.val) :=
      fun _ => rfl
    have hg1 : (n.setChain w (c.1, c.2 ++ [blk])).gas = n.gas := rfl
    rw [e, hg1, hadd]
    rfl
  · refine ⟨r.length, fun b hb => ?_, r.founders, r.coins, r.root, r.others, ?_, fun a ha => ?_, fun o ho => ?_,
      fun c' hc' => Nat.le_succ_of_le (r.saved c' hc'), fun h => ?_, fun c' h => ?_⟩
    · obtain ⟨m1, m2, m3⟩ := r.main b hb
      exact ⟨m1, m2, fun h => UInt64.le_trans (m3 h) (hcl h)⟩
    · show (n.gas.put _ _).get _ + _ = _
      rw [Spec.Book.get_put, if_pos rfl]
      omega
    · show (n.gas.put _ _).get _ = _
      rw [Spec.Book.get_put, if_neg ha]
      exact r.gasOthers a ha
    · exact ⟨by simp only [Spec.Node.setChain, if_neg ho]; exact (r.chains o ho).1, (r.chains o ho).2⟩
    · unfold ownChain at h
      simp only [hch] at h
      cases h
    · unfold ownChain at h
      simp only [hch] at h
      cases h
      refine ⟨a1, ?_, fun x hx => ?_⟩
      · rw [List.length_append, a2]; rfl
      · rw [List.mem_append, List.mem_singleton] at hx
        rcases hx with hx | rfl
        · obtain ⟨e1, e2, e3⟩ := a3 x hx
          exact ⟨e1, e2, fun h => UInt64.le_trans (e3 h) (hcl h)⟩
        · exact ⟨b1, b2, fun _ => by rw [b3]; exact UInt64.le_refl _⟩

/-! ## The transaction -/

theorem sent (r : Ready E w T K M N n) (hw : w ≠ Spec.root) (hb : K + M < 10 ^ 50) (hN : N ≤ K) {tx : Transaction}
    (h1 : tx.sender = w) (h2 : tx.receiver = Spec.root) (h3 : tx.amount.val = 228) (h4 : tx.data = none) :
    if 0 < K ∧ POSTAGE ≤ n.gas.get w.val then
      ∃ n', n.step E (.sendTransaction tx) = (.done, n') ∧ Ready E w T K M (N + 1) n' ∧ n'.chains = n.chains ∧
        n'.blocks = n.blocks ∧ n'.txs = (E.sha256 tx.dump, tx) :: n.txs
    else n.step E (.sendTransaction tx) = (.refused, n) := by
  have hne : w.val ≠ Spec.root.val := fun h => hw (Subtype.ext h)
  have hprice : Spec.Node.gasPrice tx = POSTAGE := by
    unfold Spec.Node.gasPrice
    rw [h3, h4]
    have : (Spec.amountBytes 228).length = 2 := by
      unfold Spec.amountBytes
      rw [digits_pos (by decide), digits_zero]
      rfl
    rw [if_neg (by decide), this]
    rfl
  obtain ⟨last, hb1, hb2, hb3⟩ := r.tip
  have hfee : Spec.fee last.info.difficulty ≤ 16000000 := by
    have := zeroBits_le last.info.difficulty
    unfold Spec.fee
    omega
  have hcw := r.coins
  obtain ⟨s, hs, hroot⟩ := r.root
  have h256 : (2 : Nat) ^ 256 = 115792089237316195423570985008687907853269984665640564039457584007913129639936 := by decide
  have h50 : (10 : Nat) ^ 50 = 100000000000000000000000000000000000000000000000000 := by decide
  have hem : Spec.emission = 50010000000000000000000000 := rfl
  have hsend : n.step E (.sendTransaction tx) = if n.gas.get w.val < POSTAGE then (.refused, n)
      else if n.coins.get w.val < Spec.fee last.info.difficulty + 228 then (.refused, n)
      else match n.coins.move w.val Spec.root.val 228 with
        | none => (.crash, n.store E [tx])
        | some coins => (.done, { n.store E [tx] with coins, gas := n.gas.put w.val (n.gas.get w.val - POSTAGE) }) := by
    show n.send E tx = _
    unfold Spec.Node.send
    rw [hprice, h1, h2, h3, if_neg (show ¬ ¬ POSTAGE < 2 ^ 256 by rw [h256]; omega)]
    simp only [hb2]
    rw [if_neg (show ¬ ¬ Spec.fee last.info.difficulty + 228 < 2 ^ 256 by rw [h256]; omega), if_neg hw]
    rfl
  rw [hsend]
  by_cases hcase : 0 < K ∧ POSTAGE ≤ n.gas.get w.val
  · rw [if_pos hcase, if_neg (by omega), if_neg (by omega)]
    have hmv : n.coins.move w.val Spec.root.val 228 = some ((n.coins.put w.val (n.coins.get w.val - 228)).put Spec.root.val
        (n.coins.get Spec.root.val + 228)) := by
      unfold Spec.Book.move
      rw [if_pos]
      rw [h256]
      omega
    simp only [hmv]
    refine ⟨_, rfl, ⟨r.length, r.main, r.founders, ?_, ⟨s + 1, by omega, ?_⟩, fun a g1 g2 => ?_, ?_, fun a ha => ?_, r.chains, r.saved,
      r.noChain, r.chain⟩, rfl, rfl, rfl⟩
    · show ((n.coins.put _ _).put _ _).get _ + _ = _ + feesOf n.blocks
      rw [Spec.Book.get_put, if_neg hne, Spec.Book.get_put, if_pos rfl]
      omega
    · show ((n.coins.put _ _).put _ _).get _ + _ = _
      rw [Spec.Book.get_put, if_pos rfl]
      omega
    · show ((n.coins.put _ _).put _ _).get _ = _
      rw [Spec.Book.get_put, if_neg g2, Spec.Book.get_put, if_neg g1]
      exact r.others a g1 g2
    · show (n.gas.put w.val (n.gas.get w.val - POSTAGE)).get w.val + POSTAGE * (N + 1) = WAGE * M
      have hg := r.gas
      have hle := hcase.2
      rw [Spec.Book.get_put, if_pos rfl]
      clear * - hg hle
      omega
    · show (n.gas.put _ _).get _ = _
      rw [Spec.Book.get_put, if_neg ha]
      exact r.gasOthers a ha
  · rw [if_neg hcase]
    by_cases hg : n.gas.get w.val < POSTAGE
    · rw [if_pos hg]
    · rw [if_neg hg, if_pos]
      have hK : K = 0 := by omega
      have hf := feesOf_le n.blocks
      rw [r.length, hK] at hf
      subst hK
      omega

end Ready
end
end BCT
