import Verif.Props.ThreadsSum
/-!
# C179: calls that are all covered are all accepted, under every schedule
-/

namespace BCT.Props
open BCT

/-! ## Statement -/

/-- The call sends a transaction, stores one, or deposits, withdraws, moves or asks for coins or gas. -/
def Deal.Paying : Deal → Prop
  | .brief (.setAmount ..) => False
  | .send _ | .brief _ => True
  | _ => False

/-- The coins the call takes from an account. -/
def Deal.spends : Deal → Bytes → Nat
  | .send tx, k => if k = tx.sender.val then tx.amount.val else 0
  | .brief (.subAmount o n), k => if k = o then n.val else 0
  | .brief (.sendAmount a _ n), k => if k = a then n.val else 0
  | _, _ => 0

/-- The coins the call gives to an account. -/
def Deal.gains : Deal → Bytes → Nat
  | .send tx, k => if k = tx.receiver.val then tx.amount.val else 0
  | .brief (.addAmount o n), k => if k = o then n.val else 0
  | .brief (.sendAmount _ b n), k => if k = b then n.val else 0
  | _, _ => 0

/-- The gas the call takes from an account. -/
def Deal.burns : Deal → Bytes → Nat
  | .send tx, k => if k = tx.sender.val then 625000000000 * tx.getDumpSize else 0
  | .brief (.subGas o n), k => if k = o then n.val else 0
  | .brief (.sendGas a _ n), k => if k = a then n.val else 0
  | _, _ => 0

/-- The gas the call gives to an account. -/
def Deal.fills : Deal → Bytes → Nat
  | .brief (.addGas o n), k => if k = o then n.val else 0
  | .brief (.sendGas _ b n), k => if k = b then n.val else 0
  | _, _ => 0

/-- Each account has what all calls together take from it, and room for what all calls together give to it; a sender has the fee
besides. -/
structure Covered {ι : Type} [Fintype ι] (call : ι → Deal) (f g : Spec.Accounts) (fee : Nat) : Prop where
  coins : ∀ k, ∑ i, (call i).spends k ≤ f k
  room : ∀ k, f k + ∑ i, (call i).gains k < 2 ^ 256
  gas : ∀ k, ∑ i, (call i).burns k ≤ g k
  tank : ∀ k, g k + ∑ i, (call i).fills k < 2 ^ 256
  fee : ∀ i tx, call i = .send tx → fee + ∑ j, (call j).spends tx.sender.val ≤ f tx.sender.val

/-! ## One call -/

/-- What the call finds while it is under way: what it takes and the room for what it gives. -/
structure Provided (d : Deal) (fee : Nat) (n : Node) (took : Bool) : Prop where
  coins : took = false → ∀ k, d.spends k ≤ (n.data.summary.cur.amt k).val ∧ (n.data.summary.cur.amt k).val + d.gains k < U256.size
  gas : ∀ k, d.burns k ≤ (n.data.gas.cur.amt k).val ∧ (n.data.gas.cur.amt k).val + d.fills k < U256.size
  fee : took = false → ∀ tx, d = .send tx → fee + tx.amount.val ≤ (n.data.summary.cur.amt tx.sender.val).val

/-- The call still to be made returns `Ok`, having added `dC` to the coins, unless it has (`took`), and `dG` to the gas by its
last step. -/
def Sure {α : Type} (ch : Chain) (K : Node → Bool → Prop) (dC dG : Bytes → Int) : Prog Node α → Bool → Prop
  | .done o, took => took = true ∧ cameThrough (Prog.done (σ := Node) o) = true
  | .step next rest, took => ∀ n n', Readable n → K n took → n.data.main.chain = ch → next n = some n' →
      Readable n' ∧ n'.data.main.chain = ch ∧ ∃ took', (took = true → took' = true) ∧
      (∀ k, ((n'.data.summary.cur.amt k).val : Int) = (n.data.summary.cur.amt k).val + if took = false ∧ took' = true then dC k else 0) ∧
      (∀ k, ((n'.data.gas.cur.amt k).val : Int) = (n.data.gas.cur.amt k).val + if cameThrough (rest n) = true then dG k else 0) ∧
      Sure ch K dC dG (rest n) took'

/-- The part of the call returns a value with `P` and leaves the money and the chain alone. -/
def Peeks {α : Type} (ch : Chain) (K : Node → Prop) (P : α → Prop) : Prog Node α → Prop
  | .done o => ∃ a, o = .ok a ∧ P a
  | .step next rest => ∀ n n', Readable n → K n → n.data.main.chain = ch → next n = some n' →
      NoMoney n n' ∧ n'.data.main.chain = ch ∧ Peeks ch K P (rest n)

section
variable {α β : Type} {ch : Chain} {K : Node → Bool → Prop} {dC dG : Bytes → Int}

theorem Sure.through {p : Prog Node α} {t : Bool} (h : Sure ch K dC dG p t) : cameThrough p = true → t = true := by
  cases p with
  | done o => exact fun _ => h.1
  | step next rest => intro h1; cases h1

theorem Peeks.bind {K : Node → Prop} {P : α → Prop} {Q : β → Prop} {p : Prog Node α} {f : α → Prog Node β}
    (hp : Peeks ch K P p) (hf : ∀ a, P a → Peeks ch K Q (f a)) : Peeks ch K Q (p >>= f) := by
  change Peeks ch K Q (Prog.bind p f)
  induction p with
  | done o =>
    obtain ⟨a, rfl, h⟩ := hp
    exact hf a h
  | step next rest ih =>
    intro n n' h1 h2 h3 h4
    obtain ⟨g1, g2, g3⟩ := hp n n' h1 h2 h3 h4
    exact ⟨g1, g2, ih n g3⟩

theorem peeks_read {K : Node → Prop} {P : α → Prop} {f : Tree → Outcome α}
    (h : ∀ n : Node, Readable n → K n → n.data.main.chain = ch → ∃ a, f n.data = .ok a ∧ P a) : Peeks ch K P (Node.read f) :=
  fun n n' h1 h2 h3 h4 => by
    cases h4
    exact ⟨⟨rfl, rfl⟩, h3, h n h1 h2 h3⟩

theorem peeks_readHeight {K : Node → Prop} : Peeks ch K (· = ch.height) Node.readHeight := fun n n' h1 h2 h3 h4 => by
  simp only [Option.ite_none_left_eq_some] at h4
  cases h4.2
  exact ⟨⟨rfl, rfl⟩, h3, _, rfl, by rw [h3]⟩

theorem peeks_lift {K : Node → Prop} {P : α → Prop} {o : Outcome α} {a : α} (h : o = .ok a) (hP : P a) :
    Peeks ch K P (Prog.lift o) := ⟨a, h, hP⟩

theorem peeks_last {K : Node → Prop} {m : MainChain} {last : Block} (h : m.getLastBlock = .ok (some last)) :
    Peeks m.chain K (· = some last) Node.getLastBlock := by
  unfold MainChain.getLastBlock MainChain.getLastRawBlock at h
  cases hs : m.chain.height.sub U256.one with
  | err e => rw [hs] at h; cases h
  | panic e => rw [hs] at h; cases h
  | ub => rw [hs] at h; cases h
  | ok i =>
  rw [hs] at h
  have h : MainChain.decode (m.findRawByHeight i) = .ok (some last) := h
  unfold Node.getLastBlock Node.getLastRawBlock
  refine .bind (P := (· = m.findRawByHeight i)) (.bind peeks_readHeight fun a ha => .bind (P := (· = i))
    (peeks_lift (by rw [ha]; exact hs) rfl) fun b hb => ?_) fun a ha => peeks_lift (by rw [ha]; exact h) rfl
  subst hb
  unfold Node.findRawByHeight
  refine .bind peeks_readHeight fun a ha => ?_
  subst ha
  unfold MainChain.findRawByHeight Chain.findRawByHeight
  split
  · exact ⟨none, rfl, rfl⟩
  · exact peeks_read fun n _ _ h3 => ⟨_, rfl, by rw [h3]⟩

theorem sure_peek {P : α → Prop} {p : Prog Node α} {f : α → Prog Node β} (hp : Peeks ch (K · false) P p)
    (hf : ∀ a, P a → Sure ch K dC dG (f a) false) : Sure ch K dC dG (p >>= f) false := by
  change Sure ch K dC dG (Prog.bind p f) false
  induction p with
  | done o =>
    obtain ⟨a, rfl, h⟩ := hp
    exact hf a h
  | step next rest ih =>
    intro n n' h1 h2 h3 h4
    obtain ⟨g1, g2, g3⟩ := hp n n' h1 h2 h3 h4
    have g4 := ih n g3
    refine ⟨readable_same g1 h1, g2, false, fun h => h, fun k => ?_, fun k => ?_, g4⟩
    · rw [g1.2]; simp
    · have : cameThrough (Prog.bind (rest n) f) ≠ true := fun h => by cases g4.through h
      change _ = _ + if cameThrough (Prog.bind (rest n) f) = true then _ else _
      rw [g1.1, if_neg this]; simp

/-- A call of one step that moves nothing. -/
theorem sure_only {next : Node → Option Node} {rest : Node → Prog Node α}
    (h : ∀ n n', Readable n → next n = some n' → NoMoney n n' ∧ n'.data.main.chain = n.data.main.chain ∧ ∃ a, rest n = .done (.ok a)) :
    Sure ch K (fun _ => 0) (fun _ => 0) (.step next rest) false := by
  intro n n' h1 _ h3 h4
  obtain ⟨g1, g2, a, g3⟩ := h n n' h1 h4
  refine ⟨readable_same g1 h1, g2.trans h3, true, fun _ => rfl, fun k => ?_, fun k => ?_, ?_⟩
  · rw [g1.2]; simp
  · rw [g1.1]; simp
  · rw [g3]
    exact ⟨rfl, rfl⟩

theorem sure_map {p : Prog Node α} {t : Bool} (h : α → β) (hp : Sure ch K dC dG p t) :
    Sure ch K dC dG (p >>= fun a => pure (h a)) t := by
  change Sure ch K dC dG (Prog.bind p fun a => .done (.ok (h a))) t
  induction p generalizing t with
  | done o =>
    cases o with
    | ok a => exact ⟨hp.1, rfl⟩
    | err e => exact absurd hp.2 (by simp [cameThrough])
    | panic e => exact absurd hp.2 (by simp [cameThrough])
    | ub => exact absurd hp.2 (by simp [cameThrough])
  | step next rest ih =>
    intro n n' a1 a2 a3 a4
    obtain ⟨h1, h1', t', h2, h3, h4, h5⟩ := hp n n' a1 a2 a3 a4
    refine ⟨h1, h1', t', h2, h3, fun k => ?_, ih n h5⟩
    change _ = _ + if cameThrough (Prog.bind (rest n) _) = true then _ else _
    rw [came_map]
    exact h4 k

theorem sure_act {x : Act Tree Unit} (h : AllOrNothing x dC dG) (hm : ∀ t, (x t).final.main = t.main)
    (hk : ∀ n : Node, Readable n → K n false → (x n.data).out = .ok ()) : Sure ch K dC dG (Node.onTree x) false := by
  intro n n' a1 a2 a3 a4
  cases a4
  have hm : (x.zoom (·.data) (fun t (n : Node) => { n with data := t }) n).final.data.main = n.data.main := hm n.data
  change _ ∧ _ ∧ ∃ t', _ ∧ _ ∧ (∀ k, _ = _ + if cameThrough (Prog.done (σ := Node) ((x n.data).out)) = true then _ else _) ∧
    Sure ch K dC dG (Prog.done (σ := Node) ((x n.data).out)) t'
  have ho := hk n a1 a2
  rcases h n.data a1.1 a1.2 with ⟨h1, h2, h3, h4, h5⟩ | ⟨⟨e, h1⟩, h2⟩
  · rw [h1]
    refine ⟨⟨h2, h3⟩, by rw [hm]; exact a3, true, fun h => (by cases h), fun k => ?_, fun k => ?_, rfl, rfl⟩
    · rw [if_pos ⟨rfl, rfl⟩]; exact h4 k
    · change _ = _ + if true = true then _ else _
      rw [if_pos rfl]; exact h5 k
  · rw [ho] at h1; cases h1

theorem sure_pay {x y : Act Tree Unit} (hx : AllOrNothing x dC fun _ => 0) (hy : AllOrNothing y (fun _ => 0) dG)
    (hm : ∀ t, (x t).final.main = t.main) (hm' : ∀ t, (y t).final.main = t.main)
    (hk : ∀ n : Node, Readable n → K n false → (x n.data).out = .ok ())
    (hk' : ∀ n : Node, Readable n → K n true → (y n.data).out = .ok ()) :
    Sure ch K dC dG (Node.onTree x >>= fun _ => Node.onTree y) false := by
  intro n n' a1 a2 a3 a4
  cases a4
  have hm : (x.zoom (·.data) (fun t (n : Node) => { n with data := t }) n).final.data.main = n.data.main := hm n.data
  change _ ∧ _ ∧ ∃ t', _ ∧ _ ∧ (∀ k, _ = _ + if cameThrough (Prog.bind (Prog.done (σ := Node) ((x n.data).out))
    fun _ => Node.onTree y) = true then _ else _) ∧
    Sure ch K dC dG (Prog.bind (Prog.done (σ := Node) ((x n.data).out)) fun _ => Node.onTree y) t'
  have ho := hk n a1 a2
  rcases hx n.data a1.1 a1.2 with ⟨h1, h2, h3, h4, h5⟩ | ⟨⟨e, h1⟩, h2⟩
  · rw [h1]
    refine ⟨⟨h2, h3⟩, by rw [hm]; exact a3, true, fun h => (by cases h), fun k => ?_, fun k => ?_, ?_⟩
    · rw [if_pos ⟨rfl, rfl⟩]; exact h4 k
    · change _ = _ + if false = true then _ else _
      rw [if_neg (by simp)]; exact h5 k
    intro m m' b1 b2 b3 b4
    cases b4
    have hm' : (y.zoom (·.data) (fun t (n : Node) => { n with data := t }) m).final.data.main = m.data.main := hm' m.data
    change _ ∧ _ ∧ ∃ t', _ ∧ _ ∧ (∀ k, _ = _ + if cameThrough (Prog.done (σ := Node) ((y m.data).out)) = true then _ else _) ∧
      Sure ch K dC dG (Prog.done (σ := Node) ((y m.data).out)) t'
    have ho' := hk' m b1 b2
    rcases hy m.data b1.1 b1.2 with ⟨g1, g2, g3, g4, g5⟩ | ⟨⟨e, g1⟩, g2⟩
    · rw [g1]
      refine ⟨⟨g2, g3⟩, by rw [hm']; exact b3, true, fun h => h, fun k => ?_, fun k => ?_, rfl, rfl⟩
      · rw [if_neg (by simp)]; exact g4 k
      · change _ = _ + if true = true then _ else _
        rw [if_pos rfl]; exact g5 k
    · rw [ho'] at g1; cases g1
  · rw [ho] at h1; cases h1

end

theorem add_fits {d : Db} (hd : d.cur.Dec) {o : Bytes} {n : U256} (h : (d.cur.amt o).val + n.val < U256.size) :
    (Ledger.add o n d).out = .ok () := by
  rcases Ledger.add_run hd o n with ⟨_, e⟩ | ⟨hlt, _⟩
  · rw [e]
  · exact absurd h hlt

theorem sub_fits {d : Db} (hd : d.cur.Dec) {o : Bytes} {n : U256} (h : n.val ≤ (d.cur.amt o).val) :
    (Ledger.sub o n d).out = .ok () := by
  rcases Ledger.sub_run hd o n with ⟨_, e⟩ | ⟨hlt, _⟩
  · rw [e]
  · omega

theorem transfer_fits {d : Db} (hd : d.cur.Dec) {a b : Bytes} {n : U256} (h : n.val ≤ (d.cur.amt a).val)
    (h' : (d.cur.amt b).val + n.val < U256.size) : (Ledger.transfer a b n d).out = .ok () := by
  rcases Ledger.transfer_run hd a b n with ⟨_, _, e⟩ | ⟨hlt, _⟩ | ⟨_, hlt, _⟩
  · rw [e]
  · omega
  · exact absurd h' hlt

theorem sendAmount_fits {t : Tree} (hd : t.summary.cur.Dec) {a b : Bytes} {n : U256} (h : n.val ≤ (t.summary.cur.amt a).val)
    (h' : (t.summary.cur.amt b).val + n.val < U256.size) : (Tree.sendAmount a b n t).out = .ok () := by
  unfold Tree.sendAmount
  split
  · rfl
  · exact transfer_fits hd h h'

theorem transfer_main (a b : Bytes) (n : U256) (t : Tree) : (Tree.sendAmount a b n t).final.main = t.main := by
  unfold Tree.sendAmount
  split <;> rfl

theorem sure_send (E : Env) (tx : Transaction) {m : MainChain} {last : Block} {fee : U256}
    (hl : m.getLastBlock = .ok (some last)) (hfee : recalculateFee last.info.difficulty = .ok fee) :
    Sure m.chain (Provided (.send tx) fee.val) (coinDelta (.sendTransaction tx)) (gasDelta (.sendTransaction tx))
      (Node.sendTransaction E tx) false := by
  have burn : (Deal.send tx).burns tx.sender.val = 625000000000 * tx.getDumpSize := if_pos rfl
  have spend : (Deal.send tx).spends tx.sender.val = tx.amount.val := if_pos rfl
  have gain : (Deal.send tx).gains tx.receiver.val = tx.amount.val := if_pos rfl
  unfold Node.sendTransaction
  refine sure_peek (P := fun a => 625000000000 * tx.getDumpSize ≤ a.val) (peeks_read fun n h1 h2 _ => ⟨_, h1.1.balance _, by
    rw [← burn]; exact (h2.gas _).1⟩) fun a ha => ?_
  refine sure_peek (P := fun b => fee.val + tx.amount.val ≤ b.val) (peeks_read fun n h1 h2 _ => ⟨_, h1.2.balance _,
    h2.fee rfl tx rfl⟩) fun b hb => ?_
  have hlt : 625000000000 * tx.getDumpSize < U256.size := by have := a.lt; omega
  have hmul : BYTE_GAS_PRICE.mulNat tx.getDumpSize = .ok ⟨_, hlt⟩ := by
    unfold U256.mulNat
    exact dif_pos hlt
  refine sure_peek (peeks_lift hmul (P := (· = ⟨_, hlt⟩)) rfl) fun v hv => ?_
  have hv : v.val = 625000000000 * tx.getDumpSize := by rw [hv]
  rw [if_neg (by omega)]
  refine sure_peek (peeks_last hl) fun x hx => sure_peek (peeks_lift (P := (· = last)) (by rw [hx]; rfl) rfl) fun y hy =>
    sure_peek (peeks_lift (P := (· = fee)) (by rw [hy]; exact hfee) rfl) fun z hz => ?_
  have hlt : fee.val + tx.amount.val < U256.size := by have := b.lt; omega
  refine sure_peek (peeks_lift (a := ⟨_, hlt⟩) (P := (· = ⟨_, hlt⟩)) (by rw [hz]; exact dif_pos hlt) rfl) fun w hw => ?_
  rw [if_neg (by rw [hw]; simp only; omega)]
  refine sure_peek (P := fun _ => True) ?_ fun _ _ => sure_pay (whole_sendAmount _ _ _) ?_
    (fun t => transfer_main _ _ _ t) (fun t => rfl) (fun n h1 h2 => ?_) fun n h1 h2 => ?_
  · intro n n' h1 h2 h3 h4
    cases h4
    exact ⟨⟨rfl, rfl⟩, h3, (), rfl, trivial⟩
  · have h : gasDelta (.sendTransaction tx) = gasDelta (.subGas tx.sender.val v) := funext fun k => by
      change (if _ then _ else _) = (if _ then _ else _)
      rw [hv]
    rw [h]
    exact whole_subGas _ _
  · refine sendAmount_fits h1.2 ?_ ?_
    · rw [← spend]; exact (h2.coins rfl _).1
    · rw [← gain]; exact (h2.coins rfl _).2
  · exact sub_fits h1.1 (by rw [hv, ← burn]; exact (h2.gas _).1)

theorem sure_deal (E : Env) (d : Deal) (h : d.Paying) {m : MainChain} {last : Block} {fee : U256}
    (hl : m.getLastBlock = .ok (some last)) (hfee : recalculateFee last.info.difficulty = .ok fee) :
    Sure m.chain (Provided d fee.val) d.coins d.gas (d.prog E) false := by
  cases d with
  | send tx => exact sure_map _ (sure_send E tx hl hfee)
  | lookup l => exact h.elim
  | add b => exact h.elim
  | flush => exact h.elim
  | brief x =>
    cases x with
    | addTransaction t =>
      refine sure_map _ (sure_only (α := Unit) fun n n' h1 h2 => ?_)
      cases h2
      exact ⟨⟨rfl, rfl⟩, rfl, (), rfl⟩
    | addAmount o n =>
      refine sure_map _ (sure_act (whole_addAmount o n) (fun _ => rfl) fun m h1 h2 => add_fits h1.2 ?_)
      have := (h2.coins rfl o).2
      rwa [show (Deal.brief (.addAmount o n)).gains o = n.val from if_pos rfl] at this
    | subAmount o n =>
      refine sure_map _ (sure_act (whole_subAmount o n) (fun _ => rfl) fun m h1 h2 => sub_fits h1.2 ?_)
      have := (h2.coins rfl o).1
      rwa [show (Deal.brief (.subAmount o n)).spends o = n.val from if_pos rfl] at this
    | setAmount o n => exact h.elim
    | sendAmount a b n =>
      refine sure_map _ (sure_act (whole_sendAmount a b n) (fun t => transfer_main _ _ _ t) fun m h1 h2 =>
        sendAmount_fits h1.2 ?_ ?_)
      · have := (h2.coins rfl a).1
        rwa [show (Deal.brief (.sendAmount a b n)).spends a = n.val from if_pos rfl] at this
      · have := (h2.coins rfl b).2
        rwa [show (Deal.brief (.sendAmount a b n)).gains b = n.val from if_pos rfl] at this
    | getAmount o =>
      refine sure_map _ (sure_only fun n n' h1 h2 => ?_)
      cases h2
      exact ⟨⟨rfl, rfl⟩, rfl, _, congrArg Prog.done (h1.2.balance o.val)⟩
    | addGas o n =>
      refine sure_map _ (sure_act (whole_addGas o n) (fun _ => rfl) fun m h1 h2 => add_fits h1.1 ?_)
      have := (h2.gas o).2
      rwa [show (Deal.brief (.addGas o n)).fills o = n.val from if_pos rfl] at this
    | subGas o n =>
      refine sure_map _ (sure_act (whole_subGas o n) (fun _ => rfl) fun m h1 h2 => sub_fits h1.1 ?_)
      have := (h2.gas o).1
      rwa [show (Deal.brief (.subGas o n)).burns o = n.val from if_pos rfl] at this
    | sendGas a b n =>
      refine sure_map _ (sure_act (whole_sendGas a b n) (fun _ => rfl) fun m h1 h2 => transfer_fits h1.1 ?_ ?_)
      · have := (h2.gas a).1
        rwa [show (Deal.brief (.sendGas a b n)).burns a = n.val from if_pos rfl] at this
      · have := (h2.gas b).2
        rwa [show (Deal.brief (.sendGas a b n)).fills b = n.val from if_pos rfl] at this
    | getGas o =>
      refine sure_map _ (sure_only fun n n' h1 h2 => ?_)
      cases h2
      exact ⟨⟨rfl, rfl⟩, rfl, _, congrArg Prog.done (h1.1.balance o.val)⟩

/-! ## All threads -/

theorem move_within (a b : Bytes) (n : Nat) (k : Bytes) : -((if k = a then n else 0 : Nat) : Int) ≤ moveDelta a b n k ∧
    moveDelta a b n k ≤ (if k = b then n else 0 : Nat) := by
  unfold moveDelta
  split_ifs <;> constructor <;> simp

theorem coins_within (d : Deal) (k : Bytes) : -(d.spends k : Int) ≤ d.coins k ∧ d.coins k ≤ d.gains k := by
  have nil : -((0 : Nat) : Int) ≤ 0 ∧ (0 : Int) ≤ (0 : Nat) := by simp
  cases d with
  | send tx => exact move_within _ _ _ _
  | lookup l => exact nil
  | add b => exact nil
  | flush => exact nil
  | brief x =>
    cases x with
    | addAmount o n =>
      change -((0 : Nat) : Int) ≤ (if k = o then (n.val : Int) else 0) ∧ (if k = o then (n.val : Int) else 0) ≤ (if k = o then n.val else 0 : Nat)
      split_ifs <;> simp
    | subAmount o n =>
      change -((if k = o then n.val else 0 : Nat) : Int) ≤ (if k = o then -(n.val : Int) else 0) ∧
        (if k = o then -(n.val : Int) else 0) ≤ (0 : Nat)
      split_ifs <;> simp
    | sendAmount a b n => exact move_within _ _ _ _
    | _ => exact nil

theorem gas_within (d : Deal) (k : Bytes) : -(d.burns k : Int) ≤ d.gas k ∧ d.gas k ≤ d.fills k := by
  have nil : -((0 : Nat) : Int) ≤ 0 ∧ (0 : Int) ≤ (0 : Nat) := by simp
  cases d with
  | send tx =>
    change -((if k = tx.sender.val then 625000000000 * tx.getDumpSize else 0 : Nat) : Int) ≤
      (if k = tx.sender.val then -((625000000000 * tx.getDumpSize : Nat) : Int) else 0) ∧
      (if k = tx.sender.val then -((625000000000 * tx.getDumpSize : Nat) : Int) else 0) ≤ (0 : Nat)
    split_ifs
    · exact ⟨Int.le_refl _, by omega⟩
    · exact nil
  | lookup l => exact nil
  | add b => exact nil
  | flush => exact nil
  | brief x =>
    cases x with
    | addGas o n =>
      change -((0 : Nat) : Int) ≤ (if k = o then (n.val : Int) else 0) ∧ (if k = o then (n.val : Int) else 0) ≤ (if k = o then n.val else 0 : Nat)
      split_ifs <;> simp
    | subGas o n =>
      change -((if k = o then n.val else 0 : Nat) : Int) ≤ (if k = o then -(n.val : Int) else 0) ∧
        (if k = o then -(n.val : Int) else 0) ≤ (0 : Nat)
      split_ifs <;> simp
    | sendGas a b n =>
      change -((if k = a then n.val else 0 : Nat) : Int) ≤
        (if a = b then (if k = a then (n.val : Int) else 0) else moveDelta a b n.val k) ∧
        (if a = b then (if k = a then (n.val : Int) else 0) else moveDelta a b n.val k) ≤ (if k = b then n.val else 0 : Nat)
      by_cases hab : a = b
      · subst hab
        rw [if_pos rfl]
        split_ifs
        · exact ⟨by omega, Int.le_refl _⟩
        · exact nil
      · rw [if_neg hab]
        exact move_within _ _ _ _
    | _ => exact nil

section
variable {ι : Type} [DecidableEq ι] [Fintype ι]

/-- What others can have done to an account. -/
theorem sum_within (P : ι → Bool) (δ : ι → Int) (a b : ι → Nat) (h : ∀ j, -(a j : Int) ≤ δ j ∧ δ j ≤ b j) (i : ι)
    (hi : P i = false) : (a i : Int) - (∑ j, a j : Nat) ≤ ∑ j, (if P j = true then δ j else 0) ∧
      (∑ j, (if P j = true then δ j else 0)) ≤ (∑ j, b j : Nat) - (b i : Int) := by
  have e : ∀ f : ι → Nat, ∑ j, f j = f i + ∑ j ∈ Finset.univ.erase i, f j := fun f =>
    (Finset.add_sum_erase _ _ (Finset.mem_univ i)).symm
  rw [e a, e b, ← Finset.add_sum_erase _ _ (Finset.mem_univ i), hi]
  have h1 : -((∑ j ∈ Finset.univ.erase i, a j : Nat) : Int) ≤ ∑ j ∈ Finset.univ.erase i, (if P j = true then δ j else 0) := by
    rw [Nat.cast_sum, ← Finset.sum_neg_distrib]
    refine Finset.sum_le_sum fun j _ => ?_
    split_ifs
    · exact (h j).1
    · omega
  have h2 : ∑ j ∈ Finset.univ.erase i, (if P j = true then δ j else 0) ≤ ((∑ j ∈ Finset.univ.erase i, b j : Nat) : Int) := by
    rw [Nat.cast_sum]
    refine Finset.sum_le_sum fun j _ => ?_
    split_ifs
    · exact (h j).2
    · omega
  simp only [Bool.false_eq_true, if_false]
  omega

theorem exec_sure {E : Env} {s : Tree} (hs : Readable ⟨s, false⟩) {last : Block} {fee : U256}
    (hl : s.main.getLastBlock = .ok (some last)) (hfee : recalculateFee last.info.difficulty = .ok fee)
    {call : ι → Deal} (hc : ∀ i, (call i).Paying)
    (hcov : Covered call (fun k => (s.summary.cur.amt k).val) (fun k => (s.gas.cur.amt k).val) fee.val)
    {log : List (Event ι Node)} {c : Config ι Node Reply} (h : Exec ⟨⟨s, false⟩, fun i => (call i).prog E⟩ log c) :
    Readable c.shared ∧ c.shared.data.main.chain = s.main.chain ∧ ∃ took : ι → Bool,
      (∀ k, ((c.shared.data.summary.cur.amt k).val : Int) = (s.summary.cur.amt k).val + ∑ i, if took i = true then (call i).coins k else 0) ∧
      (∀ k, ((c.shared.data.gas.cur.amt k).val : Int) =
        (s.gas.cur.amt k).val + ∑ i, if cameThrough (c.threads i) = true then (call i).gas k else 0) ∧
      ∀ i, Sure s.main.chain (Provided (call i) fee.val) (call i).coins (call i).gas (c.threads i) (took i) := by
  induction h with
  | refl =>
    have hb := fun i => sure_deal E (call i) (hc i) hl hfee
    refine ⟨hs, rfl, fun _ => false, fun k => by simp, fun k => ?_, hb⟩
    have : ∀ i, cameThrough ((call i).prog E) ≠ true := fun i h => by cases (hb i).through h
    simp [this]
  | @step log c i next rest s' _ hi hn ih =>
    obtain ⟨hr, hch, took, h1, h2, h3⟩ := ih
    have h4 := h3 i
    rw [hi] at h4
    have hnot : cameThrough (c.threads i) = false := by rw [hi]; rfl
    have size : (2 : Nat) ^ 256 = U256.size := rfl
    have hK : Provided (call i) fee.val c.shared (took i) := by
      have coins : took i = false → ∀ k, (f : Nat) → f + ∑ j, (call j).spends k ≤ (s.summary.cur.amt k).val →
          f + (call i).spends k ≤ (c.shared.data.summary.cur.amt k).val := fun ht k f hf => by
        have w := (sum_within took (fun j => (call j).coins k) (fun j => (call j).spends k) (fun j => (call j).gains k)
          (fun j => coins_within _ k) i ht).1
        have := h1 k
        omega
      refine ⟨fun ht k => ⟨?_, ?_⟩, fun k => ?_, fun ht tx htx => ?_⟩
      · have := coins ht k 0 (by have := hcov.coins k; omega)
        omega
      · have w := (sum_within took (fun j => (call j).coins k) (fun j => (call j).spends k) (fun j => (call j).gains k)
          (fun j => coins_within _ k) i ht).2
        have := h1 k
        have := hcov.room k
        omega
      · have w := sum_within (fun j => cameThrough (c.threads j)) (fun j => (call j).gas k) (fun j => (call j).burns k)
          (fun j => (call j).fills k) (fun j => gas_within _ k) i hnot
        have := h2 k
        have := hcov.gas k
        have := hcov.tank k
        constructor <;> omega
      · have := coins ht tx.sender.val fee.val (hcov.fee i tx htx)
        rwa [htx, show (Deal.send tx).spends tx.sender.val = tx.amount.val from if_pos rfl] at this
    obtain ⟨g1, g0, t', g2, g3, g4, g5⟩ := h4 _ _ hr hK hch hn
    refine ⟨g1, g0, Function.update took i t', fun k => ?_, fun k => ?_, fun j => ?_⟩
    · rw [sum_gain took _ (fun j => (call j).coins k) i (by rw [Function.update_self]; exact g2)
        (fun j hj => Function.update_of_ne hj _ _), Function.update_self]
      have := g3 k
      have := h1 k
      simp only at *
      omega
    · have e := sum_gain (fun j => cameThrough (c.threads j)) (fun j => cameThrough (Function.update c.threads i (rest c.shared) j))
        (fun j => (call j).gas k) i (fun h => by rw [hnot] at h; cases h) (fun j hj => by rw [Function.update_of_ne hj])
      rw [Function.update_self, hnot] at e
      simp only [true_and] at e
      simp only
      rw [e]
      have := g4 k
      have := h2 k
      omega
    · by_cases hj : j = i
      · subst hj
        simp only [Function.update_self]
        exact g5
      · simp only [Function.update_of_ne hj]
        exact h3 j

/-- C179: when the calls are covered together, then under every schedule each of them that ends returns `Ok`. -/
theorem C179_accepted (E : Env) (s : Tree) (hr : Run E s) (f g : Spec.Accounts) (hf : Shows s.summary f) (hg : Shows s.gas g)
    (last : Block) (fee : U256) (hl : s.main.getLastBlock = .ok (some last)) (hfee : recalculateFee last.info.difficulty = .ok fee)
    (call : ι → Deal) (hc : ∀ i, (call i).Paying) (hcov : Covered call f g fee.val) (log : List (Event ι Node))
    (c : Config ι Node Reply) (h : Exec ⟨⟨s, false⟩, fun i => (call i).prog E⟩ log c) :
    ∀ i, hasEnded (c.threads i) → ∃ r, c.threads i = .done (.ok r) := by
  have hi := run_storeInv hr
  have ef := shows_eq hf
  have eg := shows_eq hg
  subst ef eg
  obtain ⟨-, -, took, -, -, h4⟩ := exec_sure (E := E) ⟨hi.gas.1, hi.summary.1⟩ hl hfee hc hcov h
  rintro i ⟨o, ho⟩
  have h5 := h4 i
  rw [ho] at h5
  cases o with
  | ok r => exact ⟨r, ho⟩
  | err e => exact absurd h5.2 (by simp [cameThrough])
  | panic e => exact absurd h5.2 (by simp [cameThrough])
  | ub => exact absurd h5.2 (by simp [cameThrough])

/-- When all have ended, each account is what it was plus what the calls add to it. -/
theorem C179_outcome (E : Env) (s : Tree) (hr : Run E s) (f g : Spec.Accounts) (hf : Shows s.summary f) (hg : Shows s.gas g)
    (last : Block) (fee : U256) (hl : s.main.getLastBlock = .ok (some last)) (hfee : recalculateFee last.info.difficulty = .ok fee)
    (call : ι → Deal) (hc : ∀ i, (call i).Paying) (hcov : Covered call f g fee.val) (log : List (Event ι Node))
    (c : Config ι Node Reply) (h : Exec ⟨⟨s, false⟩, fun i => (call i).prog E⟩ log c) (hall : ∀ i, hasEnded (c.threads i)) :
    ∃ f' g', Shows c.shared.data.summary f' ∧ Shows c.shared.data.gas g' ∧
      (∀ k, (f' k : Int) = f k + ∑ i, (call i).coins k) ∧ ∀ k, (g' k : Int) = g k + ∑ i, (call i).gas k :=
  C178_all E s hr f g hf hg call (fun i => by
    have := hc i
    cases hd : call i with
    | brief x =>
      rw [hd] at this
      cases x <;> first | exact trivial | exact this
    | _ => exact trivial) log c h fun i => C179_accepted E s hr f g hf hg last fee hl hfee call hc hcov log c h i (hall i)

end

/-! ## Example -/

/-- The hypotheses of `C179_accepted` are met on the funded node by two transactions of one sender at once. -/
example (E : Env) : ∃ s f g last fee, Run E s ∧ Shows s.summary f ∧ Shows s.gas g ∧ s.main.getLastBlock = .ok (some last) ∧
    recalculateFee last.info.difficulty = .ok fee ∧ (∀ b : Bool, ((fun _ => .send exTx : Bool → Deal) b).Paying) ∧
    Covered (fun _ : Bool => .send exTx) f g fee.val ∧ 0 < fee.val ∧ 0 < exTx.amount.val ∧ exTx.sender ≠ exTx.receiver := by
  obtain ⟨s, h1, h2, h3, h4, l, h5, h6⟩ := funded E U256.zero
  have hsize : exTx.getDumpSize = 145 := by decide +kernel
  have ha : exTx.amount.val = 1000 := rfl
  have hz : U256.zero.val = 0 := rfl
  have hfee : (U256.ofNat 62500).val = 62500 := rfl
  refine ⟨s, _, _, l, _, h1, h2, h3, h5, h6, fun _ => trivial, ?_, by decide, by decide, exTx_ne⟩
  refine ⟨fun k => ?_, fun k => ?_, fun k => ?_, fun k => ?_, fun i tx htx => ?_⟩ <;> rw [Fintype.sum_bool]
  · simp only [Deal.spends]
    by_cases hk : k = exTx.sender.val
    · subst hk; rw [if_pos rfl, funded_sender, ha]; decide
    · rw [if_neg hk]; omega
  · simp only [Deal.gains]
    by_cases hk : k = exTx.receiver.val
    · subst hk; rw [if_pos rfl, funded_receiver, ha, hz]; decide
    · rw [if_neg hk]
      obtain ⟨a, _, a2⟩ := h2 k
      rw [← a2]
      exact a.lt
  · simp only [Deal.burns]
    by_cases hk : k = exTx.sender.val
    · subst hk; rw [if_pos rfl, funded_gas, hsize]; decide
    · rw [if_neg hk]; omega
  · simp only [Deal.fills]
    obtain ⟨a, _, a2⟩ := h3 k
    rw [← a2]
    exact a.lt
  · cases htx
    simp only [Deal.spends, if_true]
    rw [funded_sender, ha, hfee]; decide

/-- The hypotheses of `C179_outcome` are met by a transaction whose sender is given gas while it is under way. -/
example (E : Env) : ∃ s f g last fee log c, Run E s ∧ Shows s.summary f ∧ Shows s.gas g ∧ s.main.getLastBlock = .ok (some last) ∧
    recalculateFee last.info.difficulty = .ok fee ∧ (∀ b, (payAndFuel b).Paying) ∧ Covered payAndFuel f g fee.val ∧
    Exec ⟨⟨s, false⟩, fun b => (payAndFuel b).prog E⟩ log c ∧ ∀ i, hasEnded (c.threads i) := by
  obtain ⟨s, l, log, c, h1, h2, h3, h5, h6, h7, h8⟩ := payAndFuel_run E
  have hsize : exTx.getDumpSize = 145 := by decide +kernel
  have ha : exTx.amount.val = 1000 := rfl
  have hz : U256.zero.val = 0 := rfl
  have one : U256.one.val = 1 := rfl
  have hfee : (U256.ofNat 62500).val = 62500 := rfl
  refine ⟨s, _, _, l, _, log, c, h1, h2, h3, h5, h6, fun b => by cases b <;> exact trivial, ?_, h7, fun i =>
    let ⟨r, hr⟩ := h8 i; ⟨_, hr⟩⟩
  have et : payAndFuel true = .send exTx := rfl
  have ef : payAndFuel false = .brief (.addGas exTx.sender.val U256.one) := rfl
  refine ⟨fun k => ?_, fun k => ?_, fun k => ?_, fun k => ?_, fun i tx htx => ?_⟩ <;> rw [Fintype.sum_bool, et, ef]
  · simp only [Deal.spends]
    by_cases hk : k = exTx.sender.val
    · subst hk; rw [if_pos rfl, funded_sender, ha]; decide
    · rw [if_neg hk]; omega
  · simp only [Deal.gains]
    by_cases hk : k = exTx.receiver.val
    · subst hk; rw [if_pos rfl, funded_receiver, ha, hz]; decide
    · rw [if_neg hk]
      obtain ⟨a, _, a2⟩ := h2 k
      rw [← a2]
      exact a.lt
  · simp only [Deal.burns]
    by_cases hk : k = exTx.sender.val
    · subst hk; rw [if_pos rfl, funded_gas, hsize]; decide
    · rw [if_neg hk]; omega
  · simp only [Deal.fills]
    by_cases hk : k = exTx.sender.val
    · subst hk; rw [if_pos rfl, funded_gas, one]; decide
    · rw [if_neg hk]
      obtain ⟨a, _, a2⟩ := h3 k
      rw [← a2]
      exact a.lt
  · cases i
    · cases htx
    · cases htx
      simp only [Deal.spends, if_true]
      rw [funded_sender, ha, hfee]; decide

end BCT.Props
