import Verif.Lemmas.MinerRun
import Verif.Model.Secp
/-!
# C133 – C135: the example programs (examples/mine.rs, examples/mine_derivative.rs, examples/send_transaction.rs)

`Sessions E S w secret T js d`: the programs `js` have been run one after the other, beginning with an empty directory, with the
wallet `w`; each mined some blocks and ended in whatever way after it had flushed the last of them; `d` is the directory
now, `T` the last reading of the clock.
-/

namespace BCT.Props
open BCT

/-- The blocks mined on the main chain. -/
def mainBlocks (js : List (Job × Nat)) : Nat :=
  (js.map fun j => match j.1 with | .derive _ => 0 | _ => j.2).sum

/-- The blocks mined on the wallet's chain. -/
def chainBlocks (js : List (Job × Nat)) : Nat :=
  (js.map fun j => match j.1 with | .derive _ => j.2 | _ => 0).sum

/-- The transactions sent. -/
def sentBy (js : List (Job × Nat)) : Nat :=
  (js.map fun j => match j.1 with | .send _ _ => 1 | _ => 0).sum

/-- The rounds of all loops. -/
def roundsOf (js : List (Job × Nat)) : Nat := (js.map fun j => j.1.clocks.length).sum

/-- The fee the miner of block `i + 1` gets: 62500 for every leading zero bit of the difficulty of block `i`; nothing if block
`i + 1` ends an epoch. -/
def feeAt (t : Tree) (i : Nat) : Nat :=
  if (i + 1) % 1000000 = 0 then 0 else
    match t.main.findByHeight (U256.ofNat i) with
    | .ok (some b) => 62500 * Spec.zeroBits b.info.difficulty
    | _ => 0

/-- What a chain of `K` mined blocks and `N` sent transactions comes to: the blocks are the wallet's; it has been paid for each
block, with the fees, and has sent 228 with each transaction; the root account has what it was given at the beginning of the
epoch, less the payments since, and what was sent to it since; nobody else has anything. -/
structure Paid (t : Tree) (w : Address) (K N : Nat) : Prop where
  height : t.main.getHeight.val = K + 1
  founder : ∀ i, 0 < i → i ≤ K → ∃ b, t.main.findByHeight (U256.ofNat i) = .ok (some b) ∧ b.info.founder = w
  wallet : ∃ x, t.getAmount w = .ok x ∧ x.val + 228 * N = 25000000000000000 * K + ((List.range K).map (feeAt t)).sum
  root : ∃ x s, t.getAmount ROOT_PUBLIC_ADDRESS = .ok x ∧ s ≤ N ∧
    x.val + 25000000000000000 * (K % 1000000 + if 1000000 ≤ K then 1 else 0) = 50010000000000000000000000 + 228 * s
  others : ∀ a, a ≠ w → a ≠ ROOT_PUBLIC_ADDRESS → t.getAmount a = .ok U256.zero

/-- What `M` blocks on the wallet's chain and `N` sent transactions come to: gas has been given for each block, and each
transaction has cost 141 times 625000000000; nobody else has gas. -/
structure Fuelled (t : Tree) (w : Address) (M N : Nat) : Prop where
  gas : ∃ x, t.getGas w = .ok x ∧ x.val + 88125000000000 * N = 25000000000000000 * M
  others : ∀ a, a ≠ w → t.getGas a = .ok U256.zero

section
variable {E : Env} {S : SigScheme} {w : Address} {secret : BytesN 32} {T : UInt64} {K M N : Nat} {n : Spec.Node} {t : Tree}

theorem findByHeight_ready (h : Matches E t n) (r : Ready E w T K M N n) (hb : K < 10 ^ 50) {i : Nat} (hi : i ≤ K) :
    ∃ b, n.blocks[i]? = some b ∧ t.main.findByHeight (U256.ofNat i) = .ok (some b) := by
  have hsz := size_big
  have hlen := r.length
  have hq := sim_ask h (.byHeight (U256.ofNat i))
  have hv : (U256.ofNat i).val = i := ofNat_val (by omega)
  obtain ⟨b, hbk⟩ : ∃ b, n.blocks[i]? = some b := ⟨n.blocks[i], List.getElem?_eq_getElem (by omega)⟩
  refine ⟨b, hbk, ?_⟩
  have e1 : ask E t (.byHeight (U256.ofNat i)) = blockAnswer (t.main.findByHeight (U256.ofNat i)) := by simp only [ask]
  have e2 : n.answer E (.byHeight (U256.ofNat i)) = .block (some b) := by
    simp only [Spec.Node.answer, hv, hbk, Spec.Node.asAnswer, (r.main b (List.mem_of_getElem? hbk)).1, if_true]
  rw [e1, e2] at hq
  cases hf : t.main.findByHeight (U256.ofNat i) with
  | ok x => rw [hf] at hq; cases hq; rfl
  | err e => rw [hf] at hq; cases hq
  | panic e => rw [hf] at hq; cases hq
  | ub => rw [hf] at hq; cases hq

theorem paid_of (h : Matches E t n) (r : Ready E w T K M N n) (hb : K < 10 ^ 50) : Paid t w K N := by
  have hlen := r.length
  refine ⟨by rw [show t.main.getHeight.val = n.blocks.length from h.height, hlen], fun i h0 hi => ?_, ?_, ?_, fun a h1 h2 => ?_⟩
  · obtain ⟨b, h1, h2⟩ := findByHeight_ready h r hb hi
    refine ⟨b, h2, r.founders b ?_⟩
    obtain ⟨j, rfl⟩ : ∃ j, i = j + 1 := ⟨i - 1, by omega⟩
    rw [← List.getElem?_tail] at h1
    exact List.mem_of_getElem? h1
  · obtain ⟨x, h1, h2⟩ := Example.amount_ok h w
    refine ⟨x, h1, ?_⟩
    rw [h2, r.coins]
    congr 1
    unfold feesOf
    rw [hlen]
    congr 1
    apply List.map_congr_left
    intro i hi
    rw [List.mem_range] at hi
    obtain ⟨b, g1, g2⟩ := findByHeight_ready h r hb (i := i) (by omega)
    unfold feeAt
    rw [g1, g2]
    rfl
  · obtain ⟨x, h1, h2⟩ := Example.amount_ok h ROOT_PUBLIC_ADDRESS
    obtain ⟨s, h3, h4⟩ := r.root
    exact ⟨x, s, h1, h3, by rw [h2]; exact h4⟩
  · obtain ⟨x, g1, g2⟩ := Example.amount_ok h a
    rw [r.others a.val (fun e => h1 (Subtype.ext e)) (fun e => h2 (Subtype.ext e))] at g2
    rw [g1]
    congr 1
    exact U256.ext g2

theorem fuelled_of (h : Matches E t n) (r : Ready E w T K M N n) : Fuelled t w M N := by
  refine ⟨?_, fun a h1 => ?_⟩
  · obtain ⟨x, h1, h2⟩ := Example.gas_ok h w
    exact ⟨x, h1, by rw [h2]; exact r.gas⟩
  · obtain ⟨x, g1, g2⟩ := Example.gas_ok h a
    rw [r.gasOthers a.val (fun e => h1 (Subtype.ext e))] at g2
    rw [g1]
    congr 1
    exact U256.ext g2

/-! ## The programs -/

/-- No nonce the program tries is good. -/
def NoNonce (E : Env) (prev difficulty : Hash) (txs : List Hash) : Prop :=
  ∀ v : U256, v.val + 1 < U256.size → checkPow E prev difficulty txs v.toBE.val = .ok false

/-- Nothing more can be mined on the main chain with the content. -/
def MainStuck (E : Env) (t : Tree) (content : List Hash) : Prop :=
  ∃ b, t.main.getLastBlock = .ok (some b) ∧
    NoNonce E (b.hash E) b.info.difficulty (if t.main.getHeight.val % 1000000 = 0 then [] else content)

theorem noNonce_of {prev d : Hash} {txs : List Hash}
    (h : ∀ k, k + 1 < U256.size → Spec.enoughWork E prev d txs (Example.nonce k) = false) : NoNonce E prev d txs := by
  intro v hv
  have e : U256.ofNat v.val = v := U256.ext (ofNat_val (by omega))
  have := h v.val hv
  unfold Example.nonce at this
  rw [e] at this
  rw [checkPow_spec, this]

/-- The node as a program finds it. -/
structure Begun (E : Env) (w : Address) (T : UInt64) (K M N : Nat) (t : Tree) (n : Spec.Node) : Prop where
  same : Matches E t n
  ready : Ready E w T K M N n
  closed : ∀ o, n.chains o = none

theorem mine_run (hs : Begun E w T K M N t n) (hw : w ≠ ROOT_PUBLIC_ADDRESS) {cs : List UInt64}
    (hf : E.overflowChecks = true → Forward T cs) (hb : K + M + cs.length ≤ 10 ^ 50) :
    ∃ k t' tr n', (Job.mine cs).run E S w secret t = ⟨.ok k, t', tr⟩ ∧ k ≤ cs.length ∧ Matches E t' n' ∧
      Ready E w (cs.getLastD T) (K + k) M N n' ∧ (0 < k → Lasting E n' t') ∧
      (k < cs.length → MainStuck E t' [BytesN.fill 32 25]) := by
  have hround : ∀ T' i t' c, (∃ n', Matches E t' n' ∧ Ready E w T' (K + i) M N n' ∧ (∀ o, n'.chains o = none) ∧
      (0 < i → Lasting E n' t')) → (E.overflowChecks = true → T' ≤ c) → i < cs.length →
      ((∀ c, Example.mineRound E w c t' = ⟨.ok false, t', []⟩) ∧ MainStuck E t' [BytesN.fill 32 25]) ∨
      ∃ t'' tr, Example.mineRound E w c t' = ⟨.ok true, t'', tr⟩ ∧ ∃ n', Matches E t'' n' ∧
        Ready E w c (K + (i + 1)) M N n' ∧ (∀ o, n'.chains o = none) ∧ (0 < i + 1 → Lasting E n' t'') := by
    rintro T' i t' c ⟨n', h1, h2, h3, h4⟩ hc hi
    obtain ⟨_, ha, _⟩ := Example.amount_ok h1 w
    obtain ⟨_, hr, _⟩ := Example.amount_ok h1 ROOT_PUBLIC_ADDRESS
    have e : ∀ c, Example.mineRound E w c t' = Example.mineOnce E w [BytesN.fill 32 25] c t' := by
      intro c
      unfold Example.mineRound
      rw [Example.ask_bind ha, Example.ask_bind hr]
    simp only [e]
    rcases Example.mineOnce_run h1 h2 hw (by omega) (BytesN.fill 32 25) hc with ⟨g1, last, g2, g3⟩ | ⟨t'', n'', tr, g1, g2, g3, g4, _, _, g5⟩
    · refine .inl ⟨g1, ?_⟩
      obtain ⟨b, k1, k2, k3, _⟩ | ⟨k1, _⟩ := h1.last
      · rw [g2] at k1
        cases k1
        refine ⟨last, k3, ?_⟩
        rw [show t'.main.getHeight.val = n'.blocks.length from h1.height, h2.length]
        exact noNonce_of g3
      · rw [g2] at k1; cases k1
    · exact .inr ⟨t'', tr, g1, n'', g2, g3, fun o => by rw [g4]; exact h3 o, fun _ => g5 h3⟩
  obtain ⟨k, t', tr, T', h1, h2, ⟨n', h3, h4, h5, h6⟩, h7, h8, _⟩ := Example.rounds_run (ch := E.overflowChecks)
    (P := fun T' i t' => ∃ n', Matches E t' n' ∧ Ready E w T' (K + i) M N n' ∧ (∀ o, n'.chains o = none) ∧
      (0 < i → Lasting E n' t'))
    (Stuck := fun t' => (∀ c, Example.mineRound E w c t' = ⟨.ok false, t', []⟩) ∧ MainStuck E t' [BytesN.fill 32 25])
    (fun _ h => h.1) hround cs T 0 t ⟨n, hs.same, hs.ready, hs.closed, fun h => by omega⟩ hf (by omega)
  rw [Nat.zero_add] at h4 h6
  exact ⟨k, t', tr, n', h1, h2, h3, h4.later h7, h6, fun hk => (h8 hk).2⟩

/-- Nothing more can be mined on the wallet's chain. -/
def ChainStuck (E : Env) (t : Tree) (w : Address) : Prop :=
  match (t.handle w).getLastBlock with
  | .ok (some b) => NoNonce E (b.hash E) b.defaultInfo.difficulty []
  | .ok none => ∃ b, t.main.findByHash (t.handle w).genesisHash = .ok (some b) ∧ NoNonce E (b.hash E) BEGINNING_DIFFICULTY []
  | _ => False

theorem chainStuck_of (h : Matches E t n) {c : Hash × List DerivativeBlock} (hc : n.chains w = some c) {p : Hash × Hash × UInt64}
    (hp : baseOf E n c = some p) (hn : ∀ k, k + 1 < U256.size → Spec.enoughWork E p.1 p.2.1 [] (Example.nonce k) = false) :
    ChainStuck E t w := by
  have hno := noNonce_of hn
  obtain ⟨o1, o2, o3⟩ := h.opened w c hc
  have hlast : (t.handle w).getLastBlock = .ok c.2.getLast? := Example.lastBlock_of h hc
  unfold ChainStuck
  rw [hlast]
  unfold baseOf at hp
  cases hl : c.2.getLast? with
  | some d =>
    rw [hl] at hp
    cases hp
    exact hno
  | none =>
    rw [hl] at hp
    simp only at hp ⊢
    have hwd := h.withDigest c.1
    cases hf : n.withDigest E c.1 with
    | none => rw [hf] at hp; cases hp
    | some y =>
      rw [hf] at hp hwd
      simp only at hwd
      have hr : Spec.readable y = true := by
        cases hr : Spec.readable y with
        | true => rfl
        | false => simp [hr] at hp
      refine ⟨y, by rw [o2]; exact hwd.1 hr, ?_⟩
      simp [hr] at hp
      rw [← hp] at hno
      exact hno

/-- What can be seen of the wallet's chain. -/
structure OwnChain (t : Tree) (w : Address) (M : Nat) : Prop where
  height : (t.handle w).chain.height.val = M
  founder : ∀ i, i < M → ∃ b, (t.handle w).findByHeight (U256.ofNat i) = .ok (some b) ∧ b.defaultInfo.founder = w

theorem ownChain_of (h : Matches E t n) (r : Ready E w T K M N n) (hb : M < 10 ^ 50) {c : Hash × List DerivativeBlock}
    (hc : n.chains w = some c) : OwnChain t w M := by
  have hsz := size_big
  obtain ⟨o1, o2, o3⟩ := h.opened w c hc
  obtain ⟨_, a2, a3⟩ := r.chain c (by unfold ownChain; rw [hc]; rfl)
  refine ⟨?_, fun i hi => ?_⟩
  · have := o3.holds.len
    rw [List.length_map, a2] at this
    exact this.symm
  · have hq := sim_ask h (.chainByHeight w (U256.ofNat i))
    have hv : (U256.ofNat i).val = i := ofNat_val (by omega)
    obtain ⟨b, hbk⟩ : ∃ b, c.2[i]? = some b := ⟨c.2[i], List.getElem?_eq_getElem (by omega)⟩
    have e1 : ask E t (.chainByHeight w (U256.ofNat i)) = derivAnswer ((t.handle w).findByHeight (U256.ofNat i)) := by
      simp only [ask, onOpen, o1, if_true]
    have e2 : n.answer E (.chainByHeight w (U256.ofNat i)) = .deriv (some b) := by
      simp only [Spec.Node.answer, hc, hv, hbk]
    rw [e1, e2] at hq
    refine ⟨b, ?_, (a3 b (List.mem_of_getElem? hbk)).2.1⟩
    cases hf : (t.handle w).findByHeight (U256.ofNat i) with
    | ok x => rw [hf] at hq; cases hq; rfl
    | err e => rw [hf] at hq; cases hq
    | panic e => rw [hf] at hq; cases hq
    | ub => rw [hf] at hq; cases hq

theorem derive_run (hs : Begun E w T K M N t n) {cs : List UInt64}
    (hf : E.overflowChecks = true → Forward T cs) (hb : K + M + cs.length ≤ 10 ^ 50) :
    ∃ k t' tr n' c, (Job.derive cs).run E S w secret t = ⟨.ok k, t', tr⟩ ∧ k ≤ cs.length ∧ Matches E t' n' ∧
      Ready E w (cs.getLastD T) K (M + k) N n' ∧ n'.chains w = some c ∧ (0 < k → Lasting E n' t') ∧
      (k < cs.length → ChainStuck E t' w) := by
  have hsz := size_big
  obtain ⟨n1, s1, r1, o1⟩ := hs.ready.opens
  obtain ⟨c1, m1, _⟩ := Example.call_done hs.same hs.ready.short (by omega) s1
  have hround : ∀ T' i t' c, (∃ n', Matches E t' n' ∧ Ready E w T' K (M + i) N n' ∧ (∃ c, n'.chains w = some c) ∧
      (0 < i → Lasting E n' t')) → (E.overflowChecks = true → T' ≤ c) → i < cs.length →
      ((∀ c, Example.deriveRound E w c t' = ⟨.ok false, t', []⟩) ∧ ChainStuck E t' w) ∨
      ∃ t'' tr, Example.deriveRound E w c t' = ⟨.ok true, t'', tr⟩ ∧ ∃ n', Matches E t'' n' ∧
        Ready E w c K (M + (i + 1)) N n' ∧ (∃ c, n'.chains w = some c) ∧ (0 < i + 1 → Lasting E n' t'') := by
    rintro T' i t' c ⟨n', h1, h2, ⟨ch, h3⟩, h4⟩ hc hi
    rcases Example.deriveRound_run h1 h2 (by omega) h3 hc with ⟨g1, p, g2, g3⟩ | ⟨t'', n'', tr, c', g1, g2, g3, g4, g5⟩
    · exact .inl ⟨g1, chainStuck_of h1 h3 g2 g3⟩
    · exact .inr ⟨t'', tr, g1, n'', g2, g3, ⟨c', g4⟩, fun _ => g5⟩
  obtain ⟨k, t', tr, T', h1, h2, ⟨n', h3, h4, ⟨c, h5⟩, h6⟩, h7, h8, _⟩ := Example.rounds_run (ch := E.overflowChecks)
    (P := fun T' i t' => ∃ n', Matches E t' n' ∧ Ready E w T' K (M + i) N n' ∧ (∃ c, n'.chains w = some c) ∧
      (0 < i → Lasting E n' t'))
    (Stuck := fun t' => (∀ c, Example.deriveRound E w c t' = ⟨.ok false, t', []⟩) ∧ ChainStuck E t' w)
    (fun _ h => h.1) hround cs T 0 _ ⟨n1, m1, r1, Option.isSome_iff_exists.mp o1, fun h => by omega⟩ hf (by omega)
  rw [Nat.zero_add] at h4 h6
  have hrun : ∃ tr, (Job.derive cs).run E S w secret t = ⟨.ok k, t', tr⟩ := by
    refine ⟨((Op.getDerivativeChain w).run E t).trace ++ tr, ?_⟩
    show (Example.call E (.getDerivativeChain w) >>= fun _ => Example.rounds (Example.deriveRound E w) cs) t = _
    rw [Act.bind_ok c1, h1]
  obtain ⟨tr', hrun⟩ := hrun
  exact ⟨k, t', tr', n', c, hrun, h2, h3, h4.later h7, h5, h6, fun hk => (h8 hk).2⟩

/-- What the transaction looks like. -/
theorem payment_ok {now : UInt64} {tx : Transaction} (h : Example.payment E S w secret now = .ok tx) :
    tx.sender = w ∧ tx.receiver = ROOT_PUBLIC_ADDRESS ∧ tx.amount = U256.ofNat 228 ∧ tx.data = none ∧
      tx.hash = E.sha256 tx.dump := by
  unfold Example.payment Transaction.new Transaction.generateSignature at h
  by_cases hp : S.parseSec secret = true
  · simp only [hp, if_true, Outcome.ok_bind] at h
    cases h
    exact ⟨rfl, rfl, rfl, rfl, rfl⟩
  · simp [hp] at h

theorem same_bind {α β : Type} {x y : Act Tree α} {f : α → Act Tree β} (h : x t = y t) : (x >>= f) t = (y >>= f) t := by
  simp only [Act.bind_def, Act.bind, h]

theorem after_call {x : Act Tree Unit} {y : Act Tree Bool} {t1 t2 : Tree} {tr1 tr2 : List Tree} {found : Bool} {a g r : U256}
    (h : x t = ⟨.ok (), t1, tr1⟩) (ha : t1.getAmount w = .ok a) (hg : t1.getGas w = .ok g)
    (hr : t1.getAmount ROOT_PUBLIC_ADDRESS = .ok r) (hy : y t1 = ⟨.ok found, t2, tr2⟩) :
    ∃ tr, ((x >>= fun _ => Example.ask (fun t => t.getAmount w) >>= fun _ => Example.ask (fun t => t.getGas w) >>= fun _ =>
      Example.ask (fun t => t.getAmount ROOT_PUBLIC_ADDRESS) >>= fun _ => y) >>= fun found =>
      (pure (if found then 1 else 0) : Act Tree Nat)) t = ⟨.ok (if found then 1 else 0), t2, tr⟩ := by
  have e : (x >>= fun _ => Example.ask (fun t => t.getAmount w) >>= fun _ => Example.ask (fun t => t.getGas w) >>= fun _ =>
      Example.ask (fun t => t.getAmount ROOT_PUBLIC_ADDRESS) >>= fun _ => y) t = ⟨.ok found, t2, tr1 ++ tr2⟩ := by
    rw [Act.bind_ok h, Example.ask_bind ha, Example.ask_bind hg, Example.ask_bind hr, hy]
  exact ⟨tr1 ++ tr2 ++ [], by rw [Act.bind_ok e]; rfl⟩

theorem send_run (hs : Begun E w T K M N t n) (hw : w ≠ ROOT_PUBLIC_ADDRESS) (hN : N ≤ K) {now c : UInt64}
    {tx : Transaction} (hp : Example.payment E S w secret now = .ok tx)
    (hf : E.overflowChecks = true → T ≤ c) (hb : K + M + 1 ≤ 10 ^ 50) :
    if 0 < K ∧ 88125000000000 * (N + 1) ≤ 25000000000000000 * M then
      ∃ k t' tr n', (Job.send now c).run E S w secret t = ⟨.ok k, t', tr⟩ ∧ k ≤ 1 ∧ Matches E t' n' ∧
        Ready E w c (K + k) M (N + 1) n' ∧ (0 < k → Lasting E n' t') ∧ n'.txs = (E.sha256 tx.dump, tx) :: n.txs ∧
        (k = 1 → ∃ b, n'.blocks.getLast? = some b ∧ (¬ (K + 1) % 1000000 = 0 →
          ∃ tb, b = .transaction tb ∧ tb.transactions = [tx.hash])) ∧
        (k = 0 → MainStuck E t' [tx.hash])
    else ((Job.send now c).run E S w secret t).out = .panic .unwrap := by
  have hsz := size_big
  obtain ⟨p1, p2, p3, p4, p5⟩ := payment_ok hp
  have hsent := hs.ready.sent hw (by omega) hN p1 p2 (by rw [p3]; rfl) p4
  have hgas := hs.ready.gas
  obtain ⟨_, ha, _⟩ := Example.amount_ok hs.same w
  obtain ⟨_, hg, _⟩ := Example.gas_ok hs.same w
  obtain ⟨_, hr, _⟩ := Example.amount_ok hs.same ROOT_PUBLIC_ADDRESS
  have hrun : (Job.send now c).run E S w secret t = ((Example.call E (.sendTransaction tx) >>= fun _ =>
      Example.ask (fun t => t.getAmount w) >>= fun _ => Example.ask (fun t => t.getGas w) >>= fun _ =>
      Example.ask (fun t => t.getAmount ROOT_PUBLIC_ADDRESS) >>= fun _ => Example.mineOnce E w [tx.hash] c) >>= fun found =>
      pure (if found then 1 else 0)) t := by
    show (Example.send E S w secret now c >>= fun found => pure (if found then 1 else 0)) t = _
    apply same_bind
    unfold Example.send
    rw [Example.ask_bind ha, Example.ask_bind hg, Example.ask_bind hr, hp]
    simp only [Outcome.unwrap, Act.lift_ok_bind]
  have hcond : (0 < K ∧ 88125000000000 ≤ n.gas.get w.val) ↔ (0 < K ∧ 88125000000000 * (N + 1) ≤ 25000000000000000 * M) := by
    constructor <;> rintro ⟨a, b⟩ <;> refine ⟨a, ?_⟩ <;> omega
  by_cases hc : 0 < K ∧ 88125000000000 * (N + 1) ≤ 25000000000000000 * M
  · rw [if_pos hc]
    rw [if_pos (hcond.mpr hc)] at hsent
    obtain ⟨n1, s1, r1, s2, s3, s4⟩ := hsent
    obtain ⟨c1, m1, _⟩ := Example.call_done hs.same hs.ready.short (by omega) s1
    obtain ⟨_, ha, _⟩ := Example.amount_ok m1 w
    obtain ⟨_, hg, _⟩ := Example.gas_ok m1 w
    obtain ⟨_, hr, _⟩ := Example.amount_ok m1 ROOT_PUBLIC_ADDRESS
    have hcl : ∀ o, n1.chains o = none := fun o => by rw [s2]; exact hs.closed o
    rw [hrun]
    rcases Example.mineOnce_run m1 r1 hw (by omega) tx.hash hf with ⟨g1, last, g2, g3⟩ | ⟨t'', n'', tr, g1, g2, g3, g4, g5, ⟨b, g6, g7⟩, g8⟩
    · obtain ⟨tr', e⟩ := after_call c1 ha hg hr (g1 c)
      refine ⟨0, _, tr', n1, e, by omega, m1, r1.later hf, fun h => by omega, s4, fun h => by omega, fun _ => ?_⟩
      · obtain ⟨b, k1, k2, k3, _⟩ | ⟨k1, _⟩ := m1.last
        · rw [g2] at k1
          cases k1
          refine ⟨last, k3, ?_⟩
          rw [show (Op.run E (.sendTransaction tx) t).final.main.getHeight.val = n1.blocks.length from m1.height, r1.length]
          exact noNonce_of g3
        · rw [g2] at k1; cases k1
    · obtain ⟨tr', e⟩ := after_call c1 ha hg hr g1
      refine ⟨1, t'', tr', n'', e, by omega, g2, g3, fun _ => g8 hcl, by rw [g5, s4], fun _ => ⟨b, ?_, g7⟩, fun h => by omega⟩
      rw [g6, List.getLast?_concat]
  · rw [if_neg hc]
    rw [if_neg (fun h => hc (hcond.mp h))] at hsent
    have := Example.call_refused hs.same hs.ready.short (by omega) hsent
    rw [hrun, Act.bind_panic (Act.bind_panic this)]

/-! ## One program after the other -/

theorem Begun.next (hw : w ≠ ROOT_PUBLIC_ADDRESS) (h : Lasting E n t) (r : Ready E w T K M N n) {d : Disk} (hd : Crash t d) :
    (openTree E d).out = .ok () ∧ ∃ n', Begun E w T K M N (openTree E d).final n' := by
  obtain ⟨h1, h2⟩ := h.reopen hd
  obtain ⟨h3, h4⟩ := r.restarted hw
  exact ⟨h1, n.restarted, h2, h3, h4⟩

theorem payment_either (E : Env) (S : SigScheme) (w : Address) (secret : BytesN 32) (now : UInt64) :
    (S.parseSec secret = true ∧ ∃ tx, Example.payment E S w secret now = .ok tx ∧ tx.timestamp = now) ∨
    (¬ S.parseSec secret = true ∧ Example.payment E S w secret now = .err .txParse) := by
  unfold Example.payment Transaction.new Transaction.generateSignature
  by_cases hp : S.parseSec secret = true
  · refine .inl ⟨hp, ?_⟩
    simp only [hp, if_true, Outcome.ok_bind]
    exact ⟨_, rfl, rfl⟩
  · refine .inr ⟨hp, ?_⟩
    simp [hp]

theorem send_panics (hs : Matches E t n) {now c : UInt64} {e : Err} (h : Example.payment E S w secret now = .err e) :
    ((Job.send now c).run E S w secret t).out = .panic .unwrap := by
  obtain ⟨_, ha, _⟩ := Example.amount_ok hs w
  obtain ⟨_, hg, _⟩ := Example.gas_ok hs w
  obtain ⟨_, hr, _⟩ := Example.amount_ok hs ROOT_PUBLIC_ADDRESS
  have : Example.send E S w secret now c t = ⟨.panic .unwrap, t, []⟩ := by
    unfold Example.send
    rw [Example.ask_bind ha, Example.ask_bind hg, Example.ask_bind hr, h]
    exact Act.bind_panic rfl
  show ((Example.send E S w secret now c >>= fun found => pure (if found then 1 else 0)) t).out = _
  rw [Act.bind_panic this]

theorem payment_of {now c : UInt64} {k : Nat} (h : ((Job.send now c).run E S w secret t).out = .ok k) (hs : Matches E t n) :
    ∃ tx, Example.payment E S w secret now = .ok tx := by
  rcases payment_either E S w secret now with ⟨_, tx, hp, _⟩ | ⟨_, hp⟩
  · exact ⟨tx, hp⟩
  · rw [send_panics hs hp] at h
    cases h

theorem sessions_ready (hw : w ≠ ROOT_PUBLIC_ADDRESS) {js : List (Job × Nat)} {d : Disk} (h : Sessions E S w secret T js d)
    (hb : roundsOf js ≤ 10 ^ 50) :
    (openTree E d).out = .ok () ∧
    (∃ n, Begun E w T (mainBlocks js) (chainBlocks js) (sentBy js) (openTree E d).final n) ∧
    sentBy js ≤ mainBlocks js ∧ mainBlocks js + chainBlocks js ≤ roundsOf js := by
  induction h with
  | none => exact ⟨(openTree_fresh E).1, ⟨_, matches_start E, Ready.start E w hw, fun _ => rfl⟩, Nat.le_refl _, Nat.le_refl _⟩
  | @ran T js d d' j k _ hf ho hk hd ih =>
    have e1 : roundsOf (js ++ [(j, k)]) = roundsOf js + j.clocks.length := by simp [roundsOf]
    rw [e1] at hb
    obtain ⟨_, ⟨n, hs⟩, hN, hR⟩ := ih (by omega)
    cases j with
    | mine cs =>
      have e2 : mainBlocks (js ++ [(Job.mine cs, k)]) = mainBlocks js + k := by simp [mainBlocks]
      have e3 : chainBlocks (js ++ [(Job.mine cs, k)]) = chainBlocks js := by simp [chainBlocks]
      have e4 : sentBy (js ++ [(Job.mine cs, k)]) = sentBy js := by simp [sentBy]
      have e5 : (Job.mine cs).clocks = cs := rfl
      rw [e5] at hf hb e1 ⊢
      obtain ⟨k', t', tr, n', r1, r2, r3, r4, r5, _⟩ := mine_run (S := S) (secret := secret) hs hw hf (by omega)
      rw [r1] at ho hd
      cases ho
      obtain ⟨a, b⟩ := Begun.next hw (r5 hk) r4 hd
      rw [e1, e2, e3, e4]
      exact ⟨a, b, by omega, by omega⟩
    | derive cs =>
      have e2 : mainBlocks (js ++ [(Job.derive cs, k)]) = mainBlocks js := by simp [mainBlocks]
      have e3 : chainBlocks (js ++ [(Job.derive cs, k)]) = chainBlocks js + k := by simp [chainBlocks]
      have e4 : sentBy (js ++ [(Job.derive cs, k)]) = sentBy js := by simp [sentBy]
      have e5 : (Job.derive cs).clocks = cs := rfl
      rw [e5] at hf hb e1 ⊢
      obtain ⟨k', t', tr, n', c, r1, r2, r3, r4, _, r5, _⟩ := derive_run (S := S) (secret := secret) hs hf (by omega)
      rw [r1] at ho hd
      cases ho
      obtain ⟨a, b⟩ := Begun.next hw (r5 hk) r4 hd
      rw [e1, e2, e3, e4]
      exact ⟨a, b, by omega, by omega⟩
    | send now c =>
      have e2 : mainBlocks (js ++ [(Job.send now c, k)]) = mainBlocks js + k := by simp [mainBlocks]
      have e3 : chainBlocks (js ++ [(Job.send now c, k)]) = chainBlocks js := by simp [chainBlocks]
      have e4 : sentBy (js ++ [(Job.send now c, k)]) = sentBy js + 1 := by simp [sentBy]
      have e5 : (Job.send now c).clocks = [c] := rfl
      rw [e5] at hf hb e1 ⊢
      obtain ⟨tx, hp⟩ := payment_of ho hs.same
      have hrun := send_run hs hw hN hp (c := c) (fun h => (hf h).1) (by rw [List.length_singleton] at hb; omega)
      split at hrun
      · obtain ⟨k', t', tr, n', r1, r2, r3, r4, r5, _⟩ := hrun
        rw [r1] at ho hd
        cases ho
        obtain ⟨a, b⟩ := Begun.next hw (r5 hk) r4 hd
        rw [e1, e2, e3, e4]
        exact ⟨a, b, by omega, by simp; omega⟩
      · rw [hrun] at ho
        cases ho

/-- C133. The mining example, started on whatever the example programs left, never fails; each block it mines is the wallet's
and is paid for exactly once; a round without a block means that there is no nonce. -/
theorem C133_mining_example (hw : w ≠ ROOT_PUBLIC_ADDRESS) {js : List (Job × Nat)} {d : Disk} (h : Sessions E S w secret T js d)
    (cs : List UInt64) (hf : E.overflowChecks = true → Forward T cs) (hb : roundsOf js + cs.length < 10 ^ 50) :
    (openTree E d).out = .ok () ∧ ∃ k t' tr, (Job.mine cs).run E S w secret (openTree E d).final = ⟨.ok k, t', tr⟩ ∧
      k ≤ cs.length ∧ Paid t' w (mainBlocks js + k) (sentBy js) ∧ Fuelled t' w (chainBlocks js) (sentBy js) ∧
      (k < cs.length → MainStuck E t' [BytesN.fill 32 25]) := by
  obtain ⟨h1, ⟨n, hs⟩, hN, hR⟩ := sessions_ready hw h (by omega)
  obtain ⟨k, t', tr, n', r1, r2, r3, r4, r5, r6⟩ := mine_run (S := S) (secret := secret) hs hw hf (by omega)
  exact ⟨h1, k, t', tr, r1, r2, paid_of r3 r4 (by omega), fuelled_of r3 r4, r6⟩

/-- C134. The example that mines on the wallet's own chain never fails; each block of it is the wallet's and gas is given for it
exactly once; the main chain and the accounts stay as they are; a round without a block means that there is no nonce. -/
theorem C134_derivative_example (hw : w ≠ ROOT_PUBLIC_ADDRESS) {js : List (Job × Nat)} {d : Disk}
    (h : Sessions E S w secret T js d) (cs : List UInt64) (hf : E.overflowChecks = true → Forward T cs)
    (hb : roundsOf js + cs.length < 10 ^ 50) :
    (openTree E d).out = .ok () ∧ ∃ k t' tr, (Job.derive cs).run E S w secret (openTree E d).final = ⟨.ok k, t', tr⟩ ∧
      k ≤ cs.length ∧ Paid t' w (mainBlocks js) (sentBy js) ∧ Fuelled t' w (chainBlocks js + k) (sentBy js) ∧
      OwnChain t' w (chainBlocks js + k) ∧ (k < cs.length → ChainStuck E t' w) := by
  obtain ⟨h1, ⟨n, hs⟩, hN, hR⟩ := sessions_ready hw h (by omega)
  obtain ⟨k, t', tr, n', c, r1, r2, r3, r4, r5, r6, r7⟩ := derive_run (S := S) (secret := secret) hs hf (by omega)
  exact ⟨h1, k, t', tr, r1, r2, paid_of r3 r4 (by omega), fuelled_of r3 r4, ownChain_of r3 r4 (by omega) r5, r7⟩

/-- C135. The example that sends a transaction works if and only if the wallet has mined a block on the main chain and has the
gas: then the transaction can be looked up, the money is moved, and if a nonce is found the transaction is in the new block.
Otherwise the program panics. -/
theorem C135_sending_example (hw : w ≠ ROOT_PUBLIC_ADDRESS) {js : List (Job × Nat)} {d : Disk}
    (h : Sessions E S w secret T js d) (now c : UInt64) (hf : E.overflowChecks = true → T ≤ c)
    (hb : roundsOf js + 1 < 10 ^ 50) :
    (openTree E d).out = .ok () ∧
    if S.parseSec secret = true ∧ 0 < mainBlocks js ∧ 88125000000000 * (sentBy js + 1) ≤ 25000000000000000 * chainBlocks js then
      ∃ k t' tr tx, (Job.send now c).run E S w secret (openTree E d).final = ⟨.ok k, t', tr⟩ ∧ k ≤ 1 ∧
        tx.sender = w ∧ tx.receiver = ROOT_PUBLIC_ADDRESS ∧ tx.amount.val = 228 ∧ tx.timestamp = now ∧
        t'.main.getTransaction E tx.hash = .ok (some tx) ∧
        Paid t' w (mainBlocks js + k) (sentBy js + 1) ∧ Fuelled t' w (chainBlocks js) (sentBy js + 1) ∧
        (k = 1 → ∃ b, t'.main.getLastBlock = .ok (some b) ∧
          (¬ (mainBlocks js + 1) % 1000000 = 0 → ∃ tb, b = .transaction tb ∧ tb.transactions = [tx.hash])) ∧
        (k = 0 → MainStuck E t' [tx.hash])
    else ((Job.send now c).run E S w secret (openTree E d).final).out = .panic .unwrap := by
  obtain ⟨h1, ⟨n, hs⟩, hN, hR⟩ := sessions_ready hw h (by omega)
  refine ⟨h1, ?_⟩
  rcases payment_either E S w secret now with ⟨hp, tx, hpay, hts⟩ | ⟨hp, hpay⟩
  · have hrun := send_run hs hw hN hpay hf (by omega)
    by_cases hc : 0 < mainBlocks js ∧ 88125000000000 * (sentBy js + 1) ≤ 25000000000000000 * chainBlocks js
    · rw [if_pos ⟨hp, hc⟩]
      rw [if_pos hc] at hrun
      obtain ⟨k, t', tr, n', r1, r2, r3, r4, _, r5, r6, r7⟩ := hrun
      obtain ⟨p1, p2, p3, p4, p5⟩ := payment_ok hpay
      refine ⟨k, t', tr, tx, r1, r2, p1, p2, by rw [p3]; rfl, hts, ?_, paid_of r3 r4 (by omega), fuelled_of r3 r4, fun hk => ?_, r7⟩
      · have hq := sim_ask r3 (.transaction tx.hash)
        have e2 : n'.answer E (.transaction tx.hash) = .tx (some tx) := by
          simp only [Spec.Node.answer, Spec.Node.stored, r5, p5, List.find?_cons, decide_true, Option.map_some]
          unfold Spec.Node.asRead
          rw [p4, ← p5]
          cases tx
          cases p4
          rfl
        rw [e2] at hq
        simp only [ask] at hq
        cases hf : t'.main.getTransaction E tx.hash with
        | ok x => rw [hf] at hq; cases hq; rfl
        | err e => rw [hf] at hq; cases hq
        | panic e => rw [hf] at hq; cases hq
        | ub => rw [hf] at hq; cases hq
      · obtain ⟨b, g1, g2⟩ := r6 hk
        obtain ⟨_, k1, k2, k3, _⟩ | ⟨k1, _⟩ := r3.last
        · rw [k2] at g1
          cases g1
          exact ⟨b, k3, g2⟩
        · obtain ⟨_, _, k4, _⟩ := r4.tip
          rw [k1] at k4
          cases k4
    · rw [if_neg (fun h => hc h.2)]
      rw [if_neg hc] at hrun
      exact hrun
  · rw [if_neg (fun h => hp h.1)]
    exact send_panics hs.same hpay

/-! ## Sessions there are -/

/-- With a digest of zeros every nonce is good. -/
theorem zero_work (prev d : Hash) (txs : List Hash) : ¬ NoNonce zeroEnv prev d txs := by
  intro h
  have h0 := h U256.zero (by decide)
  rw [checkPow_spec] at h0
  have : Spec.enoughWork zeroEnv prev d txs U256.zero.toBE = true := by
    unfold Spec.enoughWork
    rw [show Spec.value (zeroEnv.sha256 (prev.val ++ (Spec.treeRoot zeroEnv txs).val ++ U256.zero.toBE.val)).val = 0 from by rfl]
    rw [show Spec.bitLength 0 = 0 from by decide]
    simp
  rw [this] at h0
  cases h0

theorem zero_main (t : Tree) (content : List Hash) : ¬ MainStuck zeroEnv t content := fun ⟨_, _, h⟩ => zero_work _ _ _ h

theorem zero_chain (t : Tree) : ¬ ChainStuck zeroEnv t w := by
  intro h
  unfold ChainStuck at h
  split at h
  · exact zero_work _ _ _ h
  · exact zero_work _ _ _ h.choose_spec.2
  · exact h

/-- Two blocks are mined; one is mined on the wallet's chain; a transaction is sent and a third block mined for it. -/
theorem some_sessions (S : SigScheme) (hw : w ≠ ROOT_PUBLIC_ADDRESS) (hp : S.parseSec secret = true) :
    ∃ d, Sessions zeroEnv S w secret 1700000003
      [(.mine [1700000000, 1700000001], 2), (.derive [1700000002], 1), (.send 1700000003 1700000003, 1)] d := by
  have h0 : Sessions zeroEnv S w secret 1597924800 [] Disk.empty := .none
  have f1 : Forward 1597924800 [1700000000, 1700000001] := ⟨by decide, by decide, trivial⟩
  obtain ⟨_, k, t1, tr, r1, r2, _, _, r3⟩ := C133_mining_example hw h0 _ (fun _ => f1) (by decide)
  obtain rfl : k = 2 := by
    by_contra hk
    exact zero_main _ _ (r3 (by simp only [List.length_cons, List.length_nil] at r2 ⊢; omega))
  have h1 := Sessions.ran (d' := t1.close) h0 (j := .mine [1700000000, 1700000001]) (k := 2) (fun _ => f1) (by rw [r1]) (by decide)
    (by have := Job.close zeroEnv S w secret (.mine [1700000000, 1700000001]) Disk.empty; rw [r1] at this ⊢; exact this)
  have f2 : Forward 1700000001 [1700000002] := ⟨by decide, trivial⟩
  obtain ⟨_, k, t2, tr, r1, r2, _, _, _, r3⟩ := C134_derivative_example hw h1 [1700000002] (fun _ => f2) (by decide)
  obtain rfl : k = 1 := by
    by_contra hk
    exact zero_chain _ (r3 (by simp only [List.length_cons, List.length_nil] at r2 ⊢; omega))
  have h2 := Sessions.ran (d' := t2.close) h1 (j := .derive [1700000002]) (k := 1) (fun _ => f2) (by rw [r1]) (by decide)
    (by have := Job.close zeroEnv S w secret (.derive [1700000002]) t1.close; rw [r1] at this ⊢; exact this)
  have f3 : Forward 1700000002 [1700000003] := ⟨by decide, trivial⟩
  have h3 := (C135_sending_example hw h2 1700000003 1700000003 (fun _ => f3.1) (by decide)).2
  rw [if_pos ⟨hp, by decide, by decide⟩] at h3
  obtain ⟨k, t3, tr, tx, r1, r2, _, _, _, _, _, _, _, _, r3⟩ := h3
  obtain rfl : k = 1 := by
    by_contra hk
    exact zero_main _ _ (r3 (by omega))
  exact ⟨t3.close, Sessions.ran (d' := t3.close) h2 (j := .send 1700000003 1700000003) (k := 1) (fun _ => f3) (by rw [r1]) (by decide)
    (by have := Job.close zeroEnv S w secret (.send 1700000003 1700000003) t2.close; rw [r1] at this ⊢; exact this)⟩


/-- send_transaction.rs:20-23, mine.rs:14-17, mine_derivative.rs:12-15. -/
def exampleWallet : Address := ⟨[2, 178, 140, 81, 31, 206, 208, 171, 143, 240, 128, 134, 115, 82, 188, 63, 146, 189, 14, 59,
  85, 8, 11, 28, 137, 161, 145, 216, 251, 95, 93, 137, 159], rfl⟩

/-- send_transaction.rs:16-19. -/
def exampleSecret : BytesN 32 := ⟨[25, 53, 50, 224, 180, 250, 177, 186, 87, 47, 28, 80, 183, 208, 219, 119, 101, 60, 173, 157,
  190, 29, 208, 231, 98, 69, 82, 211, 107, 185, 192, 224], rfl⟩

/-- The wallet in the programs is not the root account, and the secret in them is its own. -/
example : exampleWallet ≠ ROOT_PUBLIC_ADDRESS ∧ Secp.publicKey exampleSecret = some exampleWallet ∧
    (Secp.parseSec exampleSecret).isSome = true := by decide +kernel

end
end BCT.Props
