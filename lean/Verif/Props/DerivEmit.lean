import Verif.Props.Refine
import Verif.Props.Real
/-!
# C129: what a request for a derivative block does

The counterpart of C40 for `emmit_new_derivative_block`. A request that is refused may still open the owner's chain,
which fixes the main block the chain is anchored at.
-/

namespace BCT
namespace Props

variable {E : Env}

/-! ## Failing requests -/

theorem putHandle_back {t : Tree} {o : Address} (h : (t.derivMem o).isSome = true) :
    Tree.putHandle o (t.handle o) t = t := by
  obtain ⟨m, hm⟩ := Option.isSome_iff_exists.mp h
  unfold Tree.putHandle Tree.handle
  rw [hm]
  have h1 : (fun n => if n = hexEncode o.val then (⟨(t.derivFiles (hexEncode o.val)).blocks,
      (t.derivFiles (hexEncode o.val)).heightReference, (t.derivFiles (hexEncode o.val)).config⟩ : DerivFiles)
      else t.derivFiles n) = t.derivFiles := by
    funext n
    split
    · rename_i h; subst h; rfl
    · rfl
  have h2 : (fun a => if a = o then some m else t.derivMem a) = t.derivMem := by
    funext a
    split
    · rename_i h; subst h; exact hm.symm
    · rfl
  show ({ t with derivFiles := _, derivMem := _ } : Tree) = t
  simp only [Option.getD_some]
  rw [h1, h2]

theorem getDeriv_opens (f : Address) (s : Tree) :
    (∃ out, (∀ u, out ≠ .ok u) ∧ Tree.getDerivativeChain E f s = ⟨out, s, []⟩) ∨
    ∃ s1 tr, Tree.getDerivativeChain E f s = ⟨.ok (), s1, tr⟩ ∧ (s1.derivMem f).isSome = true := by
  rcases Tree.getDeriv_cases E f s with ⟨h1, h⟩ | ⟨_, ⟨out, ho, h⟩ | ⟨b, c, _, _, h⟩⟩
  · exact .inr ⟨_, _, h, h1⟩
  · exact .inl ⟨out, ho, h⟩
  · exact .inr ⟨_, _, h, by simp [Tree.putHandle]⟩

/-- C129, what every failing request leaves behind, in any state: exactly what opening the owner's chain leaves behind,
and nothing at all if the chain was open. (Missing: that nothing is left behind if the chain was not open, see
`C129_refuted`.) -/
theorem C129_only_opens_partial (E : Env) (s : Tree) (pow : BytesN 32) (f : Address) (ts : UInt64)
    (hh : ((Tree.getDerivativeChain E f s).final.handle f).chain.height.val + 1 < U256.size)
    (hb : ∀ b, (Tree.emitDerivative E pow f ts s).out ≠ .ok b) :
    (Tree.emitDerivative E pow f ts s).final = (Tree.getDerivativeChain E f s).final ∧
    (Tree.emitDerivative E pow f ts s).trace = (Tree.getDerivativeChain E f s).trace ∧
    ((s.derivMem f).isSome = true →
      (Tree.emitDerivative E pow f ts s).final = s ∧ (Tree.emitDerivative E pow f ts s).trace = []) := by
  suffices h : (Tree.emitDerivative E pow f ts s).final = (Tree.getDerivativeChain E f s).final ∧
      (Tree.emitDerivative E pow f ts s).trace = (Tree.getDerivativeChain E f s).trace by
    refine ⟨h.1, h.2, fun ho => ?_⟩
    rcases Tree.getDeriv_cases E f s with ⟨_, e⟩ | ⟨hn, _⟩
    · rw [h.1, h.2, e]; exact ⟨rfl, rfl⟩
    · rw [hn] at ho; cases ho
  rw [emitDerivative_checks] at hb ⊢
  rcases getDeriv_opens (E := E) f s with ⟨out, ho, e⟩ | ⟨s1, tr, e, hm⟩
  · cases out with
    | ok u => exact absurd rfl (ho u)
    | err x => rw [Act.bind_err e, e]; exact ⟨rfl, rfl⟩
    | panic x => rw [Act.bind_panic e, e]; exact ⟨rfl, rfl⟩
    | ub => rw [Act.bind_ub e, e]; exact ⟨rfl, rfl⟩
  · rw [e] at hh
    rw [Act.bind_ok e, Act.get_bind] at hb ⊢
    rw [e]
    cases hk : derivChecks E s1 pow f ts with
    | err x => rw [Act.lift_err_bind]; simp
    | panic x => rw [Act.lift_panic_bind]; simp
    | ub => rw [Act.lift_ub_bind]; simp
    | ok d =>
      rw [hk, Act.lift_ok_bind] at hb
      rw [Act.lift_ok_bind]
      by_cases hd : d.defaultInfo.height = (s1.handle f).chain.height
      · exfalso
        have : ∃ fin tr, Tree.onDeriv f (DerivativeChain.addBlock E d) s1 = ⟨.ok (), fin, tr⟩ := by
          unfold Tree.onDeriv DerivativeChain.addBlock DerivativeChain.onChain
          rw [Act.zoom_run, Act.zoom_run, hd, Chain.addBlock_right hh]
          exact ⟨_, _, rfl⟩
        obtain ⟨fin, tr, he⟩ := this
        rw [Act.bind_ok he] at hb
        exact hb (.derivative d) rfl
      · have he : Tree.onDeriv f (DerivativeChain.addBlock E d) s1 = ⟨.err .chainAddingBlock, s1, []⟩ := by
          unfold Tree.onDeriv DerivativeChain.addBlock DerivativeChain.onChain
          rw [Act.zoom_run, Act.zoom_run, Chain.addBlock_wrong hd]
          simp only [List.map_nil]
          congr 1
          exact putHandle_back hm
        rw [Act.bind_err he]
        simp

/-! ## Requests on chains grown by mining -/

/-- Blocks come from mining only, on the main chain and on derivative chains. -/
def OnlyMined (op : Op) : Prop := EmitOnly op ∧ DerivEmitOnly op

theorem next_good {a b : UInt64} {d : Hash} {l : List UInt8} (hg : GoodHead d)
    (h : Spec.nextDifficulty E a b d.val = .ok l) : GoodHead (Spec.Node.bytes32 l) := by
  have := difficulty_spec E a b d
  rw [h] at this
  simp only at this
  rw [recalculate_eq] at this
  cases hs : u64Sub E b a with
  | ok delta =>
    rw [hs, Outcome.ok_bind] at this
    obtain ⟨d', h1, h2⟩ := stepBy_good E delta d hg
    rw [h1] at this
    cases this
    exact h2
  | err e => rw [hs] at this; cases this
  | panic e => rw [hs] at this; cases this
  | ub => rw [hs] at this; cases this

theorem next_ok {a b : UInt64} {d : Hash} (hg : GoodHead d) (h : a ≤ b ∨ E.overflowChecks = false) :
    ∃ l, Spec.nextDifficulty E a b d.val = .ok l := by
  have hs := difficulty_spec E a b d
  cases hx : Spec.nextDifficulty E a b d.val with
  | ok l => exact ⟨l, rfl⟩
  | error r =>
    rw [hx] at hs
    simp only at hs
    rw [recalculate_eq] at hs
    have : u64Sub E b a = .ok (b - a) := by
      rcases h with ht | ht
      · exact u64Sub_inorder E _ _ ht
      · rw [u64Sub, if_neg (by simp [ht])]
    rw [this, Outcome.ok_bind] at hs
    obtain ⟨d', h1, _⟩ := stepBy_good E (b - a) d hg
    exact absurd h1 (hs.2 d')

/-- What mining keeps up. -/
structure Mined (E : Env) (n : Spec.Node) : Prop where
  nonempty : n.blocks ≠ []
  main : ∀ b ∈ n.blocks, Spec.readable b = true ∧ GoodHead b.info.difficulty
  chains : ∀ o c, n.chains o = some c →
    (∃ b ∈ n.blocks, Spec.digest E b = c.1) ∧ ∀ d ∈ c.2, GoodHead d.defaultInfo.difficulty
  saved : ∀ o, n.saved o = none

variable {n : Spec.Node}

theorem Mined.tip (h : Mined E n) : ∃ b, n.blocks.getLast? = some b ∧ n.tip = some b ∧ b ∈ n.blocks := by
  obtain ⟨b, hb⟩ : ∃ b, n.blocks.getLast? = some b := ⟨_, List.getLast?_eq_some_getLast h.nonempty⟩
  have hm := List.mem_of_getLast? hb
  exact ⟨b, hb, by unfold Spec.Node.tip; rw [hb]; simp [(h.main b hm).1], hm⟩

theorem Mined.same {m : Spec.Node} (h : Mined E n) (h1 : m.blocks = n.blocks) (h2 : m.chains = n.chains)
    (h3 : m.saved = n.saved) : Mined E m :=
  ⟨by rw [h1]; exact h.nonempty, by rw [h1]; exact h.main, by rw [h1, h2]; exact h.chains, by rw [h3]; exact h.saved⟩

theorem Mined.append {m : Spec.Node} {b : Block} (h : Mined E n) (h1 : m.blocks = n.blocks ++ [b])
    (h2 : m.chains = n.chains) (h3 : m.saved = n.saved) (hb : Spec.readable b = true)
    (hg : GoodHead b.info.difficulty) : Mined E m := by
  refine ⟨by rw [h1]; simp, fun x hx => ?_, fun o c hc => ?_, by rw [h3]; exact h.saved⟩
  · rw [h1, List.mem_append, List.mem_singleton] at hx
    rcases hx with hx | rfl
    · exact h.main x hx
    · exact ⟨hb, hg⟩
  · rw [h2] at hc
    obtain ⟨⟨x, hx, he⟩, hd⟩ := h.chains o c hc
    exact ⟨⟨x, by rw [h1]; exact List.mem_append_left _ hx, he⟩, hd⟩

theorem Mined.setChain {o : Address} {c : Hash × List DerivativeBlock} (h : Mined E n)
    (h1 : ∃ b ∈ n.blocks, Spec.digest E b = c.1) (h2 : ∀ d ∈ c.2, GoodHead d.defaultInfo.difficulty) :
    Mined E (n.setChain o c) := by
  refine ⟨h.nonempty, h.main, fun q c' hc => ?_, h.saved⟩
  have hc' : (if q = o then some c else n.chains q) = some c' := hc
  by_cases hq : q = o
  · rw [if_pos hq] at hc'; cases hc'; exact ⟨h1, h2⟩
  · rw [if_neg hq] at hc'; exact h.chains q c' hc'

theorem Mined.openChain (h : Mined E n) (o : Address) :
    ∃ n' c, n.openChain E o = some n' ∧ n'.chains o = some c ∧ Mined E n' := by
  unfold Spec.Node.openChain
  cases hc : n.chains o with
  | some c => exact ⟨n, c, rfl, hc, h⟩
  | none =>
    obtain ⟨b, _, ht, hm⟩ := h.tip
    refine ⟨_, (Spec.digest E b, []), by rw [ht, h.saved]; rfl, by simp [Spec.Node.setChain], h.setChain ⟨b, hm, rfl⟩ ?_⟩
    intro d hd; cases hd

theorem Mined.withChain (h : Mined E n) (o : Address) {f : Spec.Node → Hash × List DerivativeBlock → Spec.Reply × Spec.Node}
    (hf : ∀ n' c, Mined E n' → n'.chains o = some c → Mined E (f n' c).2) : Mined E (n.withChain E o f).2 := by
  obtain ⟨n', c, h1, h2, h3⟩ := h.openChain o
  unfold Spec.Node.withChain
  rw [h1]
  simp only [h2]
  exact hf n' c h3 h2

/-- What the next block of an open chain follows: a digest, a difficulty and a time. -/
def baseOf (E : Env) (n : Spec.Node) (c : Hash × List DerivativeBlock) : Option (Hash × Hash × UInt64) :=
  match c.2.getLast? with
  | some d => some (Spec.digest E (.derivative d), d.defaultInfo.difficulty, d.defaultInfo.timestamp)
  | none => ((n.withDigest E c.1).filter Spec.readable).map
      (fun b => (Spec.digest E b, Spec.firstDifficulty, b.info.timestamp))

theorem Mined.withDigest (h : Mined E n) {g : Hash} (hg : ∃ b ∈ n.blocks, Spec.digest E b = g) :
    ∃ b, n.withDigest E g = some b ∧ Spec.readable b = true ∧ Spec.digest E b = g := by
  obtain ⟨b, hb, he⟩ := hg
  unfold Spec.Node.withDigest
  cases hf : n.blocks.reverse.find? (fun b => decide (Spec.digest E b = g)) with
  | none =>
    have := List.find?_eq_none.mp hf b (List.mem_reverse.mpr hb)
    simp [he] at this
  | some x =>
    exact ⟨x, rfl, (h.main x (List.mem_reverse.mp (List.mem_of_find?_eq_some hf))).1, by simpa using List.find?_some hf⟩

theorem Mined.base (h : Mined E n) {o : Address} {c : Hash × List DerivativeBlock} (hc : n.chains o = some c) :
    ∃ p d t, baseOf E n c = some (p, d, t) ∧ GoodHead d := by
  obtain ⟨h1, h2⟩ := h.chains o c hc
  unfold baseOf
  cases hl : c.2.getLast? with
  | some d => exact ⟨_, _, _, rfl, h2 d (List.mem_of_getLast? hl)⟩
  | none =>
    obtain ⟨b, hb, hr, _⟩ := h.withDigest h1
    exact ⟨Spec.digest E b, Spec.firstDifficulty, b.info.timestamp,
      by simp only [hb, Option.filter_some, hr, if_true, Option.map_some], good_beginning⟩

theorem mineOn_base {p : BytesN 32} {f : Address} {ts : UInt64} {c : Hash × List DerivativeBlock} {pv d : Hash}
    {t : UInt64} (hb : baseOf E n c = some (pv, d, t)) :
    n.mineOn E p f ts c = if ¬ Spec.enoughWork E pv d [] p then (.refused, n)
      else match Spec.nextDifficulty E t ts d.val with
        | .error r => (r, n)
        | .ok l => (.done, n.setChain f (c.1, c.2 ++
            [⟨.mk ts p pv (U256.ofNat c.2.length) (Spec.Node.bytes32 l) f⟩])) := by
  unfold Spec.Node.mineOn Spec.Node.mineFrom
  unfold baseOf at hb
  split
  · rename_i he
    exact absurd (hb.symm.trans he) (by simp)
  · rename_i he
    have := hb.symm.trans he
    cases this
    rfl

theorem Mined.step (h : Mined E n) {op : Op} (ho : OnlyMined op) : Mined E (n.step E op).2 := by
  have hcoin : ∀ b, Mined E (n.coinChange b).2 := by
    intro b; cases b
    · exact h
    · exact h.same rfl rfl rfl
  have hgas : ∀ b, Mined E (n.gasChange b).2 := by
    intro b; cases b
    · exact h
    · exact h.same rfl rfl rfl
  cases op with
  | addBlock b => exact ho.1.elim
  | addNewBlock b ts => exact ho.1.elim
  | addTransaction tx => exact h.same rfl rfl rfl
  | addTransactions ts => exact h.same rfl rfl rfl
  | addAmount o a => exact hcoin _
  | setAmount o a => exact hcoin _
  | subAmount o a => exact hcoin _
  | sendAmount s r a =>
    simp only [Spec.Node.step]
    split
    · exact h
    · exact hcoin _
  | addGas o a => exact hgas _
  | subGas o a => exact hgas _
  | sendGas s r a => exact hgas _
  | sendTransaction tx =>
    simp only [Spec.Node.step, Spec.Node.send]
    repeat' split
    all_goals first | exact h | exact h.same rfl rfl rfl
  | emitMain p f txs ts =>
    obtain ⟨b, _, ht, hm⟩ := h.tip
    simp only [Spec.Node.step, Spec.Node.mine, ht]
    split
    · exact h
    · cases hd : Spec.nextDifficulty E b.info.timestamp ts b.info.difficulty.val with
      | error r => exact h
      | ok l =>
        have hg := next_good (h.main b hm).2 hd
        simp only
        repeat' split
        all_goals first | exact h | exact h.append rfl rfl rfl rfl hg
  | emitDerivative p f ts =>
    refine h.withChain f fun n' c hn hc => ?_
    obtain ⟨pv, d, t, hb, hg⟩ := hn.base hc
    rw [mineOn_base hb]
    split
    · exact hn
    · cases hd : Spec.nextDifficulty E t ts d.val with
      | error r => exact hn
      | ok l =>
        obtain ⟨k1, k2⟩ := hn.chains f c hc
        refine hn.setChain k1 fun x hx => ?_
        rcases List.mem_append.mp hx with hx | hx
        · exact k2 x hx
        · rw [List.mem_singleton] at hx; subst hx; exact next_good hg hd
  | getDerivativeChain o => exact h.withChain o fun n' c hn _ => hn
  | derivAddBlock o b => exact ho.2.elim
  | derivFlush o => exact h.withChain o fun n' c hn _ => hn
  | mainFlush => exact h
  | flush => exact h

theorem mined_start (E : Env) : Mined E (Spec.Node.start E) := by
  refine ⟨by simp [Spec.Node.start], fun b hb => ?_, (fun o c hc => nomatch hc), fun _ => rfl⟩
  have : b = Spec.firstBlock E := by simpa [Spec.Node.start] using hb
  subst this
  exact ⟨rfl, good_beginning⟩

theorem mined_play : ∀ (ops : List Op) {n : Spec.Node}, Mined E n → (∀ op ∈ ops, OnlyMined op) → Mined E (n.play E ops).2
  | [], _, h, _ => h
  | op :: ops, _, h, ho => mined_play ops (h.step (ho op (by simp))) fun x hx => ho x (by simp [hx])

/-- What the next block of an owner's chain has to follow (digest, difficulty, time), by what the node answers: the
last block of the chain; if there is none, the main block with the digest the chain is anchored at, and the first
difficulty; if the chain is not open, the last main block, and the first difficulty. -/
inductive Before (E : Env) (t : Tree) (f : Address) : Hash → Hash → UInt64 → Prop where
  | last (d : DerivativeBlock) : ask E t (.chainLast f) = .deriv (some d) →
      Before E t f (E.sha256 d.dump) d.defaultInfo.difficulty d.defaultInfo.timestamp
  | anchor (g : Hash) (b : Block) : ask E t (.chainLast f) = .deriv none → ask E t (.chainAnchor f) = .hash g →
      ask E t (.byHash g) = .block (some b) → Before E t f (E.sha256 b.dump) Spec.firstDifficulty b.info.timestamp
  | tip (b : Block) : ask E t (.isOpen f) = .truth false → ask E t .last = .block (some b) →
      Before E t f (E.sha256 b.dump) Spec.firstDifficulty b.info.timestamp

theorem asAnswer_some {o : Option Block} {b : Block} (h : Spec.Node.asAnswer o = .block (some b)) :
    o = some b ∧ Spec.readable b = true := by
  cases o with
  | none => cases h
  | some x =>
    unfold Spec.Node.asAnswer at h
    by_cases hr : Spec.readable x = true
    · simp only [if_pos hr] at h; cases h; exact ⟨rfl, hr⟩
    · simp only [if_neg hr] at h; cases h

theorem chainLast_answer {f : Address} {o : Option DerivativeBlock} (h : n.answer E (.chainLast f) = .deriv o) :
    ∃ c, n.chains f = some c ∧ c.2.getLast? = o := by
  simp only [Spec.Node.answer] at h
  cases hc : n.chains f with
  | none => rw [hc] at h; cases h
  | some c => rw [hc] at h; cases h; exact ⟨c, rfl, rfl⟩

theorem chainAnchor_answer {f : Address} {g : Hash} (h : n.answer E (.chainAnchor f) = .hash g) :
    ∃ c, n.chains f = some c ∧ c.1 = g := by
  simp only [Spec.Node.answer] at h
  cases hc : n.chains f with
  | none => rw [hc] at h; cases h
  | some c => rw [hc] at h; cases h; exact ⟨c, rfl, rfl⟩

/-- The abstract node opens the chain, and its next block follows what is said in `Before`. -/
theorem before_base {t : Tree} {f : Address} {p d : Hash} {ts : UInt64} (hm : Matches E t n)
    (hs : n.saved f = none) (h : Before E t f p d ts) : ∃ n' c, n.openChain E f = some n' ∧ n'.chains f = some c ∧
      baseOf E n' c = some (p, d, ts) ∧ (n' = n ∨ n.chains f = none ∧ c.2 = []) := by
  cases h with
  | last x h =>
    rw [sim_ask hm] at h
    obtain ⟨c, hc, this⟩ := chainLast_answer h
    refine ⟨n, c, by unfold Spec.Node.openChain; rw [hc], hc, ?_, .inl rfl⟩
    unfold baseOf
    rw [this]; rfl
  | anchor g b h1 h2 h3 =>
    rw [sim_ask hm] at h1 h2 h3
    obtain ⟨c, hc, this⟩ := chainLast_answer h1
    obtain ⟨c', hc', hg⟩ := chainAnchor_answer h2
    rw [hc] at hc'; cases hc'
    obtain ⟨k1, k2⟩ := asAnswer_some h3
    refine ⟨n, c, by unfold Spec.Node.openChain; rw [hc], hc, ?_, .inl rfl⟩
    unfold baseOf
    rw [this, hg, k1]
    simp only [Option.filter_some, k2, if_true, Option.map_some]
    rfl
  | tip b h1 h2 =>
    rw [sim_ask hm] at h1 h2
    obtain ⟨k1, k2⟩ := asAnswer_some h2
    have hc : n.chains f = none := by
      cases hx : n.chains f with
      | none => rfl
      | some c =>
        have : Spec.Answer.truth (n.chains f).isSome = .truth false := h1
        rw [hx] at this; cases this
    have ht : n.tip = some b := by unfold Spec.Node.tip; rw [k1]; simp [k2]
    refine ⟨n.setChain f (Spec.digest E b, []), (Spec.digest E b, []), ?_, by simp [Spec.Node.setChain], ?_, .inr ⟨hc, rfl⟩⟩
    · unfold Spec.Node.openChain; rw [hc, ht, hs]; rfl
    · unfold baseOf
      have : Spec.Node.withDigest E (n.setChain f (Spec.digest E b, [])) (Spec.digest E b) = some b := by
        show n.blocks.reverse.find? _ = _
        rw [List.getLast?_eq_some_iff] at k1
        obtain ⟨l, hl⟩ := k1
        rw [hl]; simp
      simp only [List.getLast?_nil, this, Option.filter_some, k2, if_true, Option.map_some]
      rfl

theorem enough_iff {p d : Hash} {txs : List Hash} {pow : BytesN 32} :
    Spec.enoughWork E p d txs pow = true ↔ MeetsPow E p d txs pow.val := by
  rw [← checkPow_iff, checkPow_spec]
  constructor
  · intro h; rw [h]
  · intro h; exact Outcome.ok.inj h

/-- C129, exact answers: on a node whose blocks were all mined, with a time not before that of the block to follow, or
in builds without overflow checks, a request is granted exactly if the nonce has enough work, and otherwise refused. What
the block has to follow is always known. Granted: the block follows that block, is one higher, and is then the
last of the chain. (Missing: an earlier time in a build with overflow checks panics; chains to which blocks with arbitrary
difficulties were added by other calls.) -/
theorem C129_exact_partial (E : Env) (ops : List Op) (f : Address) (hops : ∀ op ∈ ops, OnlyMined op)
    (h : ops.length + 2 < 2 ^ 256) :
    (∃ prev d time, Before E (started E ops).2 f prev d time) ∧
    ∀ prev d time (pow : BytesN 32) (ts : UInt64), Before E (started E ops).2 f prev d time →
      (time ≤ ts ∨ E.overflowChecks = false) →
      (¬ MeetsPow E prev d [] pow.val → replyOf (Tree.emitDerivative E pow f ts (started E ops).2).out = .refused) ∧
      (MeetsPow E prev d [] pow.val → ∃ b, (Tree.emitDerivative E pow f ts (started E ops).2).out = .ok (.derivative b) ∧
        b.defaultInfo.previousHash = prev ∧ b.defaultInfo.pow = pow ∧ b.defaultInfo.timestamp = ts ∧
        b.defaultInfo.founder = f ∧ recalculateDifficulty E time ts d = .ok b.defaultInfo.difficulty ∧
        ask E (Tree.emitDerivative E pow f ts (started E ops).2).final (.chainLast f) = .deriv (some b) ∧
        ask E (Tree.emitDerivative E pow f ts (started E ops).2).final (.chainHeight f) =
          .number (b.defaultInfo.height.val + 1)) := by
  obtain ⟨_, hmatch, hshort⟩ := sim_play (E := E) ops (matches_start E) (short_start E) (by unfold U256.size; omega)
  have hmined := mined_play ops (mined_start E) hops
  obtain ⟨t, ht⟩ : ∃ t, t = (started E ops).2 := ⟨_, rfl⟩
  obtain ⟨m, hn⟩ : ∃ m, m = ((Spec.Node.start E).play E ops).2 := ⟨_, rfl⟩
  rw [← hn] at hmatch hshort hmined
  change Matches E (started E ops).2 m at hmatch
  rw [← ht] at hmatch ⊢
  have hk : 1 + ops.length + 1 < U256.size := by unfold U256.size; omega
  refine ⟨?_, fun prev d time pow ts hbef hord => ?_⟩
  · cases hc : m.chains f with
    | none =>
      obtain ⟨b, hb, _, hm⟩ := hmined.tip
      refine ⟨_, _, _, .tip b ?_ ?_⟩
      · rw [sim_ask hmatch]; show Spec.Answer.truth (m.chains f).isSome = _; rw [hc]; rfl
      · rw [sim_ask hmatch]; show Spec.Node.asAnswer m.blocks.getLast? = _
        rw [hb]; unfold Spec.Node.asAnswer; simp only [(hmined.main b hm).1, if_true]
    | some c =>
      cases hl : c.2.getLast? with
      | some x =>
        refine ⟨_, _, _, .last x ?_⟩
        rw [sim_ask hmatch]; simp only [Spec.Node.answer, hc, hl]
      | none =>
        obtain ⟨b, h1, h2, h3⟩ := hmined.withDigest (hmined.chains f c hc).1
        refine ⟨_, _, _, .anchor c.1 b ?_ ?_ ?_⟩
        · rw [sim_ask hmatch]; simp only [Spec.Node.answer, hc, hl]
        · rw [sim_ask hmatch]; simp only [Spec.Node.answer, hc]
        · rw [sim_ask hmatch]; simp only [Spec.Node.answer, h1, Spec.Node.asAnswer, h2, if_true]
  · obtain ⟨n', c, h1, h2, h3, h4⟩ := before_base hmatch (hmined.saved f) hbef
    obtain ⟨hsim, hnew⟩ := sim_emitDerivative hmatch hshort hk pow f ts
    have hgood : GoodHead d := by
      obtain ⟨n'', c', g1, g2, g3⟩ := hmined.openChain f
      rw [h1] at g1; cases g1
      rw [h2] at g2; cases g2
      obtain ⟨_, _, _, e, hg⟩ := g3.base h2
      rw [h3] at e; cases e
      exact hg
    have hw : m.withChain E f (fun n c => n.mineOn E pow f ts c) = n'.mineOn E pow f ts c := by
      unfold Spec.Node.withChain; rw [h1]; simp only [h2]
    rw [hw, mineOn_base h3] at hsim hnew
    obtain ⟨l, hl⟩ := next_ok hgood hord
    rw [hl] at hsim hnew
    refine ⟨fun hno => ?_, fun hyes => ?_⟩
    · rw [if_pos (by rw [enough_iff]; exact hno)] at hsim
      exact hsim.1
    · rw [if_neg (by rw [enough_iff]; exact fun hx => hx hyes)] at hsim hnew
      cases ho : (Tree.emitDerivative E pow f ts t).out with
      | ok b =>
        obtain ⟨x, rfl, c', hc', hx⟩ := hnew b ho
        have e : c' = (c.1, c.2 ++ [⟨.mk ts pow prev (U256.ofNat c.2.length) (Spec.Node.bytes32 l) f⟩]) := by
          simp [Spec.Node.setChain] at hc'
          exact hc'.symm
        subst e
        simp only [List.getLast?_append, List.getLast?_singleton, Option.some_or, Option.some.injEq] at hx
        subst hx
        have hds := difficulty_spec E time ts d
        rw [hl] at hds
        have hlen : c.2.length < U256.size := by
          rcases h4 with rfl | ⟨_, e⟩
          · have := hshort.2 f c (.inl h2); omega
          · rw [e]; exact Nat.pos_of_ne_zero (by decide)
        refine ⟨_, rfl, rfl, rfl, rfl, rfl, hds, ?_, ?_⟩
        · rw [sim_ask hsim.2]; simp [Spec.Node.answer, Spec.Node.setChain]
        · rw [sim_ask hsim.2]
          simp [Spec.Node.answer, Spec.Node.setChain, ofNat_val hlen]
      | err e => have := hsim.1; rw [ho] at this; cases this
      | panic e => have := hsim.1; rw [ho] at this; cases this
      | ub => have := hsim.1; rw [ho] at this; cases this

/-! ## C129 is false -/

/-- C129 at full strength: a request that is not granted changes no answer of the node. -/
def C129_full : Prop := ∀ (E : Env) (ops : List Op) (pow : BytesN 32) (f : Address) (ts : UInt64) (q : Spec.Query),
  ops.length + 2 < 2 ^ 256 → (∀ b, (Tree.emitDerivative E pow f ts (started E ops).2).out ≠ .ok b) →
  ask E (Tree.emitDerivative E pow f ts (started E ops).2).final q = ask E (started E ops).2 q

theorem withChain_saved (o : Address) {f : Spec.Node → Hash × List DerivativeBlock → Spec.Reply × Spec.Node}
    (hf : ∀ n c, (f n c).2.saved = n.saved) : (n.withChain E o f).2.saved = n.saved := by
  unfold Spec.Node.withChain
  cases hc : n.openChain E o with
  | none => rfl
  | some n' =>
    have : n'.saved = n.saved := by
      unfold Spec.Node.openChain at hc
      cases hx : n.chains o with
      | some c => rw [hx] at hc; cases hc; rfl
      | none =>
        rw [hx] at hc
        cases ht : n.tip with
        | none => rw [ht] at hc; cases hc
        | some b => rw [ht] at hc; cases hc; rfl
    simp only
    cases n'.chains o with
    | none => exact this
    | some c => exact (hf n' c).trans this

theorem step_saved (op : Op) : (n.step E op).2.saved = n.saved := by
  cases op
  case emitDerivative p f ts =>
    refine withChain_saved f fun _ _ => ?_
    unfold Spec.Node.mineOn Spec.Node.mineFrom
    repeat' split
    all_goals rfl
  case getDerivativeChain o => exact withChain_saved o fun _ _ => rfl
  case derivFlush o => exact withChain_saved o fun _ _ => rfl
  case derivAddBlock o b => refine withChain_saved o fun _ _ => ?_; split <;> rfl
  all_goals
    simp only [Spec.Node.step, Spec.Node.coinChange, Spec.Node.gasChange, Spec.Node.send, Spec.Node.mine]
    repeat' split
    all_goals rfl

theorem play_saved : ∀ (ops : List Op) (n : Spec.Node), (n.play E ops).2.saved = n.saved
  | [], _ => rfl
  | op :: ops, _ => (play_saved ops _).trans (step_saved op)

theorem play_cat : ∀ (ops ops' : List Op) (n : Spec.Node),
    (n.play E (ops ++ ops')).2 = ((n.play E ops).2.play E ops').2
  | [], _, _ => rfl
  | _ :: ops, ops', _ => play_cat ops ops' _

/-- A nonce without enough work for the first block of a chain anchored at the first main block, with SHA-256. -/
theorem real_refused (c : Bool) :
    ¬ MeetsPow (shaEnv c) ((shaEnv c).sha256 (genesis (shaEnv c)).dump) Spec.firstDifficulty [] (realPow 4).val := by
  rw [← checkPow_iff]
  cases c <;> decide +kernel

/-- C129 is false of the code. Someone asks, without any work, for a block of a chain that was not opened before: they
are refused, but the chain is anchored at the last main block for good. When a block has been added to the main chain and
the owner opens the chain, its anchor, which the owner's first block has to point at and to have work for, is not the last
block, as it would be without the refused request. -/
theorem C129_refuted :
    (∀ (E : Env) (ops : List Op) (pow : BytesN 32) (f : Address) (ts : UInt64) (last b : Block),
      ops.length + 4 < 2 ^ 256 → ask E (started E ops).2 (.isOpen f) = .truth false →
      ask E (started E ops).2 .last = .block (some last) → ¬ MeetsPow E (E.sha256 last.dump) Spec.firstDifficulty [] pow.val →
      ask E (started E ops).2 .height = .number b.info.height.val → b.IsMain →
      replyOf (Tree.emitDerivative E pow f ts (started E ops).2).out = .refused ∧
      ask E (started E (ops ++ [.emitDerivative pow f ts])).2 (.isOpen f) = .truth true ∧
      ask E (started E (ops ++ [.emitDerivative pow f ts, .addBlock b, .getDerivativeChain f])).2 (.chainAnchor f) =
        .hash (E.sha256 last.dump) ∧
      ask E (started E (ops ++ [.addBlock b, .getDerivativeChain f])).2 (.chainAnchor f) = .hash (E.sha256 b.dump)) ∧
    ¬ C129_full := by
  have key : ∀ (E : Env) (ops : List Op) (pow : BytesN 32) (f : Address) (ts : UInt64) (last b : Block),
      ops.length + 4 < 2 ^ 256 → ask E (started E ops).2 (.isOpen f) = .truth false →
      ask E (started E ops).2 .last = .block (some last) → ¬ MeetsPow E (E.sha256 last.dump) Spec.firstDifficulty [] pow.val →
      ask E (started E ops).2 .height = .number b.info.height.val → b.IsMain →
      replyOf (Tree.emitDerivative E pow f ts (started E ops).2).out = .refused ∧
      ask E (started E (ops ++ [.emitDerivative pow f ts])).2 (.isOpen f) = .truth true ∧
      ask E (started E (ops ++ [.emitDerivative pow f ts, .addBlock b, .getDerivativeChain f])).2 (.chainAnchor f) =
        .hash (E.sha256 last.dump) ∧
      ask E (started E (ops ++ [.addBlock b, .getDerivativeChain f])).2 (.chainAnchor f) = .hash (E.sha256 b.dump) := by
    intro E ops pow f ts last b hlen hopen hlast hpow hh hmain
    have hbef := Before.tip (E := E) last hopen hlast
    rw [C127_same_answers E ops _ (by omega)] at hopen hlast hh
    rw [C127_same_answers E _ _ (by rw [List.length_append]; simp; omega),
      C127_same_answers E _ _ (by rw [List.length_append]; simp; omega),
      C127_same_answers E _ _ (by rw [List.length_append]; simp; omega)]
    obtain ⟨_, hmatch, hshort⟩ := sim_play (E := E) ops (matches_start E) (short_start E) (by unfold U256.size; omega)
    unfold abstractly at *
    rw [play_cat, play_cat, play_cat]
    have hs := play_saved (E := E) ops (Spec.Node.start E)
    obtain ⟨m, hn⟩ : ∃ m, m = ((Spec.Node.start E).play E ops).2 := ⟨_, rfl⟩
    rw [← hn] at hmatch hshort hs hopen hlast hh ⊢
    change Matches E (started E ops).2 m at hmatch
    have hs' : m.saved f = none := by rw [hs]; rfl
    obtain ⟨sim, _⟩ := sim_emitDerivative hmatch hshort (by unfold U256.size; omega) pow f ts
    obtain ⟨n', c, h1, h2, h3, _⟩ := before_base hmatch hs' hbef
    obtain ⟨k1, k2⟩ := asAnswer_some hlast
    have hc : m.chains f = none := by
      cases hx : m.chains f with
      | none => rfl
      | some c =>
        have : Spec.Answer.truth (m.chains f).isSome = .truth false := hopen
        rw [hx] at this; cases this
    have ht : m.tip = some last := by unfold Spec.Node.tip; rw [k1]; simp [k2]
    have hn' : n' = m.setChain f (Spec.digest E last, []) := by
      have : m.openChain E f = some (m.setChain f (Spec.digest E last, [])) := by
        unfold Spec.Node.openChain; rw [hc, ht, hs']; rfl
      rw [this] at h1; cases h1; rfl
    have hw : m.withChain E f (fun n c => n.mineOn E pow f ts c) = (.refused, m.setChain f (Spec.digest E last, [])) := by
      unfold Spec.Node.withChain; rw [h1]; simp only [h2]
      rw [mineOn_base h3, if_pos (by rw [enough_iff]; exact hpow), hn']
    have hst : m.step E (.emitDerivative pow f ts) = (.refused, m.setChain f (Spec.digest E last, [])) := hw
    rw [hw] at sim
    have hbl : b.info.height.val = m.blocks.length := by
      have : Spec.Answer.number m.blocks.length = .number b.info.height.val := hh
      exact (Spec.Answer.number.inj this).symm
    refine ⟨sim.1, ?_, ?_, ?_⟩
    · show Spec.Answer.truth (((m.step E (.emitDerivative pow f ts)).2).chains f).isSome = _
      rw [hst]; simp [Spec.Node.setChain]
    · show Spec.Node.answer E ((((m.step E (.emitDerivative pow f ts)).2).step E (.addBlock b)).2.step E
        (.getDerivativeChain f)).2 _ = _
      rw [hst]
      simp only [Spec.Node.step]
      rw [if_pos (show b.info.height.val = (m.setChain f (Spec.digest E last, [])).blocks.length from hbl)]
      simp [Spec.Node.withChain, Spec.Node.openChain, Spec.Node.append, Spec.Node.setChain, Spec.Node.answer]
      rfl
    · show Spec.Node.answer E (((m.step E (.addBlock b)).2).step E (.getDerivativeChain f)).2 _ = _
      simp only [Spec.Node.step]
      rw [if_pos hbl]
      have hr := (readable_iff b).mpr hmain
      simp [Spec.Node.withChain, Spec.Node.openChain, Spec.Node.append, Spec.Node.setChain, Spec.Node.answer, hc, hs',
        Spec.Node.tip, hr, Option.filter_some]
      rfl
  refine ⟨key, fun hfull => ?_⟩
  obtain ⟨h1, h2, _, _⟩ := key (shaEnv true) [] (realPow 4) anna 1597925400 (genesis (shaEnv true)) nextBlock
    (by decide) (by rw [C127_same_answers _ _ _ (by decide)]; rfl)
    (by rw [C127_same_answers _ _ _ (by decide), ← firstBlock_eq]; rfl) (real_refused true)
    (by rw [C127_same_answers _ _ _ (by decide)]; rfl) trivial
  have h := hfull (shaEnv true) [] (realPow 4) anna 1597925400 (.isOpen anna) (by decide) (fun b hb => by
    rw [hb] at h1; cases h1)
  have e : (started (shaEnv true) ([] ++ [.emitDerivative (realPow 4) anna 1597925400])).2 =
      (Tree.emitDerivative (shaEnv true) (realPow 4) anna 1597925400 (started (shaEnv true) []).2).final := rfl
  rw [e, h, C127_same_answers _ _ _ (by decide)] at h2
  cases h2

/-- The refutation applies: a fresh node, a request without work for anna's chain. -/
example : ask (shaEnv true) (started (shaEnv true) []).2 (.isOpen anna) = .truth false := by
  rw [C127_same_answers _ _ _ (by decide)]; rfl

/-- A case of `C129_exact_partial`: a node on which a block was mined for bela; the next one of bela follows it, the first
one of anna the last main block. -/
def someMined : List Op :=
  [.emitMain (BytesN.fill 32 0) anna [BytesN.fill 32 0] 1706093000, .emitDerivative (BytesN.fill 32 0) bela 1706094000]

example : ∀ op ∈ someMined, OnlyMined op := by
  intro op h
  simp only [someMined, List.mem_cons, List.not_mem_nil, or_false] at h
  rcases h with rfl | rfl <;> exact ⟨trivial, trivial⟩

example : ∃ d, ask zeroEnv (started zeroEnv someMined).2 (.chainLast bela) = .deriv (some d) ∧
    d.defaultInfo.timestamp = 1706094000 := by
  rw [C127_same_answers _ _ _ (by decide)]
  refine ⟨⟨.mk 1706094000 (BytesN.fill 32 0) (BytesN.fill 32 0) U256.zero ?_ bela⟩, ?_, rfl⟩
  · exact ⟨127 :: List.replicate 31 255, by decide⟩
  · decide +kernel

example : ask zeroEnv (started zeroEnv someMined).2 (.isOpen anna) = .truth false := by
  rw [C127_same_answers _ _ _ (by decide)]
  decide +kernel

/-- `C129_only_opens_partial` applies to the refused request above. -/
example : ∀ b, (Tree.emitDerivative (shaEnv true) (realPow 4) anna 1597925400 (started (shaEnv true) []).2).out ≠ .ok b := by
  intro b hb
  obtain ⟨h1, _⟩ := C129_refuted.1 (shaEnv true) [] (realPow 4) anna 1597925400 (genesis (shaEnv true)) nextBlock
    (by decide) (by rw [C127_same_answers _ _ _ (by decide)]; rfl)
    (by rw [C127_same_answers _ _ _ (by decide), ← firstBlock_eq]; rfl) (real_refused true)
    (by rw [C127_same_answers _ _ _ (by decide)]; rfl) trivial
  rw [hb] at h1; cases h1

end Props
end BCT
