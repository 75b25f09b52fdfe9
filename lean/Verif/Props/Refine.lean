import Verif.Lemmas.NodeRestart
/-!
# C127, C128: the node against an abstract node

`Spec.Node` (`Verif/Spec/Node.lean`) says what a node is to do without bytes on a disk, databases, configuration
files, indices, or chains of closures: two lists of blocks, the transactions, books of natural numbers, and one
function for the reply and effect of every call. Both give the same replies and the same answers, whatever calls
are made.
-/

namespace BCT
namespace Props

/-- A node started in an empty directory, and the calls made since. -/
def started (E : Env) (ops : List Op) : List Spec.Reply × Tree := playTree E (openTree E Disk.empty).final ops

/-- The abstract node after the calls. -/
def abstractly (E : Env) (ops : List Op) : List Spec.Reply × Spec.Node := (Spec.Node.start E).play E ops

theorem short_start (E : Env) : Short 1 (Spec.Node.start E) := ⟨by simp [Spec.Node.start], fun o c h => by rcases h with h | h <;> cases h⟩

/-- C127. Whether a call is done, refused, crashes or is undefined: as the abstract node says, for every call of
every sequence of calls. -/
theorem C127_same_replies (E : Env) (ops : List Op) (h : ops.length + 1 < 2 ^ 256) :
    (openTree E Disk.empty).out = .ok () ∧ (started E ops).1 = (abstractly E ops).1 := by
  refine ⟨(openTree_fresh E).1, ?_⟩
  exact (sim_play ops (matches_start E) (short_start E) (by unfold U256.size; omega)).1

/-- C127. Every question put to the node after the calls is answered as the abstract node answers. -/
theorem C127_same_answers (E : Env) (ops : List Op) (q : Spec.Query) (h : ops.length + 1 < 2 ^ 256) :
    ask E (started E ops).2 q = (abstractly E ops).2.answer E q :=
  sim_ask (sim_play ops (matches_start E) (short_start E) (by unfold U256.size; omega)).2.1 q

/-- C127. A block returned by a mining call is the one the abstract node then has at the end of the chain. -/
theorem C127_same_blocks (E : Env) (ops : List Op) (pow : BytesN 32) (f : Address) (txs : List Hash) (ts : UInt64)
    (h : ops.length + 2 < 2 ^ 256) (b : Block) :
    ((Tree.emitMain E pow f txs ts (started E ops).2).out = .ok b →
      (abstractly E (ops ++ [.emitMain pow f txs ts])).2.blocks.getLast? = some b) ∧
    ((Tree.emitDerivative E pow f ts (started E ops).2).out = .ok b →
      ∃ d, b = .derivative d ∧ ∃ c, (abstractly E (ops ++ [.emitDerivative pow f ts])).2.chains f = some c ∧
        c.2.getLast? = some d) := by
  have hp := sim_play ops (matches_start E) (short_start E) (by unfold U256.size; omega)
  have hk : 1 + ops.length + 1 < U256.size := by unfold U256.size; omega
  unfold abstractly
  rw [play_append, play_append]
  exact ⟨(sim_step hp.2.1 hp.2.2 hk (.emitMain pow f txs ts)).2 b, (sim_step hp.2.1 hp.2.2 hk (.emitDerivative pow f ts)).2 b⟩

/-- C128. The same with restarts: whenever the open derivative chains and the node are flushed before the process
ends (in whatever way it then ends), the next process opens the directory, and all replies are as the abstract node
says. Of the abstract node a restart only closes the derivative chains, which are later opened as they were, and, if
there is one block, gives the root account the first coins again (C60). -/
theorem C128_restarts_same_replies (E : Env) (t : Tree) (evs : List Spec.Event) (rs : List Spec.Reply)
    (hl : Lives E (openTree E Disk.empty).final evs rs t) (ht : (Spec.Node.start E).Tidy E evs)
    (h : Spec.calls evs + 1 < 2 ^ 256) : rs = ((Spec.Node.start E).live E evs).1 :=
  (sim_live hl (matches_start E) (short_start E) (by unfold U256.size; omega) ht).1

/-- C128. And all answers. -/
theorem C128_restarts_same_answers (E : Env) (t : Tree) (evs : List Spec.Event) (rs : List Spec.Reply)
    (hl : Lives E (openTree E Disk.empty).final evs rs t) (ht : (Spec.Node.start E).Tidy E evs)
    (h : Spec.calls evs + 1 < 2 ^ 256) (q : Spec.Query) :
    ask E t q = ((Spec.Node.start E).live E evs).2.answer E q :=
  sim_ask (sim_live hl (matches_start E) (short_start E) (by unfold U256.size; omega) ht).2.1 q

theorem life_play {E : Env} : ∀ (ops : List Op) {t : Tree}, Life E (.idle t) → Life E (.idle (playTree E t ops).2)
  | [], _, h => h
  | op :: ops, t, h => life_play ops (.call t op h)

/-- C128 is about something: every list of events can happen to every node. -/
theorem C128_events_happen (E : Env) : ∀ (evs : List Spec.Event) (t : Tree), Life E (.idle t) →
    ∃ rs t', Lives E t evs rs t' ∧ Life E (.idle t')
  | [], t, h => ⟨[], t, .nil t, h⟩
  | .call op :: evs, t, h => by
    obtain ⟨rs, t', hl, h'⟩ := C128_events_happen E evs _ (.call t op h)
    exact ⟨_, t', .call hl, h'⟩
  | .stop os :: evs, t, h => by
    have h1 := life_play (Spec.flushes os) h
    have hc := close_is_crash E _ h1
    have h0 := life_play (os.map Op.derivFlush) h
    have hok : (openTree E (playTree E t (Spec.flushes os)).2.close).out = .ok () := by
      have hc' := hc
      unfold Spec.flushes at hc' ⊢
      rw [playTree_append] at hc' ⊢
      exact (C58_flushed_restart_partial E _ _ h0 hc').2.1
    obtain ⟨rs, t', hl, h'⟩ := C128_events_happen E evs _ (.opened _ (.crashIdle _ _ h1 hc) hok)
    exact ⟨_, t', .stop hc hl, h'⟩

/-! ## A case -/

/-- An owner. -/
def anna : Address := ⟨List.replicate 33 7, by decide⟩
/-- Another one. -/
def bela : Address := ⟨List.replicate 33 8, by decide⟩

/-- Some calls: deposits, a transfer, one that is impossible, a mined block, a derivative block, and refused calls. -/
def someCalls : List Op :=
  [ .addAmount anna.val (U256.ofNat 1000), .sendAmount anna.val bela.val (U256.ofNat 300),
    .subAmount bela.val (U256.ofNat 301),
    .emitMain (padN 32) anna [padN 32] 1706093000, .emitMain (padN 32) anna [] 1706093000,
    .emitDerivative (padN 32) bela 1706094000, .addBlock (genesis zeroEnv), .flush ]
where padN (n : Nat) : BytesN n := ⟨List.replicate n 0, by simp⟩

example : someCalls.length + 1 < 2 ^ 256 := by decide

example : (abstractly zeroEnv someCalls).1 = [.done, .done, .crash, .done, .refused, .done, .refused, .done] := by
  decide +kernel

example : (started zeroEnv someCalls).1 = [.done, .done, .crash, .done, .refused, .done, .refused, .done] := by
  rw [(C127_same_replies zeroEnv someCalls (by decide)).2]
  decide +kernel

example : ask zeroEnv (started zeroEnv someCalls).2 .height = .number 2 ∧
    ask zeroEnv (started zeroEnv someCalls).2 (.amount bela) = .number 300 ∧
    ask zeroEnv (started zeroEnv someCalls).2 (.chainHeight bela) = .number 1 := by
  simp only [C127_same_answers zeroEnv someCalls _ (by decide)]
  decide +kernel

/-- Calls around a restart: bela's chain is open and flushed, and has its block afterwards. -/
def someEvents : List Spec.Event := someCalls.map .call ++ [.stop [bela], .call (.getDerivativeChain bela)]

theorem withChain_other (E : Env) (n : Spec.Node) {o q : Address} (hq : o ≠ q)
    {f : Spec.Node → Hash × List DerivativeBlock → Spec.Reply × Spec.Node}
    (hf : ∀ n' c, (f n' c).2.chains o = n'.chains o) : (n.withChain E q f).2.chains o = n.chains o := by
  unfold Spec.Node.withChain
  cases hc : n.openChain E q with
  | none => rfl
  | some n' =>
    have : n'.chains o = n.chains o := by
      unfold Spec.Node.openChain at hc
      cases hc' : n.chains q with
      | some c => rw [hc'] at hc; cases hc; rfl
      | none =>
        rw [hc'] at hc
        cases ht : n.tip with
        | none => rw [ht] at hc; cases hc
        | some b => rw [ht] at hc; cases hc; exact if_neg hq
    simp only
    cases n'.chains q with
    | none => exact this
    | some c => exact (hf n' c).trans this

theorem mineOn_other (E : Env) (n : Spec.Node) {o q : Address} (hq : o ≠ q) (p : BytesN 32) (ts : UInt64)
    (c : Hash × List DerivativeBlock) : (n.mineOn E p q ts c).2.chains o = n.chains o := by
  unfold Spec.Node.mineOn Spec.Node.mineFrom
  repeat' split
  all_goals first | rfl | exact if_neg hq

theorem mine_chains (E : Env) (n : Spec.Node) (p : BytesN 32) (f : Address) (txs : List Hash) (ts : UInt64) :
    (n.mine E p f txs ts).2.chains = n.chains := by
  unfold Spec.Node.mine
  repeat' split
  all_goals rfl

/-- After the calls, only bela's chain is open. -/
theorem someCalls_open (o : Address) (hne : o ≠ bela) : (abstractly zeroEnv someCalls).2.chains o = none := by
  have h1 : ∀ (n : Spec.Node) b, (n.coinChange b).2.chains = n.chains := by intro n b; cases b <;> rfl
  have h2 : ∀ n : Spec.Node, (n.step zeroEnv (.addBlock (genesis zeroEnv))).2.chains = n.chains := by
    intro n; simp only [Spec.Node.step]; split <;> rfl
  have h3 : ∀ (n : Spec.Node) s t a, (n.step zeroEnv (.sendAmount s t a)).2.chains = n.chains := by
    intro n s t a; simp only [Spec.Node.step]; split
    · rfl
    · exact h1 _ _
  have h4 : ∀ (n : Spec.Node) p ts, (n.step zeroEnv (.emitDerivative p bela ts)).2.chains o = n.chains o := by
    intro n p ts
    exact withChain_other zeroEnv n hne fun n' c => mineOn_other zeroEnv n' hne p ts c
  have e : ∀ (n : Spec.Node) (op : Op) ops, (n.play zeroEnv (op :: ops)).2 = ((n.step zeroEnv op).2.play zeroEnv ops).2 :=
    fun _ _ _ => rfl
  unfold abstractly someCalls
  simp only [e]
  show (Spec.Node.step zeroEnv _ (.addBlock (genesis zeroEnv))).2.chains o = none
  rw [h2, h4]
  simp only [Spec.Node.step, mine_chains, h1]
  split
  · rfl
  · rw [h1]; rfl

example : (Spec.Node.start zeroEnv).Tidy zeroEnv someEvents := by
  refine ⟨fun o ho => ?_, trivial⟩
  rw [List.mem_singleton]
  refine Classical.byContradiction fun hne => ?_
  have h : ((abstractly zeroEnv someCalls).2.chains o).isSome := ho
  rw [someCalls_open o hne] at h
  cases h

example (t : Tree) (rs : List Spec.Reply) (hl : Lives zeroEnv (openTree zeroEnv Disk.empty).final someEvents rs t)
    (ht : (Spec.Node.start zeroEnv).Tidy zeroEnv someEvents) :
    ask zeroEnv t (.chainHeight bela) = .number 1 ∧ ask zeroEnv t .height = .number 2 := by
  simp only [C128_restarts_same_answers zeroEnv t someEvents rs hl ht (by decide)]
  decide +kernel

end Props
end BCT
