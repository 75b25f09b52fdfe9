import Verif.Lemmas.Miner
/-!
# Runs of the example programs
-/

namespace BCT
open BCT.Props

section
variable {E : Env} {w : Address} {T : UInt64} {K M N : Nat} {n : Spec.Node} {t : Tree}

theorem Ready.later (r : Ready E w T K M N n) {T' : UInt64} (h : E.overflowChecks = true → T ≤ T') : Ready E w T' K M N n :=
  ⟨r.length, fun b hb => ⟨(r.main b hb).1, (r.main b hb).2.1, fun ho => UInt64.le_trans ((r.main b hb).2.2 ho) (h ho)⟩,
    r.founders, r.coins, r.root, r.others, r.gas, r.gasOthers, r.chains, r.saved, r.noChain, fun c hc =>
    ⟨(r.chain c hc).1, (r.chain c hc).2.1, fun d hd => ⟨((r.chain c hc).2.2 d hd).1, ((r.chain c hc).2.2 d hd).2.1,
      fun ho => UInt64.le_trans (((r.chain c hc).2.2 d hd).2.2 ho) (h ho)⟩⟩⟩

namespace Example

theorem call_done (h : Matches E t n) {k : Nat} (hk : Short k n) (hm : k + 1 < U256.size) {op : Op} {n' : Spec.Node}
    (hd : n.step E op = (.done, n')) :
    call E op t = ⟨.ok (), (op.run E t).final, (op.run E t).trace⟩ ∧ Matches E (op.run E t).final n' ∧ Short (k + 1) n' := by
  obtain ⟨h1, h2⟩ := (sim_step h hk hm op).1
  have h3 := short_step (E := E) hk op
  rw [hd] at h1 h2 h3
  refine ⟨?_, h2, h3⟩
  unfold call
  cases ho : (op.run E t).out with
  | ok a => rfl
  | err e => rw [ho] at h1; cases h1
  | panic e => rw [ho] at h1; cases h1
  | ub => rw [ho] at h1; cases h1

theorem call_refused (h : Matches E t n) {k : Nat} (hk : Short k n) (hm : k + 1 < U256.size) {op : Op} {n' : Spec.Node}
    (hd : n.step E op = (.refused, n')) :
    call E op t = ⟨.panic .unwrap, (op.run E t).final, (op.run E t).trace⟩ := by
  obtain ⟨h1, h2⟩ := (sim_step h hk hm op).1
  rw [hd] at h1
  unfold call
  cases ho : (op.run E t).out with
  | ok a => rw [ho] at h1; cases h1
  | err e => rfl
  | panic e => rw [ho] at h1; cases h1
  | ub => rw [ho] at h1; cases h1

theorem ask_bind {α β : Type} {f : Tree → Outcome α} {a : α} (h : f t = .ok a) (g : α → Act Tree β) :
    (ask f >>= g) t = g a t := by
  have : ask f t = ⟨.ok a, t, []⟩ := by unfold ask; rw [h]; rfl
  rw [Act.bind_ok this]
  rfl

theorem quiet_bind {α β : Type} {x : Act Tree α} {a : α} (h : x t = ⟨.ok a, t, []⟩) (g : α → Act Tree β) : (x >>= g) t = g a t := by
  rw [Act.bind_ok h]
  rfl

theorem amount_ok (h : Matches E t n) (a : Address) : ∃ x, t.getAmount a = .ok x ∧ x.val = n.coins.get a.val := by
  refine ⟨t.summary.cur.amt a.val, h.coins.dec.balance a.val, h.coins.amt a.val⟩

theorem gas_ok (h : Matches E t n) (a : Address) : ∃ x, t.getGas a = .ok x ∧ x.val = n.gas.get a.val := by
  refine ⟨t.gas.cur.amt a.val, h.gas.dec.balance a.val, h.gas.amt a.val⟩

theorem search_some {prev d : Hash} {txs : List Hash} {pow : BytesN 32} (h : search E prev d txs = some pow) :
    Spec.enoughWork E prev d txs pow = true := by
  unfold search at h
  rw [Option.map_eq_some_iff] at h
  obtain ⟨k, hk, rfl⟩ := h
  have := List.find?_some hk
  rw [checkPow_spec, decide_eq_true_eq] at this
  exact Outcome.ok.inj this

theorem search_none {prev d : Hash} {txs : List Hash} (h : search E prev d txs = none) (k : Nat) (hk : k + 1 < U256.size) :
    Spec.enoughWork E prev d txs (nonce k) = false := by
  unfold search at h
  rw [Option.map_eq_none_iff, List.find?_eq_none] at h
  have := h k (List.mem_range.mpr (by omega))
  rw [checkPow_spec, decide_eq_true_eq] at this
  cases hx : Spec.enoughWork E prev d txs (nonce k) with
  | false => rfl
  | true => rw [hx] at this; exact absurd rfl this

end Example

/-- After a flush: whatever the process does next, another one finds this node. -/
def Lasting (E : Env) (n : Spec.Node) (t : Tree) : Prop :=
  ∃ t', t = (Op.flush.run E t').final ∧ Matches E t' n ∧ ∀ o, (n.chains o).isSome → Settled t' o

theorem Lasting.reopen (h : Lasting E n t) {d : Disk} (hd : Crash t d) :
    (openTree E d).out = .ok () ∧ Matches E (openTree E d).final n.restarted := by
  obtain ⟨t', rfl, h1, h2⟩ := h
  exact restart h1 h2 hd

theorem flush_call (h : Matches E t n) :
    Example.call E .flush t = ⟨.ok (), (Op.flush.run E t).final, (Op.flush.run E t).trace⟩ ∧
    Matches E (Op.flush.run E t).final n := by
  have h1 := (flush_op E t).1
  refine ⟨?_, (sim_flush h).2⟩
  unfold Example.call
  rw [h1]
  rfl

theorem size_big : (10 : Nat) ^ 50 + 10 < U256.size := by decide

namespace Example

theorem mineOnce_run (h : Matches E t n) (r : Ready E w T K M N n) (hw : w ≠ Spec.root) (hb : K + M < 10 ^ 50) (x : Hash)
    {c : UInt64} (hc : E.overflowChecks = true → T ≤ c) :
    ((∀ c', mineOnce E w [x] c' t = ⟨.ok false, t, []⟩) ∧ ∃ last, n.tip = some last ∧ ∀ k, k + 1 < U256.size →
      Spec.enoughWork E (Spec.digest E last) last.info.difficulty (if (K + 1) % 1000000 = 0 then [] else [x]) (nonce k) = false) ∨
    ∃ t' n' tr, mineOnce E w [x] c t = ⟨.ok true, t', tr⟩ ∧ Matches E t' n' ∧ Ready E w c (K + 1) M N n' ∧
      n'.chains = n.chains ∧ n'.txs = n.txs ∧ (∃ b, n'.blocks = n.blocks ++ [b] ∧
        (¬ (K + 1) % 1000000 = 0 → ∃ tb, b = .transaction tb ∧ tb.transactions = [x])) ∧
      ((∀ o, n.chains o = none) → Lasting E n' t') := by
  have hsz := size_big
  obtain ⟨b, ht, hlast, hread, hheight⟩ | ⟨ht, _⟩ := h.last
  · have hlen := r.length
    have hnext : b.info.height.add U256.one = .ok (U256.ofNat (K + 1)) := add_one_eq (by omega) (by omega)
    have hnv : (U256.ofNat (K + 1)).val = K + 1 := ofNat_val (by omega)
    have hdig : b.hash E = Spec.digest E b := rfl
    have he : BLOCKS_PER_EPOCH = 1000000 := rfl
    have hrun : ∀ c', mineOnce E w [x] c' t = finish E w b.info.difficulty (if (K + 1) % 1000000 = 0 then [] else [x]) c'
        (search E (Spec.digest E b) b.info.difficulty (if (K + 1) % 1000000 = 0 then [] else [x])) t := by
      intro c'
      unfold mineOnce
      rw [ask_bind hread]
      simp only [Outcome.ofOption_some, Act.lift_ok_bind, hnext, hnv, hdig, he]
    simp only [hrun]
    generalize htx : (if (K + 1) % 1000000 = 0 then [] else [x]) = txs
    have htn : txs = [] ↔ (K + 1) % 1000000 = 0 := by
      rw [← htx]
      by_cases hep : (K + 1) % 1000000 = 0 <;> simp [hep]
    cases hs : search E (Spec.digest E b) b.info.difficulty txs with
    | none => exact .inl ⟨fun _ => rfl, b, ht, search_none hs⟩
    | some pow =>
      right
      obtain ⟨n1, n2, n3, s1, s2, s3, r3, hch, htxs, _, _, _, _, _, bl, hbl, hcon⟩ := r.mined hw hb htn hc ht (search_some hs)
      have s1' : n.step E (.emitMain pow w txs c) = (.done, n1) := s1
      obtain ⟨c1, m1, k1⟩ := call_done h r.short (by omega) s1'
      obtain ⟨c2, m2, k2⟩ := call_done m1 k1 (by omega) s2
      simp only [finish]
      rw [Act.bind_ok c1, Act.bind_ok c2, fee_spec, Act.lift_ok_bind]
      have hfor : ∃ t3 tr3, Act.forEach txs (fun _ => call E (.addAmount w.val ⟨Spec.fee b.info.difficulty, fee_lt _⟩))
          ((Op.sendAmount ROOT_PUBLIC_ADDRESS.val w.val MAIN_CHAIN_PAYMENT).run E
            ((Op.emitMain pow w txs c).run E t).final).final = ⟨.ok (), t3, tr3⟩ ∧ Matches E t3 n3 := by
        by_cases hep : (K + 1) % 1000000 = 0
        · rw [if_pos hep] at s3 htx
          rw [← htx] at m2 ⊢
          exact ⟨_, _, rfl, by rw [s3]; exact m2⟩
        · rw [if_neg hep] at s3 htx
          obtain ⟨c3, m3, _⟩ := call_done m2 k2 (by omega) s3
          have : Act.forEach txs (fun _ => call E (.addAmount w.val ⟨Spec.fee b.info.difficulty, fee_lt _⟩)) =
              (call E (.addAmount w.val ⟨Spec.fee b.info.difficulty, fee_lt _⟩) >>= fun _ => (pure () : Act Tree Unit)) := by
            rw [← htx]; rfl
          rw [this, Act.bind_ok c3]
          exact ⟨_, _, rfl, m3⟩
      obtain ⟨t3, tr3, f1, f2⟩ := hfor
      rw [Act.bind_ok f1]
      obtain ⟨c4, m4⟩ := flush_call f2
      rw [Act.bind_ok c4]
      refine ⟨_, n3, _, rfl, m4, r3, hch, htxs, ⟨bl, hbl, fun hep => ?_⟩, fun hnone => ⟨t3, rfl, f2, fun o ho => ?_⟩⟩
      · rw [if_neg hep] at htx
        rw [htx]; exact hcon hep
      rw [hch, hnone o] at ho
      cases ho
  · obtain ⟨b, _, hb2, _⟩ := r.tip
    rw [ht] at hb2
    cases hb2

theorem lastBlock_of (h : Matches E t n) {c : Hash × List DerivativeBlock} (hcc : n.chains w = some c) :
    (t.handle w).getLastBlock = .ok c.2.getLast? := by
  obtain ⟨o1, o2, o3⟩ := h.opened w c hcc
  have hq := sim_ask h (.chainLast w)
  have e1 : BCT.ask E t (.chainLast w) = derivAnswer (t.handle w).getLastBlock := by
    simp only [BCT.ask, onOpen, o1, if_true]
  have e2 : n.answer E (.chainLast w) = .deriv c.2.getLast? := by
    show (match n.chains w with | some c => Spec.Answer.deriv c.2.getLast? | none => .nothing) = _
    rw [hcc]
  rw [e1, e2] at hq
  cases hg : (t.handle w).getLastBlock with
  | ok x => rw [hg] at hq; cases hq; rfl
  | err e => rw [hg] at hq; cases hq
  | panic e => rw [hg] at hq; cases hq
  | ub => rw [hg] at hq; cases hq

theorem follows_run (h : Matches E t n) (r : Ready E w T K M N n) {c : Hash × List DerivativeBlock} (hcc : n.chains w = some c) :
    ∃ p, baseOf E n c = some p ∧ follows E w t = ⟨.ok (p.1, p.2.1), t, []⟩ := by
  obtain ⟨o1, o2, o3⟩ := h.opened w c hcc
  have hlast := lastBlock_of h hcc
  obtain ⟨p, hp, hg, hts⟩ := r.base hcc
  refine ⟨p, hp, ?_⟩
  unfold follows
  rw [Act.get_bind, ask_bind hlast]
  unfold baseOf at hp
  cases hl : c.2.getLast? with
  | some d =>
    rw [hl] at hp
    cases hp
    rfl
  | none =>
    rw [hl] at hp
    simp only at hp ⊢
    have hwd := h.withDigest c.1
    cases hf : n.withDigest E c.1 with
    | none => rw [hf] at hp; cases hp
    | some y =>
      rw [hf] at hp hwd
      simp only at hwd
      have hr : Spec.readable y = true := by
        cases hr : Spec.readable y with
        | true => rfl
        | false => simp [hr] at hp
      have hfd : t.main.findByHash (t.handle w).genesisHash = .ok (some y) := by rw [o2]; exact hwd.1 hr
      rw [ask_bind hfd]
      simp only [Outcome.ofOption_some, Act.lift_ok_bind]
      simp [hr] at hp
      rw [← hp]
      rfl

theorem deriveRound_run (h : Matches E t n) (r : Ready E w T K M N n) (hb : K + M < 10 ^ 50)
    {c : Hash × List DerivativeBlock} (hcc : n.chains w = some c) {clock : UInt64} (hc : E.overflowChecks = true → T ≤ clock) :
    ((∀ c', deriveRound E w c' t = ⟨.ok false, t, []⟩) ∧ ∃ p, baseOf E n c = some p ∧ ∀ k, k + 1 < U256.size →
      Spec.enoughWork E p.1 p.2.1 [] (nonce k) = false) ∨
    ∃ t' n' tr c', deriveRound E w clock t = ⟨.ok true, t', tr⟩ ∧ Matches E t' n' ∧ Ready E w clock K (M + 1) N n' ∧
      n'.chains w = some c' ∧ Lasting E n' t' := by
  have hsz := size_big
  obtain ⟨_, hgas, _⟩ := gas_ok h w
  obtain ⟨p, hp, hpair⟩ := follows_run h r hcc
  have hrun : ∀ c', deriveRound E w c' t = finishChain E w c' (search E p.1 p.2.1 []) t := by
    intro c'
    unfold deriveRound
    rw [ask_bind hgas, quiet_bind hpair]
  simp only [hrun]
  cases hs : search E p.1 p.2.1 [] with
  | none => exact .inl ⟨fun _ => rfl, p, hp, search_none hs⟩
  | some pow =>
    right
    obtain ⟨n1, n2, s1, s2, r2, c', hc'⟩ := r.derived hb hc hcc hp (search_some hs)
    obtain ⟨c1, m1, k1⟩ := call_done h r.short (by omega) s1
    obtain ⟨c2, m2, k2⟩ := call_done m1 k1 (by omega) s2
    simp only [finishChain]
    rw [Act.bind_ok c1, Act.bind_ok c2]
    generalize ((Op.addGas w.val MAIN_CHAIN_PAYMENT).run E ((Op.emitDerivative pow w clock).run E t).final).final = t2 at m2 ⊢
    have m3 := (sim_derivFlush m2 hc').2
    have hset : Settled (Tree.onDeriv w DerivativeChain.flush t2).final w := by
      unfold Tree.onDeriv
      rw [Act.zoom_run]
      exact settled_put w _
    have c3 : flushChain w t2 =
        ⟨.ok (), (Tree.onDeriv w DerivativeChain.flush t2).final, (Tree.onDeriv w DerivativeChain.flush t2).trace⟩ := rfl
    rw [Act.bind_ok c3]
    obtain ⟨c4, m4⟩ := flush_call m3
    rw [Act.bind_ok c4]
    refine ⟨_, n2, _, c', rfl, m4, r2, hc', _, rfl, m3, fun o ho => ?_⟩
    by_cases hw : o = w
    · rw [hw]; exact hset
    · rw [(r2.chains o hw).1] at ho
      cases ho

/-! ## Loops -/

theorem forward_mono {T T' : UInt64} (h : T ≤ T') : ∀ {cs : List UInt64}, Forward T' cs → Forward T cs
  | [], _ => trivial
  | _ :: _, hf => ⟨UInt64.le_trans h hf.1, hf.2⟩

theorem rounds_stuck {round : UInt64 → Act Tree Bool} {t : Tree} (h : ∀ c, round c t = ⟨.ok false, t, []⟩) :
    ∀ cs : List UInt64, rounds round cs t = ⟨.ok 0, t, []⟩
  | [] => rfl
  | c :: cs => by
    show (round c >>= fun found => rounds round cs >>= fun k => pure (if found then k + 1 else k)) t = _
    rw [Act.bind_ok (h c), Act.bind_ok (rounds_stuck h cs)]
    rfl

theorem rounds_run {round : UInt64 → Act Tree Bool} {P : UInt64 → Nat → Tree → Prop} {Stuck : Tree → Prop} {bound : Nat}
    {ch : Bool} (hstuck : ∀ t, Stuck t → ∀ c, round c t = ⟨.ok false, t, []⟩)
    (hround : ∀ T i t c, P T i t → (ch = true → T ≤ c) → i < bound →
      Stuck t ∨ ∃ t' tr, round c t = ⟨.ok true, t', tr⟩ ∧ P c (i + 1) t') :
    ∀ (cs : List UInt64) (T : UInt64) (i : Nat) (t : Tree), P T i t → (ch = true → Forward T cs) → i + cs.length ≤ bound →
      ∃ k t' tr T', rounds round cs t = ⟨.ok k, t', tr⟩ ∧ k ≤ cs.length ∧ P T' (i + k) t' ∧
        (ch = true → T' ≤ cs.getLastD T) ∧ (k < cs.length → Stuck t') ∧ (k = 0 → t' = t)
  | [], T, i, t, hP, _, _ => ⟨0, t, [], T, rfl, Nat.le_refl _, hP, fun _ => UInt64.le_refl _, fun h => absurd h (by simp),
      fun _ => rfl⟩
  | c :: cs, T, i, t, hP, hf, hb => by
    rw [List.length_cons] at hb
    have hlast : (c :: cs).getLastD T = cs.getLastD c := by cases cs <;> rfl
    rw [hlast]
    rcases hround T i t c hP (fun ho => (hf ho).1) (by omega) with hst | ⟨t1, tr1, e, hP1⟩
    · refine ⟨0, t, [], T, rounds_stuck (hstuck t hst) _, Nat.zero_le _, hP, fun ho => ?_, fun _ => hst, fun _ => rfl⟩
      have hT : ∀ (cs : List UInt64) (T : UInt64), Forward T cs → T ≤ cs.getLastD T := by
        intro cs
        induction cs with
        | nil => intro T _; exact UInt64.le_refl _
        | cons x xs ih =>
          intro T hx
          have : (x :: xs).getLastD T = xs.getLastD x := by cases xs <;> rfl
          rw [this]
          exact UInt64.le_trans hx.1 (ih x hx.2)
      exact UInt64.le_trans (hf ho).1 (hT cs c (hf ho).2)
    · obtain ⟨k, t', tr, T', h1, h2, h3, h4, h5, h6⟩ := rounds_run hstuck hround cs c (i + 1) t1 hP1
        (fun ho => (hf ho).2) (by omega)
      have : rounds round (c :: cs) t = ⟨.ok (k + 1), t', tr1 ++ (tr ++ [])⟩ := by
        show (round c >>= fun found => rounds round cs >>= fun k => pure (if found then k + 1 else k)) t = _
        rw [Act.bind_ok e, Act.bind_ok h1]
        rfl
      refine ⟨k + 1, t', _, T', this, by rw [List.length_cons]; omega, by rw [← Nat.add_assoc, Nat.add_right_comm]; exact h3, h4,
        fun hk => h5 (by rw [List.length_cons] at hk; omega), fun hk => by omega⟩

end Example
end
/-! ### What the programs leave can be found again -/

namespace Example

/-- What keeps the databases recoverable. -/
abbrev Tidy {α : Type} (x : Act Tree α) : Prop := Act.Rel (fun s t => Sound s → Sound t) x

theorem tidy_closed : Act.Closed (fun {α} (x : Act Tree α) => Tidy x) := Act.rel_closed sound_preord

theorem tidy_call (E : Env) (op : Op) : Tidy (call E op) :=
  fun t => Op.sat sound_prims tidy_closed op op.adds_true t

theorem tidy_flushChain (E : Env) (w : Address) : Tidy (flushChain w) := fun t => (sound_prims (E := E)).derivFlush w t

theorem tidy_ask {α : Type} (f : Tree → Outcome α) : Tidy (ask f) := fun _ => ⟨fun h => h, fun _ h => by cases h⟩

theorem tidy_forEach {β : Type} (l : List β) {f : β → Act Tree Unit} (h : ∀ b, Tidy (f b)) : Tidy (Act.forEach l f) := by
  induction l with
  | nil => exact tidy_closed.pure _
  | cons b l ih => exact tidy_closed.bind (h b) fun _ => ih

theorem tidy_finish (E : Env) (w : Address) (d : Hash) (txs : List Hash) (c : UInt64) (o : Option (BytesN 32)) :
    Tidy (finish E w d txs c o) := by
  cases o with
  | none => exact tidy_closed.pure _
  | some pow =>
    exact tidy_closed.bind (tidy_call E _) fun _ => tidy_closed.bind (tidy_call E _) fun _ => tidy_closed.bind (tidy_closed.lift _)
      fun _ => tidy_closed.bind (tidy_forEach _ fun _ => tidy_call E _) fun _ => tidy_closed.bind (tidy_call E _) fun _ =>
      tidy_closed.pure _

theorem tidy_mineOnce (E : Env) (w : Address) (content : List Hash) (c : UInt64) : Tidy (mineOnce E w content c) :=
  tidy_closed.bind (tidy_ask _) fun _ => tidy_closed.bind (tidy_closed.lift _) fun _ => tidy_closed.bind (tidy_closed.lift _)
    fun _ => tidy_finish _ _ _ _ _ _

theorem tidy_follows (E : Env) (w : Address) : Tidy (follows E w) := by
  refine tidy_closed.bind tidy_closed.get fun _ => tidy_closed.bind (tidy_ask _) fun o => ?_
  cases o with
  | none => exact tidy_closed.bind (tidy_ask _) fun _ => tidy_closed.bind (tidy_closed.lift _) fun _ => tidy_closed.pure _
  | some b => exact tidy_closed.pure _

theorem tidy_finishChain (E : Env) (w : Address) (c : UInt64) (o : Option (BytesN 32)) : Tidy (finishChain E w c o) := by
  cases o with
  | none => exact tidy_closed.pure _
  | some pow =>
    exact tidy_closed.bind (tidy_call E _) fun _ => tidy_closed.bind (tidy_call E _) fun _ => tidy_closed.bind (tidy_flushChain E w)
      fun _ => tidy_closed.bind (tidy_call E _) fun _ => tidy_closed.pure _

theorem tidy_rounds {round : UInt64 → Act Tree Bool} (h : ∀ c, Tidy (round c)) (cs : List UInt64) : Tidy (rounds round cs) := by
  induction cs with
  | nil => exact tidy_closed.pure _
  | cons c cs ih => exact tidy_closed.bind (h c) fun _ => tidy_closed.bind ih fun _ => tidy_closed.pure _

theorem tidy_job (E : Env) (S : SigScheme) (w : Address) (secret : BytesN 32) (j : Job) : Tidy (j.run E S w secret) := by
  cases j with
  | mine cs =>
    exact tidy_rounds (fun c => tidy_closed.bind (tidy_ask _) fun _ => tidy_closed.bind (tidy_ask _) fun _ => tidy_mineOnce _ _ _ _) cs
  | derive cs =>
    exact tidy_closed.bind (tidy_call E _) fun _ => tidy_rounds (fun c => tidy_closed.bind (tidy_ask _) fun _ =>
      tidy_closed.bind (tidy_follows _ _) fun _ => tidy_finishChain _ _ _ _) cs
  | send now c =>
    exact tidy_closed.bind (tidy_closed.bind (tidy_ask _) fun _ => tidy_closed.bind (tidy_ask _) fun _ =>
      tidy_closed.bind (tidy_ask _) fun _ => tidy_closed.bind (tidy_closed.lift _) fun _ => tidy_closed.bind (tidy_call E _) fun _ =>
      tidy_closed.bind (tidy_ask _) fun _ => tidy_closed.bind (tidy_ask _) fun _ => tidy_closed.bind (tidy_ask _) fun _ =>
      tidy_mineOnce _ _ _ _) fun _ => tidy_closed.pure _

end Example

/-- A program can always end in the ordinary way. -/
theorem Job.close (E : Env) (S : SigScheme) (w : Address) (secret : BytesN 32) (j : Job) (d : Disk) :
    Crash (j.run E S w secret (openTree E d).final).final (j.run E S w secret (openTree E d).final).final.close :=
  ((Example.tidy_job E S w secret j _).1 ((new_sound (E := E) d.boot).1 (boot_sound d))).close

end BCT
