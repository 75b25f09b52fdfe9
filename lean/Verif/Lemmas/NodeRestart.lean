import Verif.Lemmas.NodePlay
import Verif.Props.Life
/-!
# Stopping and starting
-/

namespace BCT
open BCT.Props

section
variable {E : Env} {t : Tree} {n : Spec.Node}

/-- The files of the owner's chain hold all there is to it. -/
structure Settled (t : Tree) (o : Address) : Prop where
  config : (t.derivFiles (hexEncode o.val)).config = some (t.handle o).saved
  blocks : ∀ m ∈ (t.derivFiles (hexEncode o.val)).blocks.recov, m = (t.derivFiles (hexEncode o.val)).blocks.cur
  refs : ∀ m ∈ (t.derivFiles (hexEncode o.val)).heightReference.recov,
    m = (t.derivFiles (hexEncode o.val)).heightReference.cur

theorem settled_put (o : Address) (c : DerivativeChain) : Settled (Tree.putHandle o c.flushed t) o := by
  have hf : (Tree.putHandle o c.flushed t).derivFiles (hexEncode o.val) =
      ⟨c.chain.blocks.flush, c.chain.heightReference.flush, some c.saved⟩ := by
    unfold Tree.putHandle; simp [DerivativeChain.flushed]
  refine ⟨?_, ?_, ?_⟩
  · rw [Tree.handle_put_self, hf]; rfl
  · rw [hf]; exact fun m hm => Db.flush_recov hm
  · rw [hf]; exact fun m hm => Db.flush_recov hm

theorem Settled.put {o q : Address} (h : Settled t o) (hq : o ≠ q) (c : DerivativeChain) : Settled (Tree.putHandle q c t) o := by
  have h1 := (Tree.putHandle_mem_other c t hq).2
  have h2 := Tree.handle_put_other c t hq
  exact ⟨by rw [h1, h2]; exact h.config, by rw [h1]; exact h.blocks, by rw [h1]; exact h.refs⟩

theorem Settled.derivFlush {o q : Address} (h : Settled t o) (hq : o ≠ q) : Settled ((Op.derivFlush q).run E t).final o := by
  have e : (Op.derivFlush q).run E t = (Tree.getDerivativeChain E q >>= fun _ => Tree.onDeriv q DerivativeChain.flush) t := rfl
  have hd : ∀ t' : Tree, Settled t' o → Settled (Tree.onDeriv q DerivativeChain.flush t').final o := by
    intro t' h'
    unfold Tree.onDeriv
    rw [Act.zoom_run]
    exact h'.put hq _
  rw [e]
  rcases Tree.getDeriv_cases E q t with ⟨_, e⟩ | ⟨_, ⟨out, hout, e⟩ | ⟨b, c, _, _, e⟩⟩
  · rw [Act.bind_ok e]; exact hd t h
  · cases out with
    | ok a => exact absurd rfl (hout a)
    | err x => rw [Act.bind_err e]; exact h
    | panic x => rw [Act.bind_panic e]; exact h
    | ub => rw [Act.bind_ub e]; exact h
  · rw [Act.bind_ok e]; exact hd _ (h.put hq c)

/-- Flushing an owner's chain. -/
theorem settle_one (h : Matches E t n) {k : Nat} (hk : Short k n) (hm : k + 1 < U256.size) {os : List Address} {q : Address}
    (ho : ∀ o, (n.chains o).isSome → o ∈ q :: os ∨ Settled t o) (o : Address)
    (hs : ((n.step E (.derivFlush q)).2.chains o).isSome) : o ∈ os ∨ Settled ((Op.derivFlush q).run E t).final o := by
  have hsim := (sim_step h hk hm (.derivFlush q)).1
  by_cases hq : o = q
  · right
    subst hq
    have hok : ((Op.derivFlush o).run E t).out = .ok () := by
      have h1 := hsim.1
      have hd : (n.step E (.derivFlush o)).1 = .done := by
        simp only [Spec.Node.step, Spec.Node.withChain] at hs ⊢
        cases hc : n.openChain E o with
        | none =>
          rw [hc] at hs
          unfold Spec.Node.openChain at hc
          cases hc' : n.chains o with
          | none => simp only [hc'] at hs; cases hs
          | some c => rw [hc'] at hc; cases hc
        | some n' =>
          rw [hc] at hs
          simp only at hs ⊢
          cases hc' : n'.chains o with
          | none => simp only [hc'] at hs; cases hs
          | some c => rfl
      rw [hd] at h1
      cases hout : ((Op.derivFlush o).run E t).out with
      | ok a => rfl
      | err x => rw [hout] at h1; cases h1
      | panic x => rw [hout] at h1; cases h1
      | ub => rw [hout] at h1; cases h1
    obtain ⟨s1, _, _, hf⟩ := derivFlush_run hok
    rw [hf]
    exact settled_put o _
  · have hsame : (n.step E (.derivFlush q)).2.chains o = n.chains o := by
      simp only [Spec.Node.step, Spec.Node.withChain]
      cases hc : n.openChain E q with
      | none => rfl
      | some n' =>
        have : n'.chains o = n.chains o := by
          unfold Spec.Node.openChain at hc
          cases hc' : n.chains q with
          | some c => rw [hc'] at hc; cases hc; rfl
          | none =>
            rw [hc'] at hc
            cases ht : n.tip with
            | none => rw [ht] at hc; cases hc
            | some b => rw [ht] at hc; cases hc; exact if_neg hq
        simp only
        cases n'.chains q <;> exact this
    rw [hsame] at hs
    rcases ho o hs with hmem | hset
    · exact .inl ((List.mem_cons.mp hmem).resolve_left hq)
    · exact .inr (hset.derivFlush hq)

theorem settle : ∀ (os : List Address) {t : Tree} {n : Spec.Node} {k : Nat}, Matches E t n → Short k n →
    k + os.length < U256.size → (∀ o, (n.chains o).isSome → o ∈ os ∨ Settled t o) →
    ∀ o, ((n.play E (os.map Op.derivFlush)).2.chains o).isSome → Settled (playTree E t (os.map Op.derivFlush)).2 o
  | [], t, n, k, _, _, _, ho => fun o hs => (ho o hs).resolve_left (by simp)
  | q :: os, t, n, k, h, hk, hm, ho => by
    rw [List.length_cons] at hm
    exact settle os (sim_step h hk (by omega) (.derivFlush q)).1.2 (short_step hk _) (by omega)
      (settle_one h hk (by omega) ho)

theorem play_append (E : Env) (op : Op) : ∀ (ops : List Op) (n : Spec.Node),
    (n.play E (ops ++ [op])).2 = ((n.play E ops).2.step E op).2
  | [], _ => rfl
  | _ :: ops, _ => play_append E op ops _

theorem playTree_append (E : Env) (op : Op) : ∀ (ops : List Op) (t : Tree),
    (playTree E t (ops ++ [op])).2 = (op.run E (playTree E t ops).2).final
  | [], _ => rfl
  | _ :: ops, _ => playTree_append E op ops _

/-- Files of a chain that is not open, read by another process. -/
theorem Dormant.again {f : DerivFiles} {c : Option (Hash × List DerivativeBlock)} {y : Spec.Found DerivativeBlock}
    (h : Dormant E f c y) {x : DerivDisk}
    (h1 : x.blocks ∈ f.blocks.recov) (h2 : x.heightReference ∈ f.heightReference.recov) (h3 : x.config = f.config) :
    Dormant E ⟨Db.open' x.blocks, Db.open' x.heightReference, x.config⟩ c y := by
  refine ⟨fun _ hm => List.mem_singleton.mp hm, fun _ hm => List.mem_singleton.mp hm, fun p => ?_⟩
  obtain ⟨ch, hn, hg, hi⟩ := h.opens p
  have e1 := h.blocks _ h1
  have e2 := h.refs _ h2
  unfold DerivativeChain.new at hn ⊢
  simp only [h3]
  cases hr : DerivativeChain.readConfig p f.config with
  | ok r =>
    rw [hr] at hn
    simp only [Outcome.ok_bind, Outcome.ok.injEq] at hn ⊢
    refine ⟨_, rfl, ?_, ?_⟩
    · rw [← hg, ← hn]
    · refine hi.same ?_
      rw [← hn]
      exact ⟨e1, e2, rfl⟩
  | err x => rw [hr] at hn; cases hn
  | panic x => rw [hr] at hn; cases hn
  | ub => rw [hr] at hn; cases hn

/-- The process ends after the flush, in whatever way, and another one begins. -/
theorem restart (h : Matches E t n) (hs : ∀ o, (n.chains o).isSome → Settled t o) {d : Disk}
    (hd : Crash (Op.flush.run E t).final d) :
    (openTree E d).out = .ok () ∧ Matches E (openTree E d).final n.restarted := by
  rw [(flush_op E t).2] at hd
  have e1 := Db.flush_recov hd.blocks
  have e2 := Db.flush_recov hd.heightReference
  have e3 := Db.flush_recov hd.transactions
  have e4 := Db.flush_recov hd.summary
  have e5 := Db.flush_recov hd.oldSummary
  have e6 := Db.flush_recov hd.gas
  have e7 := Db.flush_recov hd.oldGas
  have hc : d.config = some t.main.chain.saved := hd.config
  have hrc : MainChain.readConfig d.config = .ok (t.main.chain.height, t.main.chain.difficulty) := by
    rw [hc]; exact MainChain.readConfig_written _ _
  have hh := h.height
  obtain ⟨bs, hbs⟩ := h.first
  have hpos : t.main.chain.height.val ≠ 0 := by rw [hh, hbs]; simp
  obtain ⟨ho, hf⟩ := openTree_pos (E := E) hrc hpos
  refine ⟨ho, ?_⟩
  rw [hf]
  refine ⟨h.first, h.main.same ⟨e1, e2, rfl⟩, fun q => ?_, ?_, ?_, ?_, ?_, fun o _ => ⟨rfl, ?_⟩, fun o c hx => by cases hx⟩
  · have := h.txs q
    unfold Db.get at this
    rw [← show d.transactions = t.main.transactions.cur from e3] at this
    exact this
  · have hcoins := h.coins
    rw [← show d.summary = t.summary.cur from e4] at hcoins
    unfold Spec.Node.restarted seedSummary
    simp only
    by_cases h1 : n.blocks.length = 1
    · have : (t.main.chain.height = U256.one) := U256.ext (by rw [hh, h1]; rfl)
      rw [if_pos h1, if_pos this]
      exact hcoins.insert ROOT_PUBLIC_ADDRESS.val COINS_PER_CYCLE
    · have : ¬ (t.main.chain.height = U256.one) := fun e => h1 (by rw [← hh, e]; rfl)
      rw [if_neg h1, if_neg this]
      exact hcoins
  · have := h.gas; rw [← show d.gas = t.gas.cur from e6] at this; exact this
  · have := h.oldCoins; rw [← show d.oldSummary = t.oldSummary.cur from e5] at this; exact this
  · have := h.oldGas; rw [← show d.oldGas = t.oldGas.cur from e7] at this; exact this
  · obtain ⟨d1, d2, d3⟩ := hd.deriv (hexEncode o.val)
    have hdf : t.flushed.derivFiles = t.derivFiles := rfl
    rw [hdf] at d1 d2 d3
    show Dormant E ⟨Db.open' (d.deriv (hexEncode o.val)).blocks, Db.open' (d.deriv (hexEncode o.val)).heightReference,
      (d.deriv (hexEncode o.val)).config⟩ (match n.chains o with | some c => some c | none => n.saved o) .nothing
    cases hc : n.chains o with
    | none => exact (h.closed o hc).2.again d1 d2 d3
    | some c =>
      have hset := hs o (by rw [hc]; rfl)
      obtain ⟨_, hg, hi⟩ := h.opened o c hc
      refine ⟨fun _ hm => List.mem_singleton.mp hm, fun _ hm => List.mem_singleton.mp hm, fun p => ?_⟩
      unfold DerivativeChain.new
      rw [d3, hset.config]
      have hw := DerivativeChain.readConfig_written p (t.handle o).chain.height (t.handle o).chain.difficulty
        (t.handle o).genesisHash
      unfold DerivativeChain.saved
      simp only [hw, Outcome.ok_bind]
      refine ⟨_, rfl, hg, hi.same ⟨?_, ?_, rfl⟩⟩
      · exact hset.blocks _ d1
      · exact hset.refs _ d2

theorem short_restarted {k : Nat} (h : Short k n) : Short k n.restarted := by
  refine ⟨h.1, fun o c ho => ?_⟩
  rcases ho with ho | ho
  · cases ho
  · simp only [Spec.Node.restarted] at ho
    cases hc : n.chains o with
    | none => rw [hc] at ho; exact h.2 o c (.inr ho)
    | some c' => rw [hc] at ho; cases ho; exact h.2 o c (.inl hc)

/-- What can happen to a node: the replies to calls and starts, and the node after. The process may end in any way
once the flushes are done. -/
inductive Lives (E : Env) : Tree → List Spec.Event → List Spec.Reply → Tree → Prop where
  | nil (t : Tree) : Lives E t [] [] t
  | call {t t' : Tree} {op : Op} {evs : List Spec.Event} {rs : List Spec.Reply} :
      Lives E (op.run E t).final evs rs t' → Lives E t (.call op :: evs) (replyOf (op.run E t).out :: rs) t'
  | stop {t t' : Tree} {os : List Address} {d : Disk} {evs : List Spec.Event} {rs : List Spec.Reply} :
      Crash (playTree E t (Spec.flushes os)).2 d → Lives E (openTree E d).final evs rs t' →
      Lives E t (.stop os :: evs) ((playTree E t (Spec.flushes os)).1 ++ replyOf (openTree E d).out :: rs) t'

theorem sim_live {t t' : Tree} {evs : List Spec.Event} {rs : List Spec.Reply} (hl : Lives E t evs rs t') :
    ∀ {n : Spec.Node} {k : Nat}, Matches E t n → Short k n → k + Spec.calls evs < U256.size → n.Tidy E evs →
    rs = (n.live E evs).1 ∧ Matches E t' (n.live E evs).2 ∧ Short (k + Spec.calls evs) (n.live E evs).2 := by
  induction hl with
  | nil t => intro n k h hk _ _; exact ⟨rfl, h, hk⟩
  | @call t t' op evs rs _ ih =>
    intro n k h hk hm hT
    simp only [Spec.calls] at hm
    obtain ⟨hs, _⟩ := sim_step h hk (by omega) op
    obtain ⟨i1, i2, i3⟩ := ih hs.2 (short_step (E := E) hk op) (by omega) hT
    refine ⟨?_, i2, ?_⟩
    · show _ :: _ = (n.step E op).1 :: _
      rw [hs.1, i1]
    · have e : k + Spec.calls (.call op :: evs) = k + 1 + Spec.calls evs := by simp only [Spec.calls]; omega
      rw [e]; exact i3
  | @stop t t' os d evs rs hd _ ih =>
    intro n k h hk hm hT
    simp only [Spec.calls] at hm
    have hlen : (Spec.flushes os).length = os.length + 1 := by simp [Spec.flushes]
    have hp := sim_play (E := E) (Spec.flushes os) h hk (by omega)
    have hp' := sim_play (E := E) (os.map Op.derivFlush) h hk (by rw [List.length_map]; omega)
    have hset := settle os h hk (by omega) fun o ho => .inl (hT.1 o ho)
    have hd' := hd
    unfold Spec.flushes at hd'
    rw [playTree_append] at hd'
    have hn : (n.play E (Spec.flushes os)).2 = (n.play E (os.map Op.derivFlush)).2 := by
      unfold Spec.flushes; rw [play_append]; rfl
    obtain ⟨r1, r2⟩ := restart hp'.2.1 hset hd'
    rw [← hn] at r2
    obtain ⟨i1, i2, i3⟩ := ih r2 (short_restarted hp.2.2) (by rw [hlen]; omega) hT.2
    refine ⟨?_, i2, ?_⟩
    · show _ ++ _ :: _ = (n.play E (Spec.flushes os)).1 ++ .done :: _
      rw [hp.1, i1, r1]; rfl
    · have e : k + Spec.calls (.stop os :: evs) = k + (Spec.flushes os).length + Spec.calls evs := by
        simp only [Spec.calls, hlen]; omega
      rw [e]; exact i3

end
end BCT
