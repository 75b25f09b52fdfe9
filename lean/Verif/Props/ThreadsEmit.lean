import Verif.Props.ThreadsSend
import Verif.Props.Emit
/-!
# C75: `emmit_new_main_block` while main chain handles are in use (blockchaintree.rs)
-/

namespace BCT

section
variable {ι σ α β γ : Type}

/-- What one thread does to a part `v` of the shared state that no other thread changes: started with `m`, it ends
with an outcome and a value as `Q` says. -/
def Prog.Tracks (v : σ → γ) (Q : Outcome α → γ → Prop) : Prog σ α → γ → Prop
  | .done o, m => Q o m
  | .step next rest, m => ∀ s s', v s = m → next s = some s' → Prog.Tracks v Q (rest s) (v s')

/-- What has to hold after the first part for the whole to be right. -/
def Outcome.Then (f : α → γ → Prop) (Q : Outcome β → γ → Prop) (m : γ) : Outcome α → Prop
  | .ok a => f a m
  | .err e => Q (.err e) m
  | .panic p => Q (.panic p) m
  | .ub => Q .ub m

theorem Prog.Tracks.bind {v : σ → γ} {Q : Outcome β → γ → Prop} {p : Prog σ α} {f : α → Prog σ β} {m : γ}
    (h : Prog.Tracks v (fun o m' => o.Then (fun a m' => Prog.Tracks v Q (f a) m') Q m') p m) :
    Prog.Tracks v Q (p >>= f) m := by
  induction p generalizing m with
  | done o => cases o <;> exact h
  | step next rest ih => exact fun s s' hs hn => ih s (h s s' hs hn)

theorem Prog.Tracks.mono {v : σ → γ} {Q Q' : Outcome α → γ → Prop} (hQ : ∀ o m, Q o m → Q' o m) {p : Prog σ α} {m : γ}
    (h : Prog.Tracks v Q p m) : Prog.Tracks v Q' p m := by
  induction p generalizing m with
  | done o => exact hQ _ _ h
  | step next rest ih => exact fun s s' hs hn => ih s (h s s' hs hn)

/-- All outcomes the program can end with. -/
def Prog.Ends (D : Outcome α → Prop) : Prog σ α → Prop
  | .done o => D o
  | .step _ rest => ∀ s, Prog.Ends D (rest s)

theorem Prog.Tracks.same {v : σ → γ} {p : Prog σ α} (hp : p.Guar (fun s s' => v s' = v s)) {D : Outcome α → Prop}
    (hd : p.Ends D) (m : γ) : Prog.Tracks v (fun o m' => m' = m ∧ D o) p m := by
  induction p with
  | done o => exact ⟨rfl, hd⟩
  | step next rest ih =>
    intro s s' hs hn
    obtain ⟨h1, h2⟩ := hp s s' hn
    rw [h1, hs]
    exact ih s h2 (hd s)

theorem Exec.tracks [DecidableEq ι] {start c : Config ι σ α} {log : List (Event ι σ)} (h : Exec start log c) (i : ι)
    {v : σ → γ} {Q : Outcome α → γ → Prop} (hi : (start.threads i).Tracks v Q (v start.shared))
    (ho : ∀ j, j ≠ i → (start.threads j).Guar (fun s s' => v s' = v s)) :
    (c.threads i).Tracks v Q (v c.shared) := by
  have hg : ∀ {c : Config ι σ α} {log : List (Event ι σ)}, Exec start log c →
      ∀ j, j ≠ i → (c.threads j).Guar (fun s s' => v s' = v s) := by
    intro c log h j hj
    have := (h.guar (R := fun j s s' => j ≠ i → v s' = v s) fun j => by
      by_cases hj : j = i
      · have : ∀ p : Prog σ α, p.Guar (fun s s' => j ≠ i → v s' = v s) := by
          intro p
          induction p with
          | done o => trivial
          | step next rest ih => exact fun s s' _ => ⟨fun h => absurd hj h, ih s⟩
        exact this _
      · exact (ho j hj).mono fun s s' h _ => h).2 j
    exact this.mono fun s s' h => h hj
  induction h with
  | refl => exact hi
  | @step log c j next rest s' hprev hj hn ih =>
    by_cases e : j = i
    · subst e
      simp only [Function.update_self]
      rw [hj] at ih
      exact ih _ _ rfl hn
    · simp only [Function.update_of_ne (Ne.symm e)]
      have := hg hprev j e
      rw [hj] at this
      rw [(this _ _ hn).1]
      exact ih

end

namespace Props
open BCT

/-- The four databases of balances. -/
def money (n : Node) : KV × KV × KV × KV :=
  (n.data.summary.cur, n.data.gas.cur, n.data.oldSummary.cur, n.data.oldGas.cur)

theorem money_main : Node.MainStep (fun n n' => money n' = money n) := ⟨fun _ => rfl, fun _ _ => rfl, fun _ _ => rfl⟩

/-- Not the error of a block that came too late. -/
def NotLate {α : Type} (o : Outcome α) : Prop := o ≠ .err .chainAddingBlock

theorem getLastBlock_notLate : Prog.Ends NotLate Node.getLastBlock := by
  intro s
  change Prog.Ends NotLate ((Prog.lift (s.data.main.chain.height.sub U256.one) >>= Node.findRawByHeight) >>=
    fun dump => Prog.lift (MainChain.decode dump))
  cases h : s.data.main.chain.height.sub U256.one with
  | ok i =>
    intro s'
    change Prog.Ends NotLate ((if _ then _ else _ : Prog Node (Option Bytes)) >>= _)
    have key : ∀ d, NotLate (MainChain.decode d) := by
      intro d
      cases d with
      | none => simp [MainChain.decode, NotLate]
      | some d =>
        change ((deserializeMainChainBlock d).mapErr .chainFindByHeight >>= fun b => .ok (some b)) ≠ _
        generalize deserializeMainChainBlock d = x
        cases x <;> simp [Outcome.mapErr]
    split
    · exact key none
    · intro s''; exact key _
  | err e =>
    unfold U256.sub at h; split at h <;> cases h
  | panic e => simp [Prog.lift, Prog.Ends, bind, Prog.bind, NotLate]
  | ub => simp [Prog.lift, Prog.Ends, bind, Prog.bind, NotLate]

theorem recalculateDifficulty_notLate (E : Env) (a b : UInt64) (d : Hash) : NotLate (recalculateDifficulty E a b d) := by
  unfold recalculateDifficulty NotLate
  have hm : ∀ (h : Hash) i f, modifyUnchecked h i f ≠ .err .chainAddingBlock := by
    intro h i f; unfold modifyUnchecked; split <;> simp
  cases h : u64Sub E b a with
  | ok v =>
    simp only [Outcome.ok_bind]
    repeat' split
    all_goals first | exact hm _ _ _ | simp
  | err e => unfold u64Sub at h; split at h <;> cases h
  | panic e => simp
  | ub => simp

/-- The error of a block that came too late is the only one. -/
def OnlyLate (o : Outcome Unit) : Prop := ∀ e, o = .err e → e = .chainAddingBlock

theorem addBlock_ends (E : Env) (b : Block) : Prog.Ends OnlyLate (Node.addBlock E b) := by
  intro _ s
  change Prog.Ends OnlyLate (if _ then _ else _ : Prog Node Unit)
  split
  · intro _
    rintro e ⟨⟩; rfl
  · intro _ _
    change Prog.Ends OnlyLate (match s.data.main.chain.height.add U256.one with
        | .ok h' => do
          Node.write (Node.setChain fun s => { s with height := h' })
          Node.unlock
        | o => do
          Node.unlock
          let _ ← .lift o
          pure () : Prog Node Unit)
    cases h : s.data.main.chain.height.add U256.one with
    | ok h' => intro _ _ e he; cases he
    | err e => unfold U256.add at h; split at h <;> cases h
    | panic e => intro _ e he; cases he
    | ub => intro _ e he; cases he

/-- The balances after the end of an epoch. -/
def nextEpoch (m : KV × KV × KV × KV) : KV × KV × KV × KV :=
  (m.1.insert ROOT_PUBLIC_ADDRESS.val (Ledger.encode COINS_PER_CYCLE), m.2.1, m.1, m.2.1)

theorem summarize_tracks (E : Env) (m : KV × KV × KV × KV) :
    Prog.Tracks money (fun o m' => m' = m ∧ ∃ r, o = .ok r) (Node.read (fun t => t.summarize E)) m := by
  intro s s' hs hn
  cases hn
  exact ⟨hs, _, summarize_eq E s.data⟩

theorem rotate_tracks (m : KV × KV × KV × KV) :
    Prog.Tracks money (fun o m' => m' = (m.1, m.2.1, m.1, m.2.1) ∧ o = .ok ()) Node.rotateDbs m := by
  unfold Node.rotateDbs
  refine .bind ((Prog.Tracks.same (D := fun o => o = .ok ()) (Node.guar_flush money_main (fun _ => rfl) (fun _ => rfl)
    (fun _ => rfl) (fun _ => rfl)) ?_ m).mono ?_)
  · exact fun _ _ _ _ _ _ _ _ _ _ _ _ => rfl
  rintro o m' ⟨rfl, rfl⟩
  intro s1 _ h1 e1
  cases e1
  intro s2 _ h2 e2
  cases e2
  intro s3 _ h3 e3
  cases e3
  intro s4 _ h4 e4
  cases e4
  simp only [money, Prod.mk.injEq] at h1 h2 h3 h4
  simp only [money]
  refine ⟨?_, rfl⟩
  obtain ⟨a1, a2, a3, a4⟩ := h4
  obtain ⟨b1, b2, b3, b4⟩ := h3
  obtain ⟨c1, c2, c3, c4⟩ := h2
  simp only [Db.open'] at *
  rw [a1, b1, c1, a2, b2, c2, a3, b1, c1, ← h1]

theorem setRoot_tracks (m : KV × KV × KV × KV) :
    Prog.Tracks money (fun o m' => m' = (m.1.insert ROOT_PUBLIC_ADDRESS.val (Ledger.encode COINS_PER_CYCLE), m.2) ∧ o = .ok ())
      (Node.onTree (Tree.setAmount ROOT_PUBLIC_ADDRESS.val COINS_PER_CYCLE)) m := by
  intro s _ hs hn
  cases hn
  subst hs
  exact ⟨rfl, rfl⟩

/-- What `emmit_new_main_block` does to the balances if other threads do not touch them. -/
theorem emit_tracks (E : Env) (pow : BytesN 32) (founder : Address) (txs : List Hash) (ts : UInt64)
    (m : KV × KV × KV × KV) :
    Prog.Tracks money (fun o m' => (m' = m ∧ (txs = [] → NotLate o ∧ ∀ b, o ≠ .ok b)) ∨ (m' = nextEpoch m ∧ txs = [] ∧ ∀ e, o = .err e → e = .chainAddingBlock))
      (Node.emitMain E pow founder txs ts) m := by
  unfold Node.emitMain
  refine .bind ((Prog.Tracks.same (Node.guar_getLastBlock fun _ => rfl) getLastBlock_notLate m).mono ?_)
  rintro o m' ⟨rfl, hd⟩
  cases o with
  | err e => exact .inl ⟨rfl, fun _ => ⟨by simpa [NotLate] using hd, by simp⟩⟩
  | panic e => exact .inl ⟨rfl, fun _ => ⟨by simp [NotLate], by simp⟩⟩
  | ub => exact .inl ⟨rfl, fun _ => ⟨by simp [NotLate], by simp⟩⟩
  | ok last =>
    cases last with
    | none => exact .inl ⟨rfl, fun _ => ⟨by simp [NotLate], by simp⟩⟩
    | some last =>
      have hnl : ∀ {e : Err}, e ≠ .chainAddingBlock → (m' = m' ∧ (txs = [] → NotLate (α := Block) (.err e) ∧
          ∀ b, (.err e : Outcome Block) ≠ .ok b)) := fun h => ⟨rfl, fun _ => ⟨by simpa [NotLate] using h, by simp⟩⟩
      change Prog.Tracks money _ (Prog.lift (checkPow E (last.hash E) last.info.difficulty txs pow.val) >>= _) _
      obtain ⟨g, hg⟩ : ∃ g, checkPow E (last.hash E) last.info.difficulty txs pow.val = .ok g := by
        unfold checkPow
        rw [merkleRoot_eq]
        exact ⟨_, rfl⟩
      rw [hg]
      change Prog.Tracks money _ (if _ then _ else _) _
      split
      · exact .inl (hnl (by simp))
      · have hd := recalculateDifficulty_notLate E last.info.timestamp ts last.info.difficulty
        change Prog.Tracks money _ (Prog.lift (recalculateDifficulty E last.info.timestamp ts last.info.difficulty) >>= _) _
        cases hx : recalculateDifficulty E last.info.timestamp ts last.info.difficulty with
        | err e => exact .inl (hnl fun h => hd (by rw [hx, h]))
        | panic e => exact .inl ⟨rfl, fun _ => ⟨by simp [NotLate], by simp⟩⟩
        | ub => exact .inl ⟨rfl, fun _ => ⟨by simp [NotLate], by simp⟩⟩
        | ok d =>
          obtain ⟨fee, hfee, _⟩ := C26_fee d
          change Prog.Tracks money _ (Prog.lift (recalculateFee d) >>= _) _
          rw [hfee]
          change Prog.Tracks money _ (Prog.lift (last.info.height.add U256.one) >>= _) _
          cases hh : last.info.height.add U256.one with
          | err e => unfold U256.add at hh; split at hh <;> cases hh
          | panic e => exact .inl ⟨rfl, fun _ => ⟨by simp [NotLate], by simp⟩⟩
          | ub => exact .inl ⟨rfl, fun _ => ⟨by simp [NotLate], by simp⟩⟩
          | ok height =>
            change Prog.Tracks money _ ((if _ then _ else _) >>= _) _
            refine .bind ?_
            split
            · split
              · exact .inl (hnl (by simp))
              · rename_i he
                have he : txs = [] := by simpa using he
                refine .bind (Prog.Tracks.mono ?_ (summarize_tracks E m'))
                rintro o _ ⟨rfl, root, rfl⟩
                refine .bind (Prog.Tracks.mono ?_ (rotate_tracks _))
                rintro o _ ⟨rfl, rfl⟩
                refine .bind (Prog.Tracks.mono ?_ (setRoot_tracks _))
                rintro o _ ⟨rfl, rfl⟩
                refine .bind ((Prog.Tracks.same (Node.guar_addBlock money_main E _) (addBlock_ends E _) _).mono ?_)
                rintro o m'' ⟨rfl, hd⟩
                cases o <;> exact .inr ⟨rfl, he, fun e h => by cases h <;> exact hd _ rfl⟩
            · split
              · exact .inl (hnl (by simp))
              · rename_i he
                have he : txs ≠ [] := by simpa using he
                rw [merkleRoot_eq]
                refine .bind ?_
                refine .bind ((Prog.Tracks.same (Node.guar_addBlock money_main E _) (addBlock_ends E _) _).mono ?_)
                rintro o m'' ⟨rfl, _⟩
                cases o <;> exact .inl ⟨rfl, fun h => absurd h he⟩

/-- `emmit_new_main_block` in one thread, calls on main chain handles in others. -/
def emitThreads {ι : Type} (E : Env) (pow : BytesN 32) (founder : Address) (txs : List Hash) (ts : UInt64)
    (call : ι → Node.HandleCall) : Option ι → Prog Node Unit
  | none => do
    let _ ← Node.emitMain E pow founder txs ts
    pure ()
  | some j => (call j).prog E

/-- Coins, gas and the snapshots of both are the same. -/
def SameMoney (s t : Tree) : Prop := ∀ k, t.summary.get k = s.summary.get k ∧ t.gas.get k = s.gas.get k ∧
  t.oldSummary.get k = s.oldSummary.get k ∧ t.oldGas.get k = s.oldGas.get k

/-- An epoch has ended: the snapshots hold what was current, and the root account the emission of the next cycle. -/
def EpochEnded (s t : Tree) : Prop := (∀ k, t.oldSummary.get k = s.summary.get k ∧ t.oldGas.get k = s.gas.get k ∧
    t.gas.get k = s.gas.get k ∧ (k ≠ ROOT_PUBLIC_ADDRESS.val → t.summary.get k = s.summary.get k)) ∧
  ∃ a, t.getAmount ROOT_PUBLIC_ADDRESS = .ok a ∧ a.val = 50010000000000000000000000

/-- C75 at full strength. -/
def C75_full : Prop := ∀ (ι : Type) [DecidableEq ι] (E : Env) (s : Tree) (pow : BytesN 32) (founder : Address)
  (txs : List Hash) (ts : UInt64) (call : ι → Node.HandleCall) (log : List (Event (Option ι) Node))
  (c : Config (Option ι) Node Unit), Run E s → Exec ⟨⟨s, false⟩, emitThreads E pow founder txs ts call⟩ log c →
  c.threads none = .done (.err .chainAddingBlock) → SameMoney s c.shared.data

theorem get_of_cur {d d' : Db} (h : d'.cur = d.cur) (k : Bytes) : d'.get k = d.get k := congrArg (fun m => KV.get m k) h

theorem epochEnded_of {s t : Tree} (h : money ⟨t, false⟩ = nextEpoch (money ⟨s, false⟩)) : EpochEnded s t := by
  simp only [money, nextEpoch, Prod.mk.injEq] at h
  obtain ⟨h1, h2, h3, h4⟩ := h
  refine ⟨fun k => ⟨get_of_cur h3 k, get_of_cur h4 k, get_of_cur h2 k, fun hk => ?_⟩, COINS_PER_CYCLE, ?_, rfl⟩
  · show KV.get t.summary.cur k = _
    rw [h1, KV.get_insert, if_neg (Ne.symm hk)]; rfl
  · show Ledger.balance (KV.get t.summary.cur ROOT_PUBLIC_ADDRESS.val) = _
    rw [h1, KV.get_insert, if_pos rfl]
    decide +kernel

/-- C75, what holds, under every schedule, whatever other threads do with main chain handles.
A call with transactions never changes coins, gas or snapshots, and neither does a call without that fails other than
because another handle extended the chain. A call without transactions that succeeds or that fails because another
handle extended the chain has ended the epoch.
Missing: the last case (`C75_refuted`). -/
theorem C75_failed_emit_partial {ι : Type} [DecidableEq ι] (E : Env) (s : Tree) (pow : BytesN 32) (founder : Address)
    (txs : List Hash) (ts : UInt64) (call : ι → Node.HandleCall) (log : List (Event (Option ι) Node))
    (c : Config (Option ι) Node Unit) (h : Exec ⟨⟨s, false⟩, emitThreads E pow founder txs ts call⟩ log c)
    (o : Outcome Unit) (ho : c.threads none = .done o) :
    (txs ≠ [] → SameMoney s c.shared.data) ∧
    (∀ e, o = .err e → e ≠ .chainAddingBlock → SameMoney s c.shared.data) ∧
    (txs = [] → (o = .ok () ∨ o = .err .chainAddingBlock) → EpochEnded s c.shared.data) := by
  have ht : ((emitThreads E pow founder txs ts call) none).Tracks money (fun o m' =>
      (m' = money ⟨s, false⟩ ∧ (txs = [] → NotLate o ∧ o ≠ .ok ())) ∨
      (m' = nextEpoch (money ⟨s, false⟩) ∧ txs = [] ∧ ∀ e, o = .err e → e = .chainAddingBlock)) (money ⟨s, false⟩) := by
    refine .bind ((emit_tracks E pow founder txs ts _).mono ?_)
    rintro o m' (⟨h1, h2⟩ | ⟨h1, h2, h3⟩)
    · cases o with
      | ok b => exact .inl ⟨h1, fun h => absurd rfl ((h2 h).2 b)⟩
      | err e => exact .inl ⟨h1, fun h => ⟨by simpa [NotLate] using (h2 h).1, by simp⟩⟩
      | panic e => exact .inl ⟨h1, fun h => ⟨by simp [NotLate], by simp⟩⟩
      | ub => exact .inl ⟨h1, fun h => ⟨by simp [NotLate], by simp⟩⟩
    · cases o with
      | ok b => exact .inr ⟨h1, h2, fun e he => by cases he⟩
      | err e => exact .inr ⟨h1, h2, fun e he => by cases he; exact h3 _ rfl⟩
      | panic e => exact .inr ⟨h1, h2, fun e he => by cases he⟩
      | ub => exact .inr ⟨h1, h2, fun e he => by cases he⟩
  have key := h.tracks none ht fun j hj => by
    cases j with
    | none => exact absurd rfl hj
    | some j => exact Node.guar_handle money_main E (call j)
  rw [ho] at key
  have same : money c.shared = money ⟨s, false⟩ → SameMoney s c.shared.data := by
    intro h k
    simp only [money, Prod.mk.injEq] at h
    exact ⟨get_of_cur h.1 k, get_of_cur h.2.1 k, get_of_cur h.2.2.1 k, get_of_cur h.2.2.2 k⟩
  rcases key with ⟨h1, h2⟩ | ⟨h1, h2, h3⟩
  · refine ⟨fun _ => same h1, fun _ _ _ => same h1, fun ht hk => ?_⟩
    rcases hk with hk | hk
    · exact absurd hk (h2 ht).2
    · exact absurd hk (h2 ht).1
  · refine ⟨fun h => absurd h2 h, fun e he hne => absurd (h3 e he) hne, fun _ _ => epochEnded_of h1⟩

/-- `emmit_new_main_block` up to the point where it adds its summarize block. -/
theorem emit_runs {E : Env} {s : Tree} {pow : BytesN 32} {founder : Address} {ts : UInt64} {r : BasicInfo × U256}
    (hc : emitChecks E s pow founder [] ts = .ok r) (he : r.1.height.val % BLOCKS_PER_EPOCH = 0) :
    Prog.Runs (Node.emitMain E pow founder [] ts) ⟨s, false⟩
      (Node.addBlock E (newSumBlock E s r) >>= fun _ => pure (newSumBlock E s r)) ⟨s.rotated, false⟩ := by
  obtain ⟨last, hl, hn, hp, hf, rfl, rfl, rfl⟩ := emitChecks_ok hc
  unfold Node.emitMain
  refine (Prog.runs_bind_ok (a := some last) (t := ⟨s, false⟩) (by
    rw [Node.getLastBlock_impl s]; simp only [hl, Act.lift]) _).trans ?_
  change Prog.Runs (Prog.lift (checkPow E (last.hash E) last.info.difficulty [] r.1.pow.val) >>= _) _ _ _
  rw [hp]
  change Prog.Runs (Prog.lift (recalculateDifficulty E last.info.timestamp r.1.timestamp last.info.difficulty) >>= _) _ _ _
  rw [hn.difficulty]
  change Prog.Runs (Prog.lift (recalculateFee r.1.difficulty) >>= _) _ _ _
  rw [hf]
  change Prog.Runs (Prog.lift (last.info.height.add U256.one) >>= _) _ _ _
  have hh : last.info.height.add U256.one = .ok r.1.height := by
    unfold U256.add
    have : last.info.height.val + U256.one.val < U256.size := by
      have := r.1.height.lt; rw [hn.height] at this; exact this
    rw [dif_pos this]
    exact congrArg Outcome.ok (U256.ext hn.height.symm)
  rw [hh]
  change Prog.Runs ((if _ then _ else _) >>= _) _ _ _
  rw [if_pos he, if_neg (by simp)]
  refine Prog.runs_bind_ok (σ := Node) (t := ⟨s.rotated, false⟩) (a := newSumBlock E s r) ?_ _
  rw [Prog.solo_bind]
  simp only [Node.read, Prog.solo, summarize_eq]
  rw [← hn.link, Prog.solo_bind, show Node.rotateDbs.solo ⟨s, false⟩ = _ from Node.rotateDbs_impl s]
  rfl

/-- A node at the end of its first epoch whose root account was emptied. -/
theorem endOfEpoch : ∃ s b, Run zeroEnv s ∧ s.main.getHeight.val = 1000000 ∧
    (Tree.emitMain zeroEnv (BytesN.fill 32 0) ROOT_PUBLIC_ADDRESS [] (1597924800 + 600 * 1000000) s).out = .ok b ∧
    ∃ a, s.getAmount ROOT_PUBLIC_ADDRESS = .ok a ∧ a.val = 0 := by
  obtain ⟨s, last, h1, h2, h3, h4, _⟩ := steady 999999 (by omega)
  have h1' := RunWith.call s (.setAmount ROOT_PUBLIC_ADDRESS.val U256.zero) h1 trivial
  have hs := run_storeInv (runWith_run h1)
  obtain ⟨_, r2, _, r4⟩ := C47_history zeroEnv s _ _ [.setAmount ROOT_PUBLIC_ADDRESS.val U256.zero] (runWith_run h1)
    (shows_amt hs.summary.1) (shows_amt hs.gas.1) (by simp [coinCall])
  change (Op.run zeroEnv (.setAmount ROOT_PUBLIC_ADDRESS.val U256.zero) s).final.main = _ at r4
  change Shows (Op.run zeroEnv (.setAmount ROOT_PUBLIC_ADDRESS.val U256.zero) s).final.summary _ at r2
  generalize (Op.run zeroEnv (.setAmount ROOT_PUBLIC_ADDRESS.val U256.zero) s).final = s' at h1' r2 r4
  rw [← r4] at h2 h3
  have hm : s'.main.getHeight.val + 1 < U256.size := by
    have : U256.size > 20000000 := by decide
    have : s'.main.getHeight.val = 999999 + 1 := h2
    omega
  have hle : last.info.timestamp ≤ 1597924800 + 600 * 1000000 := by
    rw [UInt64.le_iff_toNat_le, h4]; decide
  have := (C40_exact_partial zeroEnv s' last (BytesN.fill 32 0) ROOT_PUBLIC_ADDRESS []
    (1597924800 + 600 * 1000000) h1' hm h3 (.inl hle)).2 ((checkPow_iff ..).mp (checkPow_zero ..))
  have hh : s'.main.getHeight.val = 1000000 := h2
  obtain ⟨b, hb, _⟩ := this.2.2 (by rw [hh]; simp)
  obtain ⟨a, ha, hv⟩ := r2 ROOT_PUBLIC_ADDRESS.val
  refine ⟨s', b, runWith_run h1', hh, hb, a, ha, ?_⟩
  rw [hv]
  simp [coinCall, Spec.LedgerCall.run, Spec.LedgerCall.apply, Spec.Accounts.update]
  try rfl

/-- C75 is false of the code: at the end of an epoch, whenever a block could be emitted and another thread adds any block
of that height through a main chain handle, there is a schedule in which that block is accepted, the emission fails,
and the epoch has ended nevertheless, without a summarize block. -/
theorem C75_refuted :
    (∀ (E : Env) (s : Tree) (pow : BytesN 32) (founder : Address) (ts : UInt64) (x b : Block), Run E s →
      s.main.getHeight.val + 1 < U256.size → s.main.getHeight.val % 1000000 = 0 →
      (Tree.emitMain E pow founder [] ts s).out = .ok x → b.info.height = s.main.getHeight →
      ∃ log c, Exec ⟨⟨s, false⟩, emitThreads E pow founder [] ts (fun _ : Unit => .addBlock b)⟩ log c ∧
        c.threads none = .done (.err .chainAddingBlock) ∧ c.threads (some ()) = .done (.ok ()) ∧
        EpochEnded s c.shared.data) ∧
    ¬ C75_full := by
  have key : ∀ (E : Env) (s : Tree) (pow : BytesN 32) (founder : Address) (ts : UInt64) (x b : Block), Run E s →
      s.main.getHeight.val + 1 < U256.size → s.main.getHeight.val % 1000000 = 0 →
      (Tree.emitMain E pow founder [] ts s).out = .ok x → b.info.height = s.main.getHeight →
      ∃ log c, Exec ⟨⟨s, false⟩, emitThreads E pow founder [] ts (fun _ : Unit => .addBlock b)⟩ log c ∧
        c.threads none = .done (.err .chainAddingBlock) ∧ c.threads (some ()) = .done (.ok ()) ∧
        EpochEnded s c.shared.data := by
    intro E s pow founder ts x b hr hm hmod hx hb
    obtain ⟨bs, h⟩ := run_holds hr hm
    rcases emitMain_cases h hm pow founder [] ts with
      ⟨out, k1, k2, _⟩ | ⟨l, r, b', s0, ch, tr, _, _, k3, _, _, k6, _⟩
    · rw [k2] at hx; exact absurd hx (k1 x)
    · have he : r.1.height.val % BLOCKS_PER_EPOCH = 0 := by rw [k6]; exact hmod
      have hs : Chain.Same s.main.chain s.rotated.main.chain := (Tree.rotate_mainSame s).1
      have hm' : s.rotated.main.chain.height.val + 1 < U256.size := by rw [hs.2.2]; exact hm
      have hb' : b.info.height = s.rotated.main.chain.height := by rw [hs.2.2]; exact hb
      have x0 : Exec ⟨⟨s, false⟩, emitThreads E pow founder [] ts (fun _ : Unit => .addBlock b)⟩ []
        ⟨⟨s, false⟩, emitThreads E pow founder [] ts (fun _ : Unit => .addBlock b)⟩ := .refl
      obtain ⟨l1, x1⟩ := x0.go none rfl ((emit_runs k3 he).bind fun _ => pure ())
      obtain ⟨t, ht⟩ : ∃ t, t = (Tree.onMain (MainChain.addBlock E b) s.rotated).final := ⟨_, rfl⟩
      have hrun : Prog.Runs (Node.addBlock E b) ⟨s.rotated, false⟩ (.done (.ok ())) ⟨t, false⟩ := by
        apply Prog.runs_of_solo
        rw [Node.addBlock_impl E b s.rotated, ht]
        unfold Tree.onMain MainChain.addBlock MainChain.onChain
        rw [Act.zoom_run, Act.zoom_run, hb', Chain.addBlock_right hm']
      obtain ⟨l2, x2⟩ := x1.go (some ()) (by rw [Function.update_of_ne (by simp)]; rfl) hrun
      have hlate : Prog.Runs (Node.addBlock E (newSumBlock E s r)) ⟨t, false⟩ (.done (.err .chainAddingBlock)) ⟨t, false⟩ := by
        apply Prog.runs_of_solo
        rw [Node.addBlock_impl E _ t]
        have hne : (newSumBlock E s r).info.height ≠ t.main.chain.height := by
          have e1 : t.main.chain.height.val = s.rotated.main.chain.height.val + 1 := by
            rw [ht]
            unfold Tree.onMain MainChain.addBlock MainChain.onChain
            rw [Act.zoom_run, Act.zoom_run, hb', Chain.addBlock_right hm']
            rfl
          intro h
          have e2 : (newSumBlock E s r).info.height.val = s.main.chain.height.val := congrArg U256.val k6
          rw [h, e1, hs.2.2] at e2
          omega
        unfold Tree.onMain MainChain.addBlock MainChain.onChain
        rw [Act.zoom_run, Act.zoom_run, Chain.addBlock_wrong hne]
      have hlate' : Prog.Runs ((Node.addBlock E (newSumBlock E s r) >>= fun _ => pure (newSumBlock E s r)) >>=
          fun _ => pure ()) ⟨t, false⟩ (.done (.err .chainAddingBlock)) ⟨t, false⟩ :=
        (hlate.bind fun _ => pure (newSumBlock E s r)).bind fun _ => pure ()
      obtain ⟨l3, x3⟩ := x2.go none (by rw [Function.update_of_ne (by simp), Function.update_self]) hlate'
      refine ⟨_, _, x3, ?_, ?_, ?_⟩
      · simp
      · simp
      · exact (C75_failed_emit_partial E s pow founder [] ts _ _ _ x3 (.err .chainAddingBlock)
          (by simp)).2.2 rfl (.inr rfl)
  refine ⟨key, fun hfull => ?_⟩
  obtain ⟨s, b, h1, h2, h3, h4⟩ := endOfEpoch
  obtain ⟨log, c, k1, k2, _, k4⟩ := key zeroEnv s _ _ _ b (.transaction { exTxBlock with defaultInfo := { exInfo with height := s.main.getHeight } }) h1
    (by rw [h2]; decide) (by rw [h2]) h3 rfl
  have := (hfull Unit zeroEnv s _ _ _ _ _ log c h1 k1 k2 ROOT_PUBLIC_ADDRESS.val).1
  obtain ⟨a, e1, e2⟩ := k4.2
  obtain ⟨a', e3, e4⟩ := h4
  unfold Tree.getAmount at e1 e3
  rw [this, e3] at e1
  have := Outcome.ok.inj e1
  subst this
  rw [e4] at e2
  cases e2

/-- The hypotheses of `C75_failed_emit_partial` are met by an emission at the end of the first epoch that loses the
race. -/
example : ∃ s log c, Run zeroEnv s ∧
    Exec ⟨⟨s, false⟩, emitThreads zeroEnv (BytesN.fill 32 0) ROOT_PUBLIC_ADDRESS [] (1597924800 + 600 * 1000000)
      (fun _ : Unit => .addBlock (.transaction { exTxBlock with defaultInfo := { exInfo with height := s.main.getHeight } }))⟩
      log c ∧ c.threads none = .done (.err .chainAddingBlock) := by
  obtain ⟨s, b, h1, h2, h3, _⟩ := endOfEpoch
  obtain ⟨log, c, k1, k2, _, _⟩ := C75_refuted.1 zeroEnv s _ _ _ b
    (.transaction { exTxBlock with defaultInfo := { exInfo with height := s.main.getHeight } }) h1
    (by rw [h2]; decide) (by rw [h2]) h3 rfl
  exact ⟨s, log, c, h1, k1, k2⟩

end Props
end BCT
