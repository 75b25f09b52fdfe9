import Verif.Props.ThreadsRead
import Verif.Props.ThreadsEmit
import Verif.Props.Trust
/-!
# C119: a block emitted amid other threads follows the block below it (blockchaintree.rs)
-/

namespace BCT

/-- A program only adds to its history. -/
theorem Prog.Hist.keeps {σ α : Type} {P : List (σ × σ) → Outcome α → Prop} {p : Prog σ α} {hist : List (σ × σ)}
    (h : Prog.Hist (fun _ => True) P p hist) :
    Prog.Hist (fun _ => True) (fun l o => P l o ∧ ∀ x ∈ hist, x ∈ l) p hist := by
  suffices key : ∀ {hist hist' : List (σ × σ)}, (∀ x ∈ hist', x ∈ hist) → Prog.Hist (fun _ => True) P p hist →
      Prog.Hist (fun _ => True) (fun l o => P l o ∧ ∀ x ∈ hist', x ∈ l) p hist from key (fun _ h => h) h
  clear h
  induction p with
  | done o => exact fun hs h => ⟨h, hs⟩
  | step next rest ih =>
    intro hist hist' hs h s s' ht hn
    exact ⟨trivial, ih s (fun x hx => List.mem_append_left _ (hs x hx)) (h s s' ht hn).2⟩

end BCT

namespace BCT.Props
open BCT

variable {ι : Type}

/-- What a thread that ended well must have done, as far as one looks at its steps. -/
def IfOk {σ α : Type} (Q : List (σ × σ) → α → Prop) (l : List (σ × σ)) (o : Outcome α) : Prop :=
  ∀ a, o = .ok a → Q l a

theorem ifOk_bind {σ α β : Type} {Q : List (σ × σ) → α → Prop} {R : List (σ × σ) → β → Prop}
    {p : Prog σ α} {f : α → Prog σ β} {hist : List (σ × σ)}
    (hp : Prog.Hist (fun _ => True) (IfOk Q) p hist)
    (hf : ∀ l a, Q l a → (∀ x ∈ hist, x ∈ l) → Prog.Hist (fun _ => True) (IfOk R) (f a) l) :
    Prog.Hist (fun _ => True) (IfOk R) (p >>= f) hist :=
  hp.keeps.bind (fun l a h => hf l a (h.1 a rfl) h.2) (fun _ _ _ _ h => by cases h) (fun _ _ _ _ h => by cases h)
    (fun _ _ _ h => by cases h)

theorem ifOk_lift {σ α : Type} (o : Outcome α) (hist : List (σ × σ)) :
    Prog.Hist (fun _ => True) (IfOk fun _ a => o = .ok a) (Prog.lift o) hist := fun _ h => h

theorem ifOk_true {σ α : Type} (p : Prog σ α) (hist : List (σ × σ)) :
    Prog.Hist (fun _ => True) (IfOk fun _ _ => True) p hist :=
  (Prog.hist_true p hist).mono fun _ _ _ _ _ => trivial

/-- The steps `get_last_block` took when it returned `last`. -/
def FoundLast (l : List (Node × Node)) (last : Option Block) : Prop :=
  ∃ n1 : Node, n1.held = false ∧ (n1, n1) ∈ l ∧ (n1.data.main.chain.height.val = 0 ∨
    ∀ b, last = some b → ∃ (i : U256) (n2 : Node) (raw : Bytes), i.val + 1 = n1.data.main.chain.height.val ∧
      (n2, n2) ∈ l ∧ n2.data.main.chain.blocks.get i.toBE.val = some raw ∧
      MainChain.decode (some raw) = .ok (some b))

theorem hist_getLastBlock : Prog.Hist (fun _ => True) (IfOk FoundLast) Node.getLastBlock [] := by
  refine ifOk_bind (Q := fun l r => SawLast l (.ok r)) (hist_last.mono fun l o h a e => by subst e; exact h) ?_
  intro l r h _ last hd
  obtain ⟨n1, h1, h2, h3⟩ := h
  refine ⟨n1, h1, h2, h3.imp_right ?_⟩
  rintro ⟨i, hi, n1', -, ⟨rfl, -, e⟩ | ⟨n2, rfl, -, e⟩⟩ b rfl
  · cases e
    cases hd
  · cases hr : n2.data.main.chain.blocks.get i.toBE.val with
    | none => rw [hr] at e; cases e; cases hd
    | some raw =>
      rw [hr] at e
      cases e
      exact ⟨i, n2, raw, hi, by simp, hr, hd⟩

/-- The steps `add_block` took when it returned `Ok`. -/
def DidStore (b : Block) (l : List (Node × Node)) : Prop :=
  ∃ n m m' : Node, (n, n) ∈ l ∧ n.data.main.chain.height = b.info.height ∧ (m, m') ∈ l ∧
    m'.data.main.chain.blocks.get b.info.height.toBE.val = some b.dump ∧
    ∃ k k' : Node, (k, k') ∈ l ∧ k'.data.main.chain.height.val = b.info.height.val + 1

theorem hist_addBlock (E : Env) (b : Block) (hist : List (Node × Node)) :
    Prog.Hist (fun _ => True) (IfOk fun l _ => DidStore b l) (Node.addBlock E b) hist := by
  intro n0 n0' _ hn0
  refine ⟨trivial, fun n n' _ hn => ⟨trivial, ?_⟩⟩
  cases hn
  change Prog.Hist _ _ (afterRead E b n.data.main.chain.height) _
  unfold afterRead
  split
  · intro k k' _ hk
    exact ⟨trivial, fun _ e => by cases e⟩
  · rename_i hb
    have hb : b.info.height = n.data.main.chain.height := not_not.mp hb
    intro m m' _ hm
    cases hm
    refine ⟨trivial, fun r r' _ hr => ⟨trivial, ?_⟩⟩
    cases hr
    change Prog.Hist _ _ (afterRef n.data.main.chain.height) _
    unfold afterRef
    cases ha : n.data.main.chain.height.add U256.one with
    | ok h' =>
      intro k k' _ hk
      cases hk
      refine ⟨trivial, fun u u' _ hu => ⟨trivial, fun _ _ => ⟨n, m, ⟨storeBlock b n.data.main.chain.height m.data, m.held⟩,
        by simp, hb.symm, by simp, ?_, k, ⟨Node.setChain (fun s => { s with height := h' }) k.data, k.held⟩, by simp, ?_⟩⟩⟩
      · rw [hb]
        change (m.data.main.chain.blocks.insert _ _).get _ = _
        rw [Db.get_insert, if_pos rfl]
      · rw [hb]
        change h'.val = _
        unfold U256.add at ha
        split at ha
        · cases ha; rfl
        · cases ha
    | err e => intro _ _ _ _; exact ⟨trivial, fun _ e => by cases e⟩
    | panic e => intro _ _ _ _; exact ⟨trivial, fun _ e => by cases e⟩
    | ub => intro _ _ _ _; exact ⟨trivial, fun _ e => by cases e⟩

/-- The steps `emmit_new_main_block` took when it returned `b`. -/
def Emitted (E : Env) (pow : BytesN 32) (founder : Address) (txs : List Hash) (ts : UInt64)
    (l : List (Node × Node)) (b : Block) : Prop :=
  DidStore b l ∧ ∃ last, FoundLast l (some last) ∧ NextInfo E last b.info ∧
    checkPow E (last.hash E) last.info.difficulty txs pow.val = .ok true ∧
    b.info.timestamp = ts ∧ b.info.pow = pow ∧ b.info.founder = founder ∧ b.IsMain ∧ b.transactions.getD [] = txs

theorem foundLast_mono {l l' : List (Node × Node)} {last : Option Block} (h : FoundLast l last)
    (hs : ∀ x ∈ l, x ∈ l') : FoundLast l' last := by
  obtain ⟨n1, h1, h2, h3⟩ := h
  refine ⟨n1, h1, hs _ h2, h3.imp_right fun h b e => ?_⟩
  obtain ⟨i, n2, raw, a1, a2, a3, a4⟩ := h b e
  exact ⟨i, n2, raw, a1, hs _ a2, a3, a4⟩

theorem hist_emitMain (E : Env) (pow : BytesN 32) (founder : Address) (txs : List Hash) (ts : UInt64) :
    Prog.Hist (fun _ => True) (IfOk (Emitted E pow founder txs ts)) (Node.emitMain E pow founder txs ts) [] := by
  unfold Node.emitMain
  refine ifOk_bind hist_getLastBlock fun l1 last h1 _ => ?_
  refine ifOk_bind (ifOk_lift _ _) fun l2 lastBlock h2 k2 => ?_
  have e : last = some lastBlock := by
    cases last with
    | none => cases h2
    | some x => cases h2; rfl
  subst e
  refine ifOk_bind (ifOk_lift _ _) fun l3 good h3 k3 => ?_
  have f3 : FoundLast l3 (some lastBlock) := foundLast_mono h1 fun x hx => k3 x (k2 x hx)
  cases good with
  | false => exact fun _ e => by cases e
  | true =>
    simp only [Bool.not_true, Bool.false_eq_true, if_false]
    refine ifOk_bind (ifOk_lift _ _) fun l4 difficulty h4 k4 => ?_
    refine ifOk_bind (ifOk_lift _ _) fun l5 fee _ k5 => ?_
    refine ifOk_bind (ifOk_lift _ _) fun l6 height h6 k6 => ?_
    have f6 : FoundLast l6 (some lastBlock) := foundLast_mono f3 fun x hx => k6 x (k5 x (k4 x hx))
    have hh : height.val = lastBlock.info.height.val + 1 := by
      unfold U256.add at h6
      split at h6
      · cases h6; rfl
      · cases h6
    refine ifOk_bind (Q := fun _ b => b.info = ⟨ts, pow, lastBlock.hash E, height, difficulty, founder⟩ ∧ b.IsMain ∧
      b.transactions.getD [] = txs) ?_ fun l7 b h7 k7 => ?_
    · split
      · split
        · exact fun _ e => by cases e
        · rename_i ht
          refine ifOk_bind (ifOk_true _ _) fun _ root _ _ => ifOk_bind (ifOk_true _ _) fun _ _ _ _ =>
            ifOk_bind (ifOk_true _ _) fun _ _ _ _ => ?_
          intro b e
          cases e
          refine ⟨rfl, trivial, ?_⟩
          cases txs with
          | nil => rfl
          | cons a l => simp at ht
      · split
        · exact fun _ e => by cases e
        · refine ifOk_bind (ifOk_true _ _) fun _ root _ _ => ?_
          intro b e
          cases e
          exact ⟨rfl, trivial, rfl⟩
    · obtain ⟨hi, hmain, htx⟩ := h7
      refine ifOk_bind (hist_addBlock E b l7) fun l8 _ h8 k8 => ?_
      intro b' e
      cases e
      refine ⟨h8, lastBlock, foundLast_mono f6 fun x hx => k8 x (k7 x hx), ?_, h3, ?_, ?_, ?_, hmain, htx⟩
      · rw [hi]
        exact ⟨rfl, hh, h4⟩
      all_goals rw [hi]

/-- One thread (`none`) emits a block and returns it; each other thread makes a call of its own. -/
def emitAmid (E : Env) (pow : BytesN 32) (founder : Address) (txs : List Hash) (ts : UInt64)
    (call : ι → Node.AnyCall) : Option ι → Prog Node (Option Block)
  | none => do let b ← Node.emitMain E pow founder txs ts; pure (some b)
  | some i => do let _ ← (call i).prog E; pure none

/-- C119. One thread emits a block while any number of others add blocks and transactions, send, flush, emit and look
blocks up, on a node with any history. Under every schedule, if the emission returned a block, that block is from then
on found at its height, and the block found one below it is the one it was made from: `b` carries its hash, is one higher, has the
difficulty recalculated from it, and its nonce met that block's difficulty. -/
theorem C119_emitted_amid_threads [DecidableEq ι] (E : Env) (s : Tree) (hr : Run E s) (pow : BytesN 32)
    (founder : Address) (txs : List Hash) (ts : UInt64) (call : ι → Node.AnyCall) (log : List (Event (Option ι) Node))
    (c : Config (Option ι) Node (Option Block))
    (h : Exec ⟨⟨s, false⟩, emitAmid E pow founder txs ts call⟩ log c)
    (hm : s.main.getHeight.val + log.length + 1 < U256.size) (b : Block) (ho : c.threads none = .done (.ok (some b))) :
    ∃ (a : Block) (k : U256), k.val + 1 = b.info.height.val ∧
      c.shared.data.main.findRawByHeight b.info.height = some b.dump ∧
      c.shared.data.main.findRawByHeight k = some a.dump ∧
      MainChain.decode (some a.dump) = .ok (some a) ∧
      s.main.getHeight.val ≤ b.info.height.val ∧ b.info.height.val < c.shared.data.main.getHeight.val ∧
      a.info.height = k ∧ b.info.previousHash = E.sha256 a.dump ∧
      recalculateDifficulty E a.info.timestamp ts a.info.difficulty = .ok b.info.difficulty ∧
      MeetsPow E (E.sha256 a.dump) a.info.difficulty txs pow.val ∧
      b.info.timestamp = ts ∧ b.info.pow = pow ∧ b.info.founder = founder ∧ b.IsMain ∧
      b.transactions.getD [] = txs := by
  obtain ⟨bs0, hb0⟩ := run_holds hr (by change s.main.getHeight.val + 1 < _; omega)
  obtain ⟨-, -, hev⟩ := exec_chain h (.inl ⟨rfl, ⟨_, hb0⟩, fun i => by
    cases i with
    | none => exact .bind (adds_emit E pow founder txs ts) fun _ => adds_pure E _
    | some i => exact .bind (adds_call E (call i)) fun _ => adds_pure E _⟩) hm
  obtain ⟨hall, hso, -⟩ := h.sorted (R := fun a b => Above a.data.main.chain b.data.main.chain)
    (fun s => above_refl _) (fun _ _ _ => above_trans) (fun e he => (hev e he).2.2)
  have hP : Emitted E pow founder txs ts (ownSteps none log) b := by
    have := (h.hist (J := fun _ => True)
      (P := fun j l' o' => j = none → ∀ b, o' = .ok (some b) → Emitted E pow founder txs ts l' b) trivial (fun j => by
      cases j with
      | none =>
        refine Prog.Hist.mono (P := IfOk fun l o => ∀ b, o = some b → Emitted E pow founder txs ts l b)
          (fun l o h _ b e => h _ e b rfl) ?_
        refine ifOk_bind (hist_emitMain E pow founder txs ts) fun l b hb _ => ?_
        rintro o e b' rfl
        cases e
        exact hb
      | some j => exact (Prog.hist_true _ _).mono fun _ _ _ e => by cases e)).2.2 none
    rw [ho] at this
    exact this rfl b rfl
  have hmem : ∀ n ∈ ownSteps none log, (n.1.held = false → ∃ bs, n.1.data.main.chain.Holds E bs) ∧
      Above s.main.chain n.1.data.main.chain ∧ Above n.1.data.main.chain c.shared.data.main.chain ∧
      Above n.2.data.main.chain c.shared.data.main.chain := by
    intro n hn
    have he := mem_ownSteps hn
    have h1 := hev _ he
    have h2 := hso _ he
    exact ⟨h1.2.1, h2.1, above_trans h1.2.2 h2.2, h2.2⟩
  obtain ⟨⟨n, m, m', hn, hnh, hmm, hst, q, q', hq, hqh⟩, last, ⟨n1, hf, hn1, hlast⟩, hni, hpow, ht, hp, hfo, hmain,
    htx⟩ := hP
  have hs1 : 1 ≤ s.main.chain.height.val := by rw [← hb0.len]; simp
  have h1n := (hmem _ hn1).2.1.1
  simp only at h1n
  rcases hlast with h0 | hlast
  · omega
  obtain ⟨i, n2, raw, hi, hn2, hraw, hdec⟩ := hlast last rfl
  obtain ⟨bs, hbs⟩ := (hmem _ hn1).1 hf
  have hlen := hbs.len
  simp only at hlen
  have hib : i.val < bs.length := by omega
  have hstored := hbs.stored i.val hib
  have hend : c.shared.data.main.chain.blocks.get i.toBE.val = some bs[i.val].dump :=
    (hmem _ hn1).2.2.1.2.1 _ _ hstored
  have hend' : c.shared.data.main.chain.blocks.get i.toBE.val = some raw := (hmem _ hn2).2.2.1.2.1 _ _ hraw
  have hrb : raw = bs[i.val].dump := by rw [hend] at hend'; cases hend'; rfl
  have hgen : i.val = 0 → raw = (genesis E).dump := by
    intro h0
    have g0 := hb0.stored 0 (by simp)
    have := hall.2.1 _ _ g0
    have e : i.toBE.val = beBytes 32 0 := by rw [← h0]; rfl
    rw [e] at hend'
    rw [this] at hend'
    cases hend'
    rfl
  have hd : raw = last.dump ∧ last.info.height = i := by
    by_cases h0 : i.val = 0
    · have e := hgen h0
      rw [e, decode_main (genesis E) trivial (.inr ⟨_, rfl⟩)] at hdec
      cases hdec
      exact ⟨e, U256.ext (by rw [h0]; rfl)⟩
    · have hh := hbs.heights i.val hib
      rw [hrb] at hdec
      cases hk : bs[i.val] with
      | derivative d =>
        obtain ⟨e, he⟩ := C11_main_block_read_back_partial.2.1 d
        rw [hk] at hdec
        simp [MainChain.decode, Block.dump, he] at hdec
      | transaction d =>
        rw [decode_main _ (by rw [hk]; trivial) (.inl (by rw [hh]; exact h0))] at hdec
        cases hdec
        exact ⟨hrb, U256.ext hh⟩
      | summarize d =>
        rw [decode_main _ (by rw [hk]; trivial) (.inl (by rw [hh]; exact h0))] at hdec
        cases hdec
        exact ⟨hrb, U256.ext hh⟩
  obtain ⟨rfl, hli⟩ := hd
  have hbh : b.info.height.val = i.val + 1 := by rw [hni.height, hli]
  have hqc := (hmem _ hq).2.2.2.1
  have hsn := (hmem _ hn).2.1.1
  simp only [hqh] at hqc
  simp only [hnh] at hsn
  refine ⟨last, i, hbh.symm, ?_, ?_, hdec, hsn, ?_, hli, hni.link, ht ▸ hni.difficulty, (checkPow_iff ..).mp hpow, ht,
    hp, hfo, hmain, htx⟩
  · exact found_later (c := m'.data.main.chain) (by omega) (hmem _ hmm).2.2.2 hst
  · exact found_later (c := n2.data.main.chain) (by omega) (hmem _ hn2).2.2.1 hraw
  · change _ < c.shared.data.main.chain.height.val
    omega

theorem emit_then_emit (E : Env) (s : Tree) (p p' : BytesN 32) (f f' : Address) (txs txs' : List Hash) (ts ts' : UInt64)
    (b b' : Block) (h : (Tree.emitMain E p f txs ts s).out = .ok b)
    (h' : (Tree.emitMain E p' f' txs' ts' (Tree.emitMain E p f txs ts s).final).out = .ok b') :
    ∃ log c, Exec ⟨⟨s, false⟩, emitAmid E p' f' txs' ts' (fun _ : Unit => .emit p f txs ts)⟩ log c ∧
      log.length ≤ 54 ∧ c.threads none = .done (.ok (some b')) := by
  have r1 := Prog.runs_of_solo (Node.emitMain_impl E p f txs ts s)
  have r2 := Prog.runs_of_solo (Node.emitMain_impl E p' f' txs' ts' (Tree.emitMain E p f txs ts s).final)
  rw [h] at r1
  rw [h'] at r2
  have x0 : Exec ⟨⟨s, false⟩, emitAmid E p' f' txs' ts' (fun _ : Unit => .emit p f txs ts)⟩ [] _ := .refl
  obtain ⟨l1, x1⟩ := x0.go (some ()) rfl ((r1.bind fun _ => pure none).bind fun _ => pure none)
  obtain ⟨l2, x2⟩ := x1.go none (by rw [Function.update_of_ne (by simp)]; rfl) (r2.bind fun b => pure (some b))
  refine ⟨_, _, x2, ?_, by simp; rfl⟩
  have hw := fun i => (exec_within x2 (m := 27) (fun i => by
    cases i with
    | none => exact .bind (n := 0) (fun _ => within_pure _ _) (within_emit E p' f' txs' ts')
    | some _ => exact .bind (n := 0) (fun _ => within_pure _ _) (within_call E (.emit p f txs ts))) i).1
  rw [length_eq_sum]
  refine (Finset.sum_le_card_nsmul _ _ 27 fun i _ => hw i).trans ?_
  simp

/-- The hypotheses of `C119_emitted_amid_threads` are met: two threads emit, one after the other, and the block of the
second follows the block of the first. -/
example : ∃ s log c b, Run zeroEnv s ∧
    Exec ⟨⟨s, false⟩, emitAmid zeroEnv (BytesN.fill 32 0) ROOT_PUBLIC_ADDRESS [BytesN.fill 32 1] 1597924802
      (fun _ : Unit => .emit (BytesN.fill 32 0) ROOT_PUBLIC_ADDRESS [BytesN.fill 32 2] 1597924801)⟩ log c ∧
    s.main.getHeight.val + log.length + 1 < U256.size ∧ c.threads none = .done (.ok (some b)) ∧
    b.info.height.val = 2 := by
  obtain ⟨s, last, h1, h2, h3, h4, _⟩ := steady 0 (by decide)
  have e1 : s.main.getHeight.val = 1 := h2
  have hm : s.main.getHeight.val + 1 < U256.size := by rw [e1]; decide
  obtain ⟨b1, k1, k2, k3⟩ := ((C40_exact_partial zeroEnv s last (BytesN.fill 32 0) ROOT_PUBLIC_ADDRESS [BytesN.fill 32 2]
    1597924801 h1 hm h3 (.inl (by rw [UInt64.le_iff_toNat_le, h4]; decide))).2
    ((checkPow_iff ..).mp (checkPow_zero ..))).2.2 (by rw [e1]; simp)
  obtain ⟨_, _, _, _, j1, _⟩ := emitted_info (runWith_run h1) hm k1
  have r1 : RunWith zeroEnv EmitOnly
      (Tree.emitMain zeroEnv (BytesN.fill 32 0) ROOT_PUBLIC_ADDRESS [BytesN.fill 32 2] 1597924801 s).final :=
    .call s (.emitMain (BytesN.fill 32 0) ROOT_PUBLIC_ADDRESS [BytesN.fill 32 2] 1597924801) h1 trivial
  have hm' : (Tree.emitMain zeroEnv (BytesN.fill 32 0) ROOT_PUBLIC_ADDRESS [BytesN.fill 32 2] 1597924801 s).final.main.getHeight.val
      + 1 < U256.size := by rw [k3, e1]; decide
  obtain ⟨b2, m1, _, _⟩ := ((C40_exact_partial zeroEnv _ b1 (BytesN.fill 32 0) ROOT_PUBLIC_ADDRESS [BytesN.fill 32 1]
    1597924802 r1 hm' k2 (.inl (by rw [j1]; decide))).2
    ((checkPow_iff ..).mp (checkPow_zero ..))).2.2 (by rw [k3, e1]; simp)
  obtain ⟨log, c, x, hl, ho⟩ := emit_then_emit zeroEnv s _ _ _ _ _ _ _ _ b1 b2 k1 m1
  obtain ⟨bs, hb⟩ := run_holds (runWith_run r1) hm'
  obtain ⟨_, _, _, _, _, g, _⟩ := emitted_next hb hm' m1
  refine ⟨s, log, c, b2, runWith_run h1, x, ?_, ho, ?_⟩
  · rw [e1]
    unfold U256.size
    omega
  · rw [g]
    exact k3.trans (by rw [e1])

end BCT.Props
