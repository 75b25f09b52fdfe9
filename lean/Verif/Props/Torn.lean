import Verif.Lemmas.Torn
import Verif.Props.Frail
/-!
# C147: a node that is killed in the middle of writing things out

C138 leaves out deaths inside the calls that write a configuration file. Such a file is written before the blocks it
counts are, so that a death in between may leave a count of blocks that are not there. Whenever the files left are
whole, the abstract node of `Verif/Spec/Torn.lean` tells what the next process does, and the other way round. What else
may be left is described.
-/

namespace BCT.Props
open BCT

/-- The files left after a death can be read, and the blocks they count are those the node had: `t` is the node before
the call it died in. -/
structure Whole (t : Tree) (d : Disk) : Prop where
  main : ∃ h df, MainChain.readConfig d.config = .ok (h, df) ∧
    ∀ q : U256, q.val < h.val → d.blocks.get q.toBE.val = t.main.chain.blocks.get q.toBE.val
  deriv : ∀ o : Address, ∃ h df g, DerivativeChain.readConfig (BytesN.fill 32 0) (d.deriv (hexEncode o.val)).config = .ok (h, df, g) ∧
    ∀ q : U256, q.val < h.val → (d.deriv (hexEncode o.val)).blocks.get q.toBE.val = (t.derivFiles (hexEncode o.val)).blocks.get q.toBE.val

/-- At some point of the call. -/
def During (E : Env) (t : Tree) (op : Op) (u : Tree) : Prop := u = t ∨ u ∈ (op.run E t).trace ∨ u = (op.run E t).final

/-- What can happen to the node if every death leaves whole files. -/
inductive Befalls (E : Env) : Tree → List Spec.Frail.Incident → List Spec.Reply → Tree → Prop where
  | nil (t : Tree) : Befalls E t [] [] t
  | call {t t' : Tree} {op : Op} {evs : List Spec.Frail.Incident} {rs : List Spec.Reply} :
      Befalls E (op.run E t).final evs rs t' → Befalls E t (.call op :: evs) (replyOf (op.run E t).out :: rs) t'
  | crash {t t₁ t' : Tree} {d : Disk} {r : Spec.Reply} {evs : List Spec.Frail.Incident} {rs : List Spec.Reply} :
      Crash t d → Boots E d r t₁ → Befalls E t₁ evs rs t' → Befalls E t (.crash :: evs) (r :: rs) t'
  | die {t u t₁ t' : Tree} {d : Disk} {r : Spec.Reply} {op : Op} {evs : List Spec.Frail.Incident} {rs : List Spec.Reply} :
      During E t op u → Crash u d → Whole t d → Boots E d r t₁ → Befalls E t₁ evs rs t' → Befalls E t (.die op :: evs) (r :: rs) t'

/-! ## Files and what they hold -/

section
variable {x : Spec.Found Block} {bs : List Block} {i j k : Nat}

theorem slot_take_below {q : Nat} (hj : k ≤ j) (hl : j ≤ bs.length) (hq : q < k) : x.slot (bs.take j) q = bs[q]? := by
  unfold Spec.Found.slot
  rw [if_pos (by rw [List.length_take]; omega), List.getElem?_take_of_lt (by omega)]

theorem slots_agree {d t : KV} (hd : Slots d (x.slot (bs.take i))) (ht : Slots t (x.slot (bs.take j))) (hi : k ≤ i) (hil : i ≤ bs.length)
    (hj : k ≤ j) (hl : j ≤ bs.length) {q : Nat} (hq : q < k) (hs : q < U256.size) : d.get (beBytes 32 q) = t.get (beBytes 32 q) := by
  rw [hd.at' q hs, ht.at' q hs, slot_take_below hi hil hq, slot_take_below hj hl hq]

theorem slots_raise {d t : KV} (hd : Slots d (x.slot (bs.take i))) (ht : Slots t (x.slot (bs.take j))) (hil : i ≤ bs.length)
    (hj : k ≤ j) (hl : j ≤ bs.length) (he : ∀ q, q < k → q < U256.size → d.get (beBytes 32 q) = t.get (beBytes 32 q)) :
    Slots d (x.slot (bs.take (max i k))) := by
  by_cases hik : k ≤ i
  · rw [Nat.max_eq_left hik]; exact hd
  · rw [Nat.max_eq_right (by omega)]
    refine ⟨fun q hq => ?_, hd.keys⟩
    by_cases hqk : q < k
    · rw [he q hqk hq, ht.at' q hq, slot_take_below hj hl hqk, slot_take_below (Nat.le_refl k) (by omega) hqk]
    · rw [hd.at' q hq]
      unfold Spec.Found.slot
      rw [if_neg (by rw [List.length_take]; omega), if_neg (by rw [List.length_take]; omega)]

end

section
variable {E : Env} {t u v : Tree} {m : Spec.Frail.Instant}

/-- In the call begun at `t` the process is now at `u`, an instant of the abstract node: what may be left of the
databases may be left of those of `v`. -/
structure Caught (E : Env) (t u : Tree) (m : Spec.Frail.Instant) (v : Tree) : Prop where
  bears : Bears E v m.frail
  sub : u.Sub v
  config : Counts u.main.chain.config m.count
  says : ∀ o : Address, Says (u.derivFiles (hexEncode o.val)).config (m.countOf o)
  link : ∃ j, m.count ≤ j ∧ j ≤ m.frail.node.blocks.length ∧
    Slots t.main.chain.blocks.cur (m.frail.found.main.slot (m.frail.node.blocks.take j))
  links : ∀ o : Address, ∃ j, ((m.countOf o).map (·.2)).getD 0 ≤ j ∧ j ≤ ((m.frail.node.blocksOf o).map Block.derivative).length ∧
    Slots (t.derivFiles (hexEncode o.val)).blocks.cur
      ((Found.up (m.frail.found.chains o)).slot (((m.frail.node.blocksOf o).map Block.derivative).take j))

theorem counts_read {c : Option Bytes} {k : Nat} (h : Counts c k) (hk : k < U256.size) :
    ∃ df, MainChain.readConfig c = .ok (⟨k, hk⟩, df) := by
  rcases h with ⟨h0, rfl⟩ | ⟨_, df, rfl⟩
  · subst h0; exact ⟨_, rfl⟩
  · exact ⟨df, MainChain.readConfig_written ⟨k, hk⟩ df⟩

theorem says_read {c : Option Bytes} {g : Option (Hash × Nat)} (h : Says c g) (hk : (g.map (·.2)).getD 0 < U256.size) (p : Hash) :
    ∃ df a, DerivativeChain.readConfig p c = .ok (⟨(g.map (·.2)).getD 0, hk⟩, df, a) := by
  cases g with
  | none =>
    have h : c = none := h
    subst h; exact ⟨_, _, rfl⟩
  | some g =>
    obtain ⟨df, rfl⟩ := h
    exact ⟨df, g.1, DerivativeChain.readConfig_written p ⟨g.2, hk⟩ df g.1⟩

theorem Caught.lt (h : Caught E t u m v) : m.count < U256.size ∧ ∀ o, ((m.countOf o).map (·.2)).getD 0 < U256.size := by
  refine ⟨?_, fun o => ?_⟩
  · obtain ⟨j, h1, h2, _⟩ := h.link
    have h3 := h.bears.mirrors.height
    have h4 := v.main.chain.height.lt
    omega
  · obtain ⟨j, h1, h2, _⟩ := h.links o
    obtain ⟨c, _, _, h3⟩ := h.bears.mirrors.owner o
    have h4 := h3.len
    have h5 := c.height.lt
    omega

/-- Whole files are those of the abstract node. -/
theorem Caught.fits (h : Caught E t u m v) {d : Disk} (hd : Crash u d) (hw : Whole t d) :
    ∃ l : Spec.Frail.Left E m.frail, m.Whole l ∧ FitsAt E m.frail l m.count m.countOf d := by
  obtain ⟨l, hl⟩ := h.bears.left (h.sub.crash hd)
  have hl := hl.toFitsData.uncounting
  obtain ⟨hlt, hlts⟩ := h.lt
  obtain ⟨j, j1, j2, j3⟩ := h.link
  have hcf : Counts d.config m.count := by rw [hd.config]; exact h.config
  have hsy : ∀ o : Address, Says (d.deriv (hexEncode o.val)).config (m.countOf o) := fun o => by
    rw [(hd.deriv _).2.2]; exact h.says o
  let l' : Spec.Frail.Left E m.frail := { l with
    blocks := max l.blocks m.count
    blocks_le := ⟨Nat.le_trans l.blocks_le.1 (Nat.le_max_left _ _), Nat.max_le.mpr ⟨l.blocks_le.2, by omega⟩⟩
    blocksOf := fun o => max (l.blocksOf o) (((m.countOf o).map (·.2)).getD 0)
    blocksOf_le := fun o => ⟨Nat.le_trans (l.blocksOf_le o).1 (Nat.le_max_left _ _), Nat.max_le.mpr ⟨(l.blocksOf_le o).2, by
      obtain ⟨j, h1, h2, _⟩ := h.links o
      rw [List.length_map] at h2; omega⟩⟩ }
  have hb : Slots d.blocks (m.frail.found.main.slot (m.frail.node.blocks.take (max l.blocks m.count))) := by
    refine slots_raise hl.blocks j3 l.blocks_le.2 j1 j2 fun q hq hs => ?_
    obtain ⟨hh, df, h1, h2⟩ := hw.main
    obtain ⟨df', h3⟩ := counts_read hcf hlt
    rw [h3] at h1; cases h1
    exact h2 ⟨q, hs⟩ hq
  have hbo : ∀ o : Address, Slots (d.deriv (hexEncode o.val)).blocks ((Found.up (m.frail.found.chains o)).slot
      (((m.frail.node.blocksOf o).map Block.derivative).take (max (l.blocksOf o) (((m.countOf o).map (·.2)).getD 0)))) := by
    intro o
    obtain ⟨j, k1, k2, k3⟩ := h.links o
    refine slots_raise (hl.deriv o).1 k3 (by rw [List.length_map]; exact (l.blocksOf_le o).2) k1 k2 fun q hq hs => ?_
    obtain ⟨hh, df, g, h1, h2⟩ := hw.deriv o
    obtain ⟨df', a, h3⟩ := says_read (hsy o) (hlts o) (BytesN.fill 32 0)
    rw [h3] at h1; cases h1
    exact h2 ⟨q, hs⟩ hq
  refine ⟨l', ⟨Nat.le_max_right _ _, fun o => Nat.le_max_right _ _⟩, ⟨?_, hcf, hsy, Nat.le_max_right _ _, fun o => Nat.le_max_right _ _⟩⟩
  exact ⟨hb, hl.refs, hl.txs, hl.coins, hl.gas, hl.oldCoins, hl.oldGas, fun o => ⟨hbo o, (hl.deriv o).2⟩⟩

/-- And what may be left of the abstract node, if whole, may be left of the node. -/
theorem Caught.leaves (h : Caught E t u m v) (hv : v.Sub u) (l : Spec.Frail.Left E m.frail) (hl : m.Whole l) :
    ∃ d, Crash u d ∧ Whole t d ∧ FitsAt E m.frail l m.count m.countOf d := by
  obtain ⟨d, hc, hf⟩ := h.bears.leaves l
  obtain ⟨hlt, hlts⟩ := h.lt
  have hf := hf.toFitsData.counting u
  refine ⟨d.counting u, hv.crash hc, ⟨?_, fun o => ?_⟩, hf, h.config, h.says, hl.1, hl.2⟩
  · obtain ⟨df, h1⟩ := counts_read h.config hlt
    obtain ⟨j, j1, j2, j3⟩ := h.link
    exact ⟨_, df, h1, fun q hq => slots_agree hf.blocks j3 hl.1 l.blocks_le.2 j1 j2 hq q.lt⟩
  · obtain ⟨df, a, h1⟩ := says_read (h.says o) (hlts o) (BytesN.fill 32 0)
    obtain ⟨j, j1, j2, j3⟩ := h.links o
    exact ⟨_, df, a, h1, fun q hq => slots_agree (hf.deriv o).1 j3 (hl.2 o)
      (by rw [List.length_map]; exact (l.blocksOf_le o).2) j1 j2 hq q.lt⟩

/-! ## The instants of a call -/

/-- No configuration file is written. -/
theorem Caught.now {f : Spec.Frail} (h : Bears E v f) (hu : u.Less v) (hb : t.main.chain.blocks.cur ∈ v.main.chain.blocks.recov)
    (hd : ∀ n, (t.derivFiles n).blocks.cur ∈ (v.derivFiles n).blocks.recov) : Caught E t u f.now v where
  bears := h
  sub := hu.sub
  config := by rw [← hu.chain.2.2]; exact h.config
  says o := by rw [← (hu.deriv _).2.2]; exact h.says o
  link := by
    obtain ⟨j, h1, h2⟩ := h.main.blocks.sound _ hb
    exact ⟨j, h1.1, h1.2, h2⟩
  links o := by
    obtain ⟨j, h1, h2⟩ := (h.deriv o).blocks.sound _ (hd _)
    exact ⟨j, h1.1, h1.2, h2⟩

theorem Caught.here {f : Spec.Frail} (h : Bears E t f) : Caught E t t f.now t :=
  .now h (tree_less.refl t) h.sound.blocks fun n => (h.sound.deriv n).1

theorem Caught.counted {f : Spec.Frail} (h : Bears E t f) (hw : t.Wrote u) : Caught E t u f.counted t where
  bears := h
  sub := hw.sub
  config := by
    have := h.mainFlush.config
    rw [hw.config]
    exact this
  says o := by rw [hw.files]; exact h.says o
  link := ⟨f.node.blocks.length, Nat.le_refl _, Nat.le_refl _, by
    show Slots _ (f.found.main.slot (f.node.blocks.take _))
    rw [List.take_length]; exact h.mirrors.main.slots⟩
  links o := (Caught.here h).links o

theorem Caught.countedOf {f : Spec.Frail} (h : Bears E v f) (o : Address) (hw : v.WroteOf u o) {c : Hash × List DerivativeBlock}
    (hc : f.node.chains o = some c) (hb : t.main.chain.blocks = v.main.chain.blocks) (hd : t.derivFiles = v.derivFiles) :
    Caught E t u (f.countedOf o) v := by
  obtain ⟨_, h2, h3⟩ := h.mirrors.opened o c hc
  have hk : ∀ q, (f.keep o).keptOf q = if q = o then some (c.1, c.2.length) else f.keptOf q := by
    unfold Spec.Frail.keep; rw [hc]; intro q; rfl
  have hl := h3.len
  rw [List.length_map] at hl
  refine { bears := h, sub := hw.sub, config := ?_, says := fun q => ?_, link := ?_, links := fun q => ?_ }
  · rw [hw.config]; exact h.config
  · show Says _ ((f.keep o).keptOf q)
    rw [hk]
    by_cases hq : q = o
    · subst hq
      rw [if_pos rfl, hw.wrote]
      refine ⟨(v.handle q).chain.difficulty, ?_⟩
      show some ((v.handle q).chain.height.toBE.val ++ _ ++ (v.handle q).genesisHash.val) = _
      rw [h2, hl]
      rfl
    · rw [if_neg hq, hw.files _ (fun e => hq (hexEncode_address e))]
      exact h.says q
  · rw [hb]; exact (Caught.here h).link
  · rw [hd]
    show ∃ j, (((f.keep o).keptOf q).map _).getD 0 ≤ j ∧ _
    rw [hk]
    by_cases hq : q = o
    · subst hq
      have hbo : f.node.blocksOf q = c.2 := by unfold Spec.Node.blocksOf; rw [hc]
      rw [if_pos rfl]
      show ∃ j, c.2.length ≤ j ∧ j ≤ ((f.node.blocksOf q).map _).length ∧ Slots _ ((Found.up (f.found.chains q)).slot (((f.node.blocksOf q).map _).take j))
      rw [hbo]
      refine ⟨(c.2.map Block.derivative).length, Nat.le_of_eq (List.length_map _).symm, Nat.le_refl _, ?_⟩
      rw [List.take_length]
      exact h3.slots
    · rw [if_neg hq]
      exact (Caught.here h).links q

/-- The trees of the last calls of an epoch. -/
theorem Bears.aged {f : Spec.Frail} (h : Bears E t f) {a b : KV} {c g : Spec.Book} (ha : Books c a) (hb : Books g b) {w : Tree}
    (hw : w = { t.flushed with oldSummary := Db.open' a, oldGas := Db.open' b }) : Bears E w (f.aged c g) := by
  subst hw
  have hf := h.flush
  exact
    { mirrors := ⟨hf.mirrors.first, hf.mirrors.main, hf.mirrors.txs, hf.mirrors.coins, hf.mirrors.gas, ha, hb, hf.mirrors.closed,
        hf.mirrors.opened⟩
      sound := ⟨hf.sound.blocks, hf.sound.heightReference, hf.sound.transactions, hf.sound.summary, Db.sound_open _, hf.sound.gas,
        Db.sound_open _, hf.sound.deriv⟩
      main := hf.main, config := hf.config, txs := hf.txs, coins := hf.coins, gas := hf.gas, deriv := hf.deriv, says := hf.says
      oldCoins := TableLog.single (m := a) rfl ha
      oldGas := TableLog.single (m := b) rfl hb }

/-- Mining when an epoch ends. -/
theorem emit_epoch {f : Spec.Frail} (h : Bears E t f) (hm : t.main.chain.height.val + 1 < U256.size) (p : BytesN 32)
    (fo : Address) (txs : List Hash) (ts : UInt64) (he : f.node.blocks.length % 1000000 = 0) :
    ((Tree.emitMain E p fo txs ts t).final = t ∧ (Tree.emitMain E p fo txs ts t).trace = [] ∧
      replyOf (Tree.emitMain E p fo txs ts t).out ≠ .done) ∨
    (replyOf (Tree.emitMain E p fo txs ts t).out = .done ∧
      (∃ tr, (Tree.emitMain E p fo txs ts t).trace = (Tree.rotateDbs t).trace ++ t.rotated :: tr ∧
        ∀ w ∈ tr, w.Less (Tree.emitMain E p fo txs ts t).final) ∧ t.rotated.Less (Tree.emitMain E p fo txs ts t).final) := by
  rw [emitMain_checks]
  cases hc : emitChecks E t p fo txs ts with
  | err e => exact .inl ⟨rfl, rfl, fun hb => by cases hb⟩
  | panic e => exact .inl ⟨rfl, rfl, fun hb => by cases hb⟩
  | ub => exact .inl ⟨rfl, rfl, fun hb => by cases hb⟩
  | ok r =>
    rw [Act.lift_ok_bind]
    obtain ⟨last, h1, h2, _⟩ := emitChecks_ok hc
    have hh : r.1.height.val = f.node.blocks.length := by
      rcases h.mirrors.last with ⟨b, _, _, h3, h4⟩ | ⟨_, e, h3⟩
      · rw [h3] at h1; cases h1
        have := h2.height
        omega
      · rw [h3] at h1; cases h1
    have hep : BLOCKS_PER_EPOCH = 1000000 := rfl
    have he' : r.1.height.val % BLOCKS_PER_EPOCH = 0 := by rw [hh, hep]; exact he
    by_cases ht : txs = []
    · subst ht
      rw [emitRest_sum he']
      have hb : (newSumBlock E t r).info.height = t.rotated.main.chain.height := by
        apply U256.ext
        show r.1.height.val = t.main.chain.height.val
        rw [hh, h.mirrors.height]
      have hup := (Act.up_closed tree_less).bind (up_addBlock (E := E) (newSumBlock E t r))
        (fun _ => (Act.up_closed tree_less).pure (newSumBlock E t r)) t.rotated
      obtain ⟨tr, e⟩ := addBlock_run_right (E := E) hb hm
      exact .inr ⟨by rw [Act.bind_ok e]; rfl, ⟨_, rfl, hup.2⟩, hup.1⟩
    · rw [emitRest_wrong_epoch he' ht]
      exact .inl ⟨rfl, rfl, fun hb => by cases hb⟩

/-- The steps between the flush and the new block. -/
theorem rotate_trace (t : Tree) : (Tree.rotateDbs t).trace = (Tree.flush t).trace ++
    [{ t.flushed with oldSummary := Db.open' KV.empty },
     { t.flushed with oldSummary := Db.open' KV.empty, oldGas := Db.open' KV.empty },
     { t.flushed with oldSummary := Db.open' t.summary.cur, oldGas := Db.open' KV.empty },
     { t.flushed with oldSummary := Db.open' t.summary.cur, oldGas := Db.open' t.gas.cur }] := rfl

theorem rotated_less (t : Tree) :
    Tree.Less { t.flushed with oldSummary := Db.open' t.summary.cur, oldGas := Db.open' t.gas.cur } t.rotated :=
  less_summary (a := t.flushed.summary) { t.flushed with oldSummary := Db.open' t.summary.cur, oldGas := Db.open' t.gas.cur }
    (Db.less_insert _ _ _)

/-- No configuration file is written. -/
theorem calm_instant {f : Spec.Frail} {op : Op} (h : Bears E t f) (hb : Bears E (op.run E t).final (f.step E op).2)
    (hn : (f.step E op).2 = f.moved (f.node.stepOver E f.found op).2)
    (hi : f.instants E op = [f.now, (f.moved (f.node.stepOver E f.found op).2).now])
    (hl : t.Less (op.run E t).final ∧ ∀ u ∈ (op.run E t).trace, u.Less (op.run E t).final) :
    (∀ u, During E t op u → ∃ m ∈ f.instants E op, ∃ v, Caught E t u m v) ∧
    ∀ m ∈ f.instants E op, ∃ u v, During E t op u ∧ Caught E t u m v ∧ v.Sub u := by
  rw [hn] at hb
  have c1 : ∀ u : Tree, u.Less (op.run E t).final → Caught E t u (f.moved (f.node.stepOver E f.found op).2).now (op.run E t).final :=
    fun u hu => .now hb hu (hl.1.sub.blocks _ h.sound.blocks) fun n => (hl.1.sub.deriv n).1 _ (h.sound.deriv n).1
  rw [hi]
  refine ⟨fun u hu => ?_, fun m hm => ?_⟩
  · rcases hu with rfl | hu | rfl
    · exact ⟨_, by simp, _, .here h⟩
    · exact ⟨_, by simp, _, c1 u (hl.2 u hu)⟩
    · exact ⟨_, by simp, _, c1 _ (tree_less.refl _)⟩
  · simp only [List.mem_cons, List.not_mem_nil, or_false] at hm
    rcases hm with rfl | rfl
    · exact ⟨t, t, .inl rfl, .here h, t.sub_refl⟩
    · exact ⟨_, _, .inr (.inr rfl), c1 _ (tree_less.refl _), Tree.sub_refl _⟩

theorem instants_emit (f : Spec.Frail) (p : BytesN 32) (fo : Address) (txs : List Hash) (ts : UInt64) :
    f.instants E (.emitMain p fo txs ts) = f.now ::
      if (f.node.stepOver E f.found (.emitMain p fo txs ts)).1 = .done ∧ f.node.blocks.length % 1000000 = 0 then
        [f.counted, (f.aged [] f.node.oldGas).now, (f.aged [] []).now, (f.aged f.node.coins []).now,
          (f.turned (f.node.stepOver E f.found (.emitMain p fo txs ts)).2).now]
      else [(f.moved (f.node.stepOver E f.found (.emitMain p fo txs ts)).2).now] := rfl

theorem step_emit (f : Spec.Frail) (p : BytesN 32) (fo : Address) (txs : List Hash) (ts : UInt64) :
    (f.step E (.emitMain p fo txs ts)).2 =
      if (f.node.stepOver E f.found (.emitMain p fo txs ts)).1 = .done ∧ f.node.blocks.length % 1000000 = 0 then
        f.turned (f.node.stepOver E f.found (.emitMain p fo txs ts)).2
      else f.moved (f.node.stepOver E f.found (.emitMain p fo txs ts)).2 := rfl

/-- A moment at which the configuration file of a derivative chain is not complete. -/
def BadOf (t : Tree) (op : Op) (u : Tree) : Prop :=
  ∃ o v, op = .derivFlush o ∧ v.CutOf u o ∧ Still t v ∧ v.main.transactions = t.main.transactions

/-- Every moment of a call is an instant of the abstract node, or else a configuration file is not complete. Every
instant is a moment. -/
theorem moments {f : Spec.Frail} {k : Nat} (h : Bears E t f) (hk : Short k f.node) (hm : k + 1 < U256.size) (op : Op) :
    (∀ u, During E t op u → u.Cut ∨ BadOf t op u ∨ ∃ m ∈ f.instants E op, ∃ v, Caught E t u m v) ∧
    ∀ m ∈ f.instants E op, ∃ u v, During E t op u ∧ Caught E t u m v ∧ v.Sub u := by
  obtain ⟨hr, hb⟩ := bears_step h hk hm op
  have hhm : t.main.chain.height.val + 1 < U256.size := by
    have := h.mirrors.height; have := hk.1; omega
  have calm : (f.step E op).2 = f.moved (f.node.stepOver E f.found op).2 →
      f.instants E op = [f.now, (f.moved (f.node.stepOver E f.found op).2).now] →
      (t.Less (op.run E t).final ∧ ∀ u ∈ (op.run E t).trace, u.Less (op.run E t).final) →
      (∀ u, During E t op u → u.Cut ∨ BadOf t op u ∨ ∃ m ∈ f.instants E op, ∃ v, Caught E t u m v) ∧
      ∀ m ∈ f.instants E op, ∃ u v, During E t op u ∧ Caught E t u m v ∧ v.Sub u := fun h1 h2 h3 => by
    obtain ⟨a, b⟩ := calm_instant h hb h1 h2 h3
    exact ⟨fun u hu => .inr (.inr (a u hu)), b⟩
  have flush : op = .flush ∨ op = .mainFlush → (∀ u ∈ (op.run E t).trace, u ∈ (Tree.flush t).trace) →
      (op.run E t).final ∈ (op.run E t).trace → t.wrote t.newConfig ∈ (op.run E t).trace →
      (∀ u, During E t op u → u.Cut ∨ BadOf t op u ∨ ∃ m ∈ f.instants E op, ∃ v, Caught E t u m v) ∧
      ∀ m ∈ f.instants E op, ∃ u v, During E t op u ∧ Caught E t u m v ∧ v.Sub u := fun ho h1 h2 h3 => by
    have hi : f.instants E op = [f.now, f.counted] := by rcases ho with rfl | rfl <;> rfl
    rw [hi]
    refine ⟨fun u hu => ?_, fun m hm => ?_⟩
    · have : u = t ∨ u ∈ (op.run E t).trace := by
        rcases hu with hu | hu | hu
        · exact .inl hu
        · exact .inr hu
        · rw [hu]; exact .inr h2
      rcases this with rfl | hu
      · exact .inr (.inr ⟨_, by simp, _, .here h⟩)
      · rcases wrote_flush h.sound (h1 u hu) with hc | hw
        · exact .inl hc
        · exact .inr (.inr ⟨_, by simp, _, .counted h hw⟩)
    · simp only [List.mem_cons, List.not_mem_nil, or_false] at hm
      rcases hm with rfl | rfl
      · exact ⟨t, t, .inl rfl, .here h, t.sub_refl⟩
      · exact ⟨_, t, .inr (.inl h3), .counted h (wrote_wrote t), ⟨Db.less_refl _, Db.less_refl _, Db.less_refl _, Db.less_refl _,
          Db.less_refl _, Db.less_refl _, Db.less_refl _, fun _ => ⟨Db.less_refl _, Db.less_refl _⟩⟩⟩
  cases op with
  | flush => exact flush (.inl rfl) (fun u hu => hu) (flush_final_mem t) (wrote_mem t).2
  | mainFlush =>
    refine flush (.inr rfl) (fun u hu => mainFlush_mem (.inl hu)) ?_ (wrote_mem t).1
    have : (Tree.onMain MainChain.flush t).trace = (Tree.onMain MainChain.flush t).trace.take 5 ++
      [(Tree.onMain MainChain.flush t).final] := rfl
    show (Tree.onMain MainChain.flush t).final ∈ (Tree.onMain MainChain.flush t).trace
    rw [this]; simp
  | derivFlush o =>
    have hopen := sim_open h.mirrors o
    obtain ⟨_, hg⟩ := bears_step h hk hm (.getDerivativeChain o)
    obtain ⟨st, stx⟩ := still_getDeriv E o t
    have hi : f.instants E (.derivFlush o) = [f.now, (f.moved (f.node.stepOver E f.found (.getDerivativeChain o)).2).countedOf o] := rfl
    have hrun : (Op.derivFlush o).run E t = (Tree.getDerivativeChain E o >>= fun _ => Tree.onDeriv o DerivativeChain.flush) t := rfl
    rw [hi]
    cases hn : f.node.openChain E o with
    | none =>
      rw [hn] at hopen
      obtain ⟨e, ho⟩ := hopen
      have hrun : (Op.derivFlush o).run E t = ⟨.err e, t, []⟩ := by rw [hrun, Act.bind_err ho]
      have hgf : ((Op.getDerivativeChain o).run E t).final = t := by show (Tree.getDerivativeChain E o t).final = t; rw [ho]
      rw [hgf] at hg
      refine ⟨fun u hu => ?_, fun m hm => ?_⟩
      · have : u = t := by
          unfold During at hu
          rw [hrun] at hu
          simpa using hu
        subst this
        exact .inr (.inr ⟨_, by simp, _, .here h⟩)
      · simp only [List.mem_cons, List.not_mem_nil, or_false] at hm
        rcases hm with rfl | rfl
        · exact ⟨t, t, .inl rfl, .here h, t.sub_refl⟩
        · have hno : (f.moved (f.node.stepOver E f.found (.getDerivativeChain o)).2).countedOf o =
              (f.moved (f.node.stepOver E f.found (.getDerivativeChain o)).2).now := by
            have hnode : (f.node.stepOver E f.found (.getDerivativeChain o)).2 = f.node := by
              show (f.node.withChain E o _).2 = f.node
              unfold Spec.Node.withChain; rw [hn]
            have hc : f.node.chains o = none := by
              unfold Spec.Node.openChain at hn
              cases hc : f.node.chains o with
              | none => rfl
              | some c => rw [hc] at hn; cases hn
            rw [hnode]
            unfold Spec.Frail.countedOf Spec.Frail.now Spec.Frail.keep
            rw [show (f.moved f.node).node.chains o = none from hc]
          rw [hno]
          exact ⟨t, t, .inl rfl, .here hg, t.sub_refl⟩
    | some n' =>
      rw [hn] at hopen
      obtain ⟨hout, _, c, hc⟩ := hopen
      have hnode : (f.node.stepOver E f.found (.getDerivativeChain o)).2 = n' := by
        show (f.node.withChain E o _).2 = n'
        unfold Spec.Node.withChain; rw [hn]
        show (match n'.chains o with | none => _ | some c => _ : Spec.Reply × Spec.Node).2 = n'
        rw [hc]
      have hc : (f.moved (f.node.stepOver E f.found (.getDerivativeChain o)).2).node.chains o = some c := by
        rw [hnode]; exact hc
      have hg : Bears E (Tree.getDerivativeChain E o t).final (f.moved (f.node.stepOver E f.found (.getDerivativeChain o)).2) := hg
      obtain ⟨tr, hgr, htr⟩ : ∃ tr, Tree.getDerivativeChain E o t = ⟨.ok (), (Tree.getDerivativeChain E o t).final, tr⟩ ∧
          ∀ u ∈ tr, u = (Tree.getDerivativeChain E o t).final := by
        rcases Tree.getDeriv_cases E o t with ⟨_, e⟩ | ⟨_, ⟨out, h1, e⟩ | ⟨b, c, _, _, e⟩⟩
        · exact ⟨_, by rw [e], by simp⟩
        · rw [e] at hout; exact absurd hout (h1 ())
        · exact ⟨_, by rw [e], by rw [e]; simp⟩
      generalize hv : (Tree.getDerivativeChain E o t).final = v at *
      rw [Act.bind_ok hgr] at hrun
      have hvt : v.Less t := by
        refine ⟨⟨fun m hm => ?_, fun m hm => ?_, st.config.symm⟩, fun m hm => ?_, fun m hm => ?_, fun m hm => ?_, fun m hm => ?_, fun m hm => ?_,
          fun n => ?_⟩
        · rw [st.blocks] at hm; exact hm
        · rw [st.refs] at hm; exact hm
        · rw [stx] at hm; exact hm
        · rw [st.summary] at hm; exact hm
        · rw [st.oldSummary] at hm; exact hm
        · rw [st.gas] at hm; exact hm
        · rw [st.oldGas] at hm; exact hm
        · rw [st.files]; exact ⟨Db.less_refl _, Db.less_refl _, rfl⟩
      refine ⟨fun u hu => ?_, fun m hm => ?_⟩
      · have : u = t ∨ u = v ∨ u ∈ (Tree.onDeriv o DerivativeChain.flush v).trace := by
          unfold During at hu
          rw [hrun] at hu
          rcases hu with hu | hu | hu
          · exact .inl hu
          · rcases List.mem_append.mp hu with hu | hu
            · exact .inr (.inl (htr u hu))
            · exact .inr (.inr hu)
          · rw [hu]; exact .inr (.inr (derivFlush_final_mem v o))
        rcases this with rfl | rfl | hu
        · exact .inr (.inr ⟨_, by simp, _, .here h⟩)
        · exact .inr (.inr ⟨_, List.mem_cons_self, _, .now h hvt h.sound.blocks fun n => (h.sound.deriv n).1⟩)
        · rcases wrote_derivFlush hg.sound hu with hc | hw
          · exact .inr (.inl ⟨o, v, rfl, hc, st, stx⟩)
          · exact .inr (.inr ⟨_, List.mem_cons_of_mem _ List.mem_cons_self, v, .countedOf hg o hw hc st.blocks.symm st.files.symm⟩)
      · simp only [List.mem_cons, List.not_mem_nil, or_false] at hm
        rcases hm with rfl | rfl
        · exact ⟨t, t, .inl rfl, .here h, t.sub_refl⟩
        · obtain ⟨w1, w2⟩ := wroteOf_wroteOf v o
          refine ⟨_, v, .inr (.inl ?_), .countedOf hg o w1 hc st.blocks.symm st.files.symm, w2⟩
          rw [hrun]
          exact List.mem_append_right _ (wroteOf_mem v o)
  | emitMain p fo txs ts =>
    by_cases he : f.node.blocks.length % 1000000 = 0
    · have hrun : ((Op.emitMain p fo txs ts).run E t).final = (Tree.emitMain E p fo txs ts t).final ∧
          ((Op.emitMain p fo txs ts).run E t).trace = (Tree.emitMain E p fo txs ts t).trace ∧
          replyOf ((Op.emitMain p fo txs ts).run E t).out = replyOf (Tree.emitMain E p fo txs ts t).out := by
        refine ⟨rfl, rfl, ?_⟩
        show replyOf (Act.void _ t).out = _
        unfold Act.void
        cases (Tree.emitMain E p fo txs ts t).out <;> rfl
      have hr' : (f.step E (.emitMain p fo txs ts)).1 = (f.node.stepOver E f.found (.emitMain p fo txs ts)).1 := rfl
      rcases emit_epoch h hhm p fo txs ts he with ⟨h1, h2, h3⟩ | ⟨h1, ⟨tr, h2, h3⟩, h4⟩
      · have hnd : ¬ ((f.node.stepOver E f.found (.emitMain p fo txs ts)).1 = .done ∧ f.node.blocks.length % 1000000 = 0) := by
          rintro ⟨e, _⟩
          rw [← hr', ← hr, hrun.2.2] at e
          exact h3 e
        have hi : f.instants E (.emitMain p fo txs ts) = [f.now, (f.moved (f.node.stepOver E f.found (.emitMain p fo txs ts)).2).now] := by
          rw [instants_emit, if_neg hnd]
        refine calm ?_ hi ?_
        · rw [step_emit, if_neg hnd]
        · rw [hrun.1, hrun.2.1, h1, h2]; exact ⟨tree_less.refl t, by simp⟩
      · have hd : (f.node.stepOver E f.found (.emitMain p fo txs ts)).1 = .done ∧ f.node.blocks.length % 1000000 = 0 := by
          refine ⟨?_, he⟩
          rw [← hr', ← hr, hrun.2.2]; exact h1
        have hi : f.instants E (.emitMain p fo txs ts) = [f.now, f.counted, (f.aged [] f.node.oldGas).now, (f.aged [] []).now,
            (f.aged f.node.coins []).now, (f.turned (f.node.stepOver E f.found (.emitMain p fo txs ts)).2).now] := by
          rw [instants_emit, if_pos hd]
        have hbt : Bears E (Tree.emitMain E p fo txs ts t).final (f.turned (f.node.stepOver E f.found (.emitMain p fo txs ts)).2) := by
          have : (f.step E (.emitMain p fo txs ts)).2 = f.turned (f.node.stepOver E f.found (.emitMain p fo txs ts)).2 := by
            rw [step_emit, if_pos hd]
          rw [← this]; exact hb
        have aged : ∀ {c g : Spec.Book} (w : Tree), Bears E w (f.aged c g) → w.main = t.main.flushed → w.derivFiles = t.derivFiles →
            Caught E t w (f.aged c g).now w := fun w hw hm hf => by
          refine .now hw (tree_less.refl w) ?_ fun n => ?_
          · rw [hm]; exact List.mem_singleton.mpr rfl
          · rw [hf]; exact (h.sound.deriv n).1
        have a2 := aged { t.flushed with oldSummary := Db.open' KV.empty } (Bears.aged h Books.empty h.mirrors.oldGas rfl) rfl rfl
        have a3 := aged { t.flushed with oldSummary := Db.open' KV.empty, oldGas := Db.open' KV.empty }
          (Bears.aged h Books.empty Books.empty rfl) rfl rfl
        have a4 := aged { t.flushed with oldSummary := Db.open' t.summary.cur, oldGas := Db.open' KV.empty }
          (Bears.aged h h.mirrors.coins Books.empty rfl) rfl rfl
        have hrl := tree_less.trans (rotated_less t) h4
        have a5 : ∀ u : Tree, u.Less (Tree.emitMain E p fo txs ts t).final →
            Caught E t u (f.turned (f.node.stepOver E f.found (.emitMain p fo txs ts)).2).now (Tree.emitMain E p fo txs ts t).final :=
          fun u hu => .now hbt hu (hrl.sub.blocks _ (List.mem_singleton.mpr rfl)) fun n => (hrl.sub.deriv n).1 _ (h.sound.deriv n).1
        have htrace : ((Op.emitMain p fo txs ts).run E t).trace = _ := hrun.2.1.trans h2
        rw [rotate_trace] at htrace
        rw [hi]
        unfold During
        rw [htrace, hrun.1]
        refine ⟨fun u hu => ?_, fun m hm => ?_⟩
        · rcases hu with rfl | hu | rfl
          · exact .inr (.inr ⟨_, by simp, _, .here h⟩)
          · simp only [List.mem_append, List.mem_cons, List.not_mem_nil, or_false] at hu
            rcases hu with (hu | rfl | rfl | rfl | rfl) | rfl | hu
            · rcases wrote_flush h.sound hu with hc | hw
              · exact .inl hc
              · exact .inr (.inr ⟨_, by simp, _, .counted h hw⟩)
            · exact .inr (.inr ⟨_, by simp, _, a2⟩)
            · exact .inr (.inr ⟨_, by simp, _, a3⟩)
            · exact .inr (.inr ⟨_, by simp, _, a4⟩)
            · exact .inr (.inr ⟨_, by simp, _, a5 _ hrl⟩)
            · exact .inr (.inr ⟨_, by simp, _, a5 _ h4⟩)
            · exact .inr (.inr ⟨_, by simp, _, a5 _ (h3 u hu)⟩)
          · exact .inr (.inr ⟨_, by simp, _, a5 _ (tree_less.refl _)⟩)
        · simp only [List.mem_cons, List.not_mem_nil, or_false] at hm
          rcases hm with rfl | rfl | rfl | rfl | rfl | rfl
          · exact ⟨t, t, .inl rfl, .here h, t.sub_refl⟩
          · refine ⟨_, t, .inr (.inl ?_), .counted h (wrote_wrote t), ⟨Db.less_refl _, Db.less_refl _, Db.less_refl _, Db.less_refl _,
              Db.less_refl _, Db.less_refl _, Db.less_refl _, fun _ => ⟨Db.less_refl _, Db.less_refl _⟩⟩⟩
            exact List.mem_append_left _ (List.mem_append_left _ (wrote_mem t).2)
          · exact ⟨_, _, .inr (.inl (List.mem_append_left _ (List.mem_append_right _ (by simp)))), a2, Tree.sub_refl _⟩
          · exact ⟨_, _, .inr (.inl (List.mem_append_left _ (List.mem_append_right _ (by simp)))), a3, Tree.sub_refl _⟩
          · exact ⟨_, _, .inr (.inl (List.mem_append_left _ (List.mem_append_right _ (by simp)))), a4, Tree.sub_refl _⟩
          · exact ⟨_, _, .inr (.inr rfl), a5 _ (tree_less.refl _), Tree.sub_refl _⟩
    · have hnd : ¬ ((f.node.stepOver E f.found (.emitMain p fo txs ts)).1 = .done ∧ f.node.blocks.length % 1000000 = 0) := fun e => he e.2
      refine calm ?_ ?_ ?_
      · rw [step_emit, if_neg hnd]
      · rw [instants_emit, if_neg hnd]
      · have hop : NoConfig t (.emitMain p fo txs ts) := by
          show t.main.chain.height.val % 1000000 ≠ 0
          rw [show t.main.chain.height.val = f.node.blocks.length from h.mirrors.height]; exact he
        refine op_less t _ (by simp) (by simp) (by simp) ?_
        rintro p' fo' txs' ts' e r hrr
        cases e
        obtain ⟨last, h1, h2, _⟩ := emitChecks_ok hrr
        have hh : r.1.height.val = f.node.blocks.length := by
          rcases h.mirrors.last with ⟨b, _, _, h3, h4⟩ | ⟨_, e, h3⟩
          · rw [h3] at h1; cases h1
            have := h2.height
            omega
          · rw [h3] at h1; cases h1
        rw [hh]; exact he
  | _ => exact calm rfl rfl (op_less t _ (by simp) (by simp) (by simp) (by simp))

/-! ## The two are the same -/

theorem short_more {k : Nat} {n : Spec.Node} (h : Short k n) : Short (k + 1) n :=
  ⟨Nat.le_succ_of_le h.1, fun o c hc => Nat.le_succ_of_le (h.2 o c hc)⟩

theorem instants_short {f : Spec.Frail} {k : Nat} (hk : Short k f.node) {op : Op} (hm : m ∈ f.instants E op) :
    Short (k + 1) m.frail.node := by
  have hst := short_stepOver (E := E) (X := f.found) hk op
  have mv : ∀ n' : Spec.Node, Short (k + 1) n' → m ∈ [f.now, (f.moved n').now] → Short (k + 1) m.frail.node := by
    intro n' hn hm
    simp only [List.mem_cons, List.not_mem_nil, or_false] at hm
    rcases hm with rfl | rfl
    · exact short_more hk
    · exact hn
  cases op with
  | flush =>
    have hm : m ∈ [f.now, f.counted] := hm
    simp only [List.mem_cons, List.not_mem_nil, or_false] at hm
    rcases hm with rfl | rfl <;> exact short_more hk
  | mainFlush =>
    have hm : m ∈ [f.now, f.counted] := hm
    simp only [List.mem_cons, List.not_mem_nil, or_false] at hm
    rcases hm with rfl | rfl <;> exact short_more hk
  | derivFlush o =>
    have hm : m ∈ [f.now, (f.moved (f.node.stepOver E f.found (.derivFlush o)).2).countedOf o] := hm
    simp only [List.mem_cons, List.not_mem_nil, or_false] at hm
    rcases hm with rfl | rfl
    · exact short_more hk
    · exact hst
  | emitMain p fo txs ts =>
    rw [instants_emit] at hm
    by_cases hd : (f.node.stepOver E f.found (.emitMain p fo txs ts)).1 = .done ∧ f.node.blocks.length % 1000000 = 0
    · rw [if_pos hd] at hm
      simp only [List.mem_cons, List.not_mem_nil, or_false] at hm
      rcases hm with rfl | rfl | rfl | rfl | rfl | rfl
      · exact short_more hk
      · exact short_more hk
      · exact short_more hk
      · exact short_more hk
      · exact short_more hk
      · exact hst
    · rw [if_neg hd] at hm
      exact mv _ hst hm
  | _ => exact mv _ hst hm

/-- A start on these files. -/
theorem boots_fits {f : Spec.Frail} {l : Spec.Frail.Left E f} {j : Nat} {ks : Address → Option (Hash × Nat)} {d : Disk} {r : Spec.Reply}
    {t' : Tree} {k : Nat} (hb : Boots E d r t') (h : Bears E v f) (hk : Short k f.node) (hf : FitsAt E f l j ks d) :
    r = .done ∧ ∃ f', (f' = f.rebornAt E l j ks ∨ Spec.Frail.Starts E (f.rebornAt E l j ks) f') ∧ Bears E t' f' ∧ Short k f'.node := by
  obtain ⟨ho, h1⟩ := h.rebornAt hf
  have hs := short_rebornAt hk (bears_pos h hk) l j ks
  cases hb with
  | done => exact ⟨by rw [ho]; rfl, _, .inl rfl, h1, hs⟩
  | @again _ d' u t' r hu hc' hb' =>
    have hlt : u.Less (openTree E d).final := by
      rcases hu with hu | rfl
      · exact open_less d u hu
      · exact tree_less.refl _
    obtain ⟨hr, f', h2, h3, h4⟩ := boots_starts hb' h1 hs (hlt.crash hc')
    exact ⟨hr, f', .inr h2, h3, h4⟩

theorem fits_boots {f f' : Spec.Frail} {l : Spec.Frail.Left E f} {j : Nat} {ks : Address → Option (Hash × Nat)} {d : Disk} {k : Nat}
    (h : Bears E v f) (hk : Short k f.node) (hf : FitsAt E f l j ks d)
    (hs : f' = f.rebornAt E l j ks ∨ Spec.Frail.Starts E (f.rebornAt E l j ks) f') :
    ∃ t', Boots E d .done t' ∧ Bears E t' f' ∧ Short k f'.node := by
  obtain ⟨ho, h1⟩ := h.rebornAt hf
  have hsh := short_rebornAt hk (bears_pos h hk) l j ks
  rcases hs with rfl | hs
  · have := Boots.done (E := E) d
    rw [ho] at this
    exact ⟨_, this, h1, hsh⟩
  · obtain ⟨d', t', hc, hb, h2, h3⟩ := starts_boots hs h1 hsh
    exact ⟨t', .again (.inr rfl) hc hb, h2, h3⟩

theorem cut_not_whole {d : Disk} (hc : Crash u d) (hu : u.Cut) : ¬ Whole t d := by
  rintro ⟨⟨h, df, h1, _⟩, _⟩
  obtain ⟨c, h2, h3⟩ := hu
  have := (readConfig_ok_iff d.config).mp ⟨_, h1⟩ c (hc.config.trans h2)
  omega

theorem deriv_readConfig_short {c : Bytes} (h : c.length < 96) (p : Hash) : DerivativeChain.readConfig p (some c) = .err .chainInit := by
  unfold DerivativeChain.readConfig
  by_cases h1 : 32 ≤ c.length
  · by_cases h2 : 64 ≤ c.length
    · simp [h1, h2, show ¬ 96 ≤ c.length by omega]
    · simp [h1, h2]
  · simp [h1]

theorem badOf_not_whole {d : Disk} {op : Op} (hc : Crash u d) (hu : BadOf t op u) : ¬ Whole t d := by
  rintro ⟨_, hw⟩
  obtain ⟨o, v, _, h1, _⟩ := hu
  obtain ⟨c, h2, h3⟩ := h1.cut
  obtain ⟨h, df, g, h4, _⟩ := hw o
  rw [(hc.deriv _).2.2, h2, deriv_readConfig_short h3] at h4
  cases h4

theorem befalls_suffers {t' : Tree} {evs : List Spec.Frail.Incident} {rs : List Spec.Reply} (hh : Befalls E t evs rs t') :
    ∀ {f : Spec.Frail} {k : Nat}, Bears E t f → Short k f.node → k + evs.length < 2 ^ 256 →
    ∃ f', Spec.Frail.Suffers E f evs rs f' ∧ Bears E t' f' ∧ Short (k + evs.length) f'.node := by
  induction hh with
  | nil t => intro f k h hk _; exact ⟨f, .nil f, h, hk⟩
  | @call t t' op evs rs _ ih =>
    intro f k h hk hl
    rw [List.length_cons] at hl ⊢
    obtain ⟨h1, h2⟩ := bears_step h hk (by unfold U256.size; omega) op
    obtain ⟨f', h3, h4, h5⟩ := ih h2 (frail_short hk op) (by omega)
    exact ⟨f', by rw [h1]; exact .call h3, h4, by rw [show k + (evs.length + 1) = k + 1 + evs.length by omega]; exact h5⟩
  | @crash t t₁ t' d r evs rs hc hb _ ih =>
    intro f k h hk hl
    rw [List.length_cons] at hl ⊢
    obtain ⟨rfl, f₁, h1, h2, h3⟩ := boots_starts hb h hk hc
    obtain ⟨f', h4, h5, h6⟩ := ih h2 h3 (by omega)
    exact ⟨f', .crash h1 h4, h5, short_more h6⟩
  | @die t u t₁ t' d r op evs rs hu hc hw hb _ ih =>
    intro f k h hk hl
    rw [List.length_cons] at hl ⊢
    rcases (moments h hk (by unfold U256.size; omega) op).1 u hu with hcut | hbad | ⟨m, hm, v, hv⟩
    · exact absurd hw (cut_not_whole hc hcut)
    · exact absurd hw (badOf_not_whole hc hbad)
    · obtain ⟨l, hl1, hl2⟩ := hv.fits hc hw
      obtain ⟨rfl, f₁, h2, h3, h4⟩ := boots_fits hb hv.bears (instants_short hk hm) hl2
      obtain ⟨f', h5, h6, h7⟩ := ih h3 h4 (by omega)
      exact ⟨f', .die hm hl1 h2 h5, h6, by rw [show k + (evs.length + 1) = k + 1 + evs.length by omega]; exact h7⟩

theorem suffers_befalls {f f' : Spec.Frail} {evs : List Spec.Frail.Incident} {rs : List Spec.Reply}
    (hr : Spec.Frail.Suffers E f evs rs f') : ∀ {t : Tree} {k : Nat}, Bears E t f → Short k f.node → k + evs.length < 2 ^ 256 →
    ∃ t', Befalls E t evs rs t' ∧ Bears E t' f' := by
  induction hr with
  | nil f => intro t k h _ _; exact ⟨t, .nil t, h⟩
  | @call f f' op evs rs _ ih =>
    intro t k h hk hl
    rw [List.length_cons] at hl
    obtain ⟨h1, h2⟩ := bears_step h hk (by unfold U256.size; omega) op
    obtain ⟨t', h3, h4⟩ := ih h2 (frail_short hk op) (by omega)
    exact ⟨t', by rw [← h1]; exact .call h3, h4⟩
  | crash hs _ ih =>
    intro t k h hk hl
    rw [List.length_cons] at hl
    obtain ⟨d, t₁, hc, hb, h2, h3⟩ := starts_boots hs h hk
    obtain ⟨t', h4, h5⟩ := ih h2 h3 (by omega)
    exact ⟨t', .crash hc hb h4, h5⟩
  | @die f f₁ f' op m l evs rs hm hl1 hs _ ih =>
    intro t k h hk hl
    rw [List.length_cons] at hl
    obtain ⟨u, v, hu, hv, hsub⟩ := (moments h hk (by unfold U256.size; omega) op).2 m hm
    obtain ⟨d, hc, hw, hf⟩ := hv.leaves hsub l hl1
    obtain ⟨t₁, hb, h2, h3⟩ := fits_boots hv.bears (instants_short hk hm) hf hs
    obtain ⟨t', h4, h5⟩ := ih h2 h3 (by omega)
    exact ⟨t', .die hu hc hw hb h4, h5⟩

end

/-- C147. Let a new node be called, killed at any moment, also in the middle of writing a configuration file or the
databases, and started again, in any order, and let every death leave whole files. The replies and the answers
afterwards that are possible are those that are possible of the abstract node. Every start succeeds. -/
theorem C147_killed_writing (E : Env) (evs : List Spec.Frail.Incident) (h : evs.length + 1 < 2 ^ 256) (rs : List Spec.Reply)
    (ans : Spec.Query → Spec.Answer) :
    (∃ t, Befalls E (openTree E Disk.empty).final evs rs t ∧ ∀ q, ask E t q = ans q) ↔
    ∃ f, Spec.Frail.Suffers E (Spec.Frail.start E) evs rs f ∧ ∀ q, f.answer E q = ans q := by
  constructor
  · rintro ⟨t, ht, ha⟩
    obtain ⟨f, hf, hb, _⟩ := befalls_suffers ht (bears_start E) (short_start E) (by omega)
    exact ⟨f, hf, fun q => (sim_askOver hb.mirrors q).symm.trans (ha q)⟩
  · rintro ⟨f, hf, ha⟩
    obtain ⟨t, ht, hb⟩ := suffers_befalls hf (bears_start E) (short_start E) (by omega)
    exact ⟨t, ht, fun q => (sim_askOver hb.mirrors q).trans (ha q)⟩

/-! ## What else may be left -/

/-- Of the main chain's blocks some are missing that are counted: the first ones are there, among them all that were
counted before. -/
def Torn (t : Tree) (d : Disk) : Prop :=
  ∃ df, MainChain.readConfig d.config = .ok (t.main.chain.height, df) ∧ ∃ i, i < t.main.chain.height.val ∧
    (∀ h₀ df₀, MainChain.readConfig t.main.chain.config = .ok (h₀, df₀) → h₀.val ≤ i) ∧
    (∀ q : U256, q.val < i → d.blocks.get q.toBE.val = t.main.chain.blocks.get q.toBE.val) ∧
    ∃ q : U256, i ≤ q.val ∧ q.val < t.main.chain.height.val ∧ d.blocks.get q.toBE.val ≠ t.main.chain.blocks.get q.toBE.val

/-- The same of the blocks of a derivative chain. -/
def TornOf (t : Tree) (d : Disk) (o : Address) : Prop :=
  ∃ h df g, DerivativeChain.readConfig (BytesN.fill 32 0) (d.deriv (hexEncode o.val)).config = .ok (h, df, g) ∧ ∃ i, i < h.val ∧
    (∀ h₀ r₀, DerivativeChain.readConfig (BytesN.fill 32 0) (t.derivFiles (hexEncode o.val)).config = .ok (h₀, r₀) → h₀.val ≤ i) ∧
    (∀ q : U256, q.val < i →
      (d.deriv (hexEncode o.val)).blocks.get q.toBE.val = (t.derivFiles (hexEncode o.val)).blocks.get q.toBE.val) ∧
    ∃ q : U256, i ≤ q.val ∧ q.val < h.val ∧
      (d.deriv (hexEncode o.val)).blocks.get q.toBE.val ≠ (t.derivFiles (hexEncode o.val)).blocks.get q.toBE.val

section
variable {E : Env}

theorem boots_refused {d : Disk} {r : Spec.Reply} {t' : Tree} (hb : Boots E d r t') :
    MainChain.readConfig d.config = .err .chainInit → r = .refused := by
  induction hb with
  | done d => intro h; rw [openTree_torn h]; rfl
  | @again d d' u t r hu hc _ ih =>
    intro h
    rw [openTree_torn h] at hu
    have : u = d.boot := by simpa using hu
    subst this
    exact ih (by rw [hc.config]; exact h)

theorem open_files (d : Disk) (n : Bytes) : (openTree E d).final.derivMem = (fun _ => none) ∧
    ((openTree E d).final.derivFiles n).config = (d.deriv n).config := by
  rcases openTree_cases d with h | ⟨h, df, hc, hp⟩ | ⟨df, hc⟩
  · rw [openTree_torn h]; exact ⟨rfl, rfl⟩
  · rw [(openTree_pos (E := E) hc hp).2]; exact ⟨rfl, rfl⟩
  · rw [(openTree_zero (E := E) hc).2]; exact ⟨rfl, rfl⟩

theorem boots_files {d : Disk} {r : Spec.Reply} {t' : Tree} (hb : Boots E d r t') (n : Bytes) :
    t'.derivMem = (fun _ => none) ∧ (t'.derivFiles n).config = (d.deriv n).config := by
  induction hb with
  | done d => exact open_files d n
  | @again d d' u t r hu hc _ ih =>
    have : u.Less (openTree E d).final := by
      rcases hu with hu | rfl
      · exact open_less d u hu
      · exact tree_less.refl _
    exact ⟨ih.1, ih.2.trans ((hc.deriv n).2.2.trans ((this.deriv n).2.2.symm.trans (open_files d n).2))⟩

/-- A derivative chain whose configuration file is not complete is not opened. -/
theorem not_opened {t : Tree} {o : Address} (hm : t.derivMem o = none) {c : Bytes} (hc : (t.derivFiles (hexEncode o.val)).config = some c)
    (hl : c.length < 96) : (Tree.getDerivativeChain E o t).out ≠ .ok () := by
  rcases Tree.getDeriv_cases E o t with ⟨h, _⟩ | ⟨_, ⟨out, h, e⟩ | ⟨b, ch, _, h, _⟩⟩
  · rw [hm] at h; cases h
  · rw [e]; exact h ()
  · unfold DerivativeChain.new at h
    rw [hc, deriv_readConfig_short hl] at h
    cases h

/-- How many blocks are counted at the instants of a call. -/
theorem instants_count {f : Spec.Frail} {op : Op} {m : Spec.Frail.Instant} (hm : m ∈ f.instants E op) :
    m = f.now ∨ m = f.counted ∨ (∃ g : Spec.Frail, m = g.now) ∨ ∃ o n, op = .derivFlush o ∧ m = (f.moved n).countedOf o := by
  have mv : ∀ n' : Spec.Node, m ∈ [f.now, (f.moved n').now] → m = f.now ∨ m = f.counted ∨ (∃ g : Spec.Frail, m = g.now) ∨
      ∃ o n, op = .derivFlush o ∧ m = (f.moved n).countedOf o := by
    intro n' hm
    simp only [List.mem_cons, List.not_mem_nil, or_false] at hm
    rcases hm with rfl | rfl
    · exact .inl rfl
    · exact .inr (.inr (.inl ⟨_, rfl⟩))
  cases op with
  | flush =>
    have hm : m ∈ [f.now, f.counted] := hm
    simp only [List.mem_cons, List.not_mem_nil, or_false] at hm
    rcases hm with h | h
    · exact .inl h
    · exact .inr (.inl h)
  | mainFlush =>
    have hm : m ∈ [f.now, f.counted] := hm
    simp only [List.mem_cons, List.not_mem_nil, or_false] at hm
    rcases hm with h | h
    · exact .inl h
    · exact .inr (.inl h)
  | derivFlush o =>
    have hm : m ∈ [f.now, (f.moved (f.node.stepOver E f.found (.derivFlush o)).2).countedOf o] := hm
    simp only [List.mem_cons, List.not_mem_nil, or_false] at hm
    rcases hm with h | h
    · exact .inl h
    · exact .inr (.inr (.inr ⟨o, _, rfl, h⟩))
  | emitMain p fo txs ts =>
    rw [instants_emit] at hm
    by_cases hd : (f.node.stepOver E f.found (.emitMain p fo txs ts)).1 = .done ∧ f.node.blocks.length % 1000000 = 0
    · rw [if_pos hd] at hm
      simp only [List.mem_cons, List.not_mem_nil, or_false] at hm
      rcases hm with h | h | h | h | h | h
      · exact .inl h
      · exact .inr (.inl h)
      · exact .inr (.inr (.inl ⟨_, h⟩))
      · exact .inr (.inr (.inl ⟨_, h⟩))
      · exact .inr (.inr (.inl ⟨_, h⟩))
      · exact .inr (.inr (.inl ⟨_, h⟩))
    · rw [if_neg hd] at hm
      exact mv _ hm
  | _ => exact mv _ hm

end

/-- C147, the rest. If a death leaves files that are not whole the configuration file is not complete and every later
start is refused, or blocks are missing that the main chain counts, but none that were counted before. If a derivative
chain was being written out the next process does start, but this chain cannot be opened, or blocks of it are missing,
none that were counted before. -/
theorem C147_otherwise (E : Env) (evs : List Spec.Frail.Incident) (h : evs.length + 2 < 2 ^ 256) (rs : List Spec.Reply) (t : Tree)
    (ht : Befalls E (openTree E Disk.empty).final evs rs t) (op : Op) (u : Tree) (hu : During E t op u) (d : Disk) (hc : Crash u d)
    (hw : ¬ Whole t d) :
    (∀ r t', Boots E d r t' → r = .refused) ∨ ((openTree E d).out = .ok () ∧ Torn t d) ∨
    ∃ o, op = .derivFlush o ∧ (openTree E d).out = .ok () ∧
      (TornOf t d o ∨ ∀ r t', Boots E d r t' → (Tree.getDerivativeChain E o t').out ≠ .ok ()) := by
  obtain ⟨f, _, hb, hk⟩ := befalls_suffers ht (bears_start E) (short_start E) (by omega)
  have hlen : ∀ {v : Tree} {m : Spec.Frail.Instant}, Caught E t u m v → (openTree E d).out = .ok () := by
    intro v m hv
    obtain ⟨df, h1⟩ := counts_read (by have := hv.config; rw [← hc.config] at this; exact this) hv.lt.1
    exact (openTree_ok_iff E d).mpr ((readConfig_ok_iff d.config).mp ⟨_, h1⟩)
  rcases (moments hb hk (by unfold U256.size; omega) op).1 u hu with ⟨c, h1, h2⟩ | ⟨o, v, rfl, hv, st, _⟩ | ⟨m, hm, v, hv⟩
  · refine .inl fun r t' hbo => boots_refused hbo ?_
    rcases MainChain.readConfig_cases d.config with ⟨h', df, h3⟩ | h3
    · have := (readConfig_ok_iff d.config).mp ⟨_, h3⟩ c (hc.config.trans h1)
      omega
    · exact h3
  · refine .inr (.inr ⟨o, rfl, ?_, .inr fun r t' hbo => ?_⟩)
    · obtain ⟨df, h1⟩ := counts_read hb.config (Caught.here hb).lt.1
      exact (openTree_ok_iff E d).mpr ((readConfig_ok_iff d.config).mp ⟨(_, df), by
        rw [hc.config, hv.config, st.config]; exact h1⟩)
    · obtain ⟨c, h1, h2⟩ := hv.cut
      obtain ⟨b1, b2⟩ := boots_files hbo (hexEncode o.val)
      exact not_opened (by rw [b1]) (b2.trans ((hc.deriv _).2.2.trans h1)) h2
  · have hopen := hlen hv
    obtain ⟨l, hl⟩ := hv.bears.left (hv.sub.crash hc)
    have hl := hl.toFitsData.uncounting
    obtain ⟨hlt, hlts⟩ := hv.lt
    obtain ⟨df, r1⟩ := counts_read (c := d.config) (by rw [hc.config]; exact hv.config) hlt
    obtain ⟨j, j1, j2, j3⟩ := hv.link
    have hread : ∀ o : Address, ∃ df a, DerivativeChain.readConfig (BytesN.fill 32 0) (d.deriv (hexEncode o.val)).config =
        .ok (⟨((m.countOf o).map (·.2)).getD 0, hlts o⟩, df, a) := fun o =>
      says_read (by rw [(hc.deriv _).2.2]; exact hv.says o) (hlts o) (BytesN.fill 32 0)
    -- the blocks that are there
    have same : ∀ q : U256, q.val < l.blocks → l.blocks ≤ j → d.blocks.get q.toBE.val = t.main.chain.blocks.get q.toBE.val :=
      fun q hq hj => slots_agree hl.blocks j3 (Nat.le_refl _) l.blocks_le.2 hj j2 hq q.lt
    have sameOf : ∀ (o : Address) (q : U256), q.val < l.blocksOf o → l.blocksOf o ≤ ((m.countOf o).map (·.2)).getD 0 →
        (d.deriv (hexEncode o.val)).blocks.get q.toBE.val = (t.derivFiles (hexEncode o.val)).blocks.get q.toBE.val := by
      intro o q hq hle
      obtain ⟨j, j1, j2, j3⟩ := hv.links o
      exact slots_agree (hl.deriv o).1 j3 (Nat.le_refl _) (by rw [List.length_map]; exact (l.blocksOf_le o).2) (by omega) j2 hq q.lt
    -- chains all of whose blocks are there
    have whole : m.count ≤ l.blocks → ∀ q : U256, q.val < m.count → d.blocks.get q.toBE.val = t.main.chain.blocks.get q.toBE.val :=
      fun hle q hq => slots_agree hl.blocks j3 hle l.blocks_le.2 j1 j2 hq q.lt
    have wholeOf : ∀ o : Address, ((m.countOf o).map (·.2)).getD 0 ≤ l.blocksOf o → ∀ q : U256, q.val < ((m.countOf o).map (·.2)).getD 0 →
        (d.deriv (hexEncode o.val)).blocks.get q.toBE.val = (t.derivFiles (hexEncode o.val)).blocks.get q.toBE.val := by
      intro o hle q hq
      obtain ⟨j, j1, j2, j3⟩ := hv.links o
      exact slots_agree (hl.deriv o).1 j3 hle (by rw [List.length_map]; exact (l.blocksOf_le o).2) j1 j2 hq q.lt
    have calm : m.count = m.frail.kept → (∀ o, m.countOf o = m.frail.keptOf o) → False := fun h1 h2 => by
      refine hw ⟨⟨_, df, r1, whole (by rw [h1]; exact l.blocks_le.1)⟩, fun o => ?_⟩
      obtain ⟨df', a, h3⟩ := hread o
      exact ⟨_, df', a, h3, wholeOf o (by rw [h2]; exact (l.blocksOf_le o).1)⟩
    rcases instants_count hm with rfl | rfl | ⟨g, rfl⟩ | ⟨o', n, rfl, rfl⟩
    · exact absurd rfl (fun h1 => calm h1 fun _ => rfl)
    · -- the main chain was being written out
      have hder : ∀ o : Address, ((f.counted.countOf o).map (·.2)).getD 0 ≤ l.blocksOf o := fun o => (l.blocksOf_le o).1
      have hmiss : ∃ q : U256, q.val < f.counted.count ∧ d.blocks.get q.toBE.val ≠ t.main.chain.blocks.get q.toBE.val :=
        Classical.byContradiction fun hno => hw ⟨⟨_, df, r1, fun q hq => Classical.byContradiction fun hne => hno ⟨q, hq, hne⟩⟩, fun o => by
          obtain ⟨df', a, h3⟩ := hread o
          exact ⟨_, df', a, h3, wholeOf o (hder o)⟩⟩
      obtain ⟨q, hq, hne⟩ := hmiss
      have hlt' : l.blocks < f.counted.count := Nat.lt_of_not_le fun hle => hne (whole hle q hq)
      have hh : t.main.chain.height.val = f.counted.count := hb.mirrors.height
      refine .inr (.inl ⟨hopen, df, ?_, l.blocks, by rw [hh]; exact hlt', fun h₀ df₀ h2 => ?_, fun q hq => same q hq (by omega),
        q, Nat.le_of_not_lt fun hlt2 => hne (same q hlt2 (by omega)), by rw [hh]; exact hq, hne⟩)
      · rw [r1]
        congr 2
        exact U256.ext hh.symm
      · obtain ⟨df2, h3⟩ := counts_read hb.config (Caught.here hb).lt.1
        rw [h3] at h2; cases h2
        exact l.blocks_le.1
    · exact absurd rfl (fun h1 => calm h1 fun _ => rfl)
    · -- a derivative chain was being written out
      have hother : ∀ o, o ≠ o' → ((f.moved n).countedOf o').countOf o = f.keptOf o := by
        intro o e
        show ((f.moved n).keep o').keptOf o = f.keptOf o
        unfold Spec.Frail.keep
        split
        · rfl
        · show (if o = o' then _ else _) = _
          rw [if_neg e]; rfl
      have hmiss : ∃ q : U256, q.val < ((((f.moved n).countedOf o').countOf o').map (·.2)).getD 0 ∧
          (d.deriv (hexEncode o'.val)).blocks.get q.toBE.val ≠ (t.derivFiles (hexEncode o'.val)).blocks.get q.toBE.val :=
        Classical.byContradiction fun hno => hw ⟨⟨_, df, r1, whole l.blocks_le.1⟩, fun o => by
          obtain ⟨df', a, h3⟩ := hread o
          refine ⟨_, df', a, h3, ?_⟩
          by_cases e : o = o'
          · subst e
            exact fun q hq => Classical.byContradiction fun hne => hno ⟨q, hq, hne⟩
          · exact wholeOf o (by rw [hother o e]; exact (l.blocksOf_le o).1)⟩
      obtain ⟨q, hq, hne⟩ := hmiss
      have hlt' : l.blocksOf o' < ((((f.moved n).countedOf o').countOf o').map (·.2)).getD 0 :=
        Nat.lt_of_not_le fun hle => hne (wholeOf o' hle q hq)
      obtain ⟨df', a, h1⟩ := hread o'
      refine .inr (.inr ⟨o', rfl, hopen, .inl ⟨_, df', a, h1, l.blocksOf o', hlt', fun h₀ r₀ h2 => ?_,
        fun q hq => sameOf o' q hq (Nat.le_of_lt hlt'), q, Nat.le_of_not_lt fun hlt2 => hne (sameOf o' q hlt2 (Nat.le_of_lt hlt')), hq, hne⟩⟩)
      have hk0 : f.lengthKept o' < U256.size := (Caught.here hb).lt.2 o'
      obtain ⟨df2, a2, h3⟩ := says_read (hb.says o') hk0 (BytesN.fill 32 0)
      rw [h3] at h2; cases h2
      exact (l.blocksOf_le o').1

/-! ## Cases -/

/-- Anna is paid, mines a block, and the process dies while everything is written out. -/
def diesFlushing : List Spec.Frail.Incident :=
  [.call (.addAmount anna.val (U256.ofNat 1000)), .call (.emitMain (someCalls.padN 32) anna [someCalls.padN 32] 1706093000), .die .flush]

theorem flushing_runs (b : Spec.Book) (hb : b ∈ beforeDeath.coins) :
    Spec.Frail.Suffers zeroEnv (Spec.Frail.start zeroEnv) diesFlushing [.done, .done, .done]
      (beforeDeath.rebornAt zeroEnv (remains b hb) 2 beforeDeath.keptOf) := by
  have h1 : ((Spec.Frail.start zeroEnv).step zeroEnv (.addAmount anna.val (U256.ofNat 1000))).1 = .done := by decide +kernel
  have h2 : (((Spec.Frail.start zeroEnv).step zeroEnv (.addAmount anna.val (U256.ofNat 1000))).2.step zeroEnv
    (.emitMain (someCalls.padN 32) anna [someCalls.padN 32] 1706093000)).1 = .done := by decide +kernel
  have h3 : beforeDeath.counted.count = 2 := by decide +kernel
  rw [show [Spec.Reply.done, .done, .done] = [((Spec.Frail.start zeroEnv).step zeroEnv (.addAmount anna.val (U256.ofNat 1000))).1,
    (((Spec.Frail.start zeroEnv).step zeroEnv (.addAmount anna.val (U256.ofNat 1000))).2.step zeroEnv
    (.emitMain (someCalls.padN 32) anna [someCalls.padN 32] 1706093000)).1, .done] by rw [h1, h2]]
  refine .call (.call (.die (m := beforeDeath.counted) (l := remains b hb) (List.mem_cons_of_mem _ List.mem_cons_self) ⟨?_, fun o => ?_⟩
    (.inl ?_) (.nil _)))
  · rw [h3]; exact Nat.le_refl 2
  · exact Nat.le_refl 0
  · rw [h3]; rfl

theorem unpaid_kept : ([] : Spec.Book) ∈ beforeDeath.coins := by decide +kernel

/-- Afterwards the block may be there and the payment not, and the block is not found by its digest. -/
theorem C147_a_case : ∃ t, Befalls zeroEnv (openTree zeroEnv Disk.empty).final diesFlushing [.done, .done, .done] t ∧
    ask zeroEnv t .height = .number 2 ∧ ask zeroEnv t (.amount anna) = .number 0 ∧
    ∃ b, ask zeroEnv t (.byHeight U256.one) = .block (some b) ∧ ask zeroEnv t (.byHash (Block.hash zeroEnv b)) = .block none := by
  obtain ⟨t, ht, ha⟩ := (C147_killed_writing zeroEnv diesFlushing (by decide) [.done, .done, .done] _).mpr
    ⟨_, flushing_runs [] unpaid_kept, fun _ => rfl⟩
  refine ⟨t, ht, ?_, ?_, ?_⟩
  · rw [ha]; decide +kernel
  · rw [ha]; decide +kernel
  · have : ∃ b, (beforeDeath.rebornAt zeroEnv (remains [] unpaid_kept) 2 beforeDeath.keptOf).answer zeroEnv (.byHeight U256.one) = .block (some b) := ⟨_, rfl⟩
    obtain ⟨b, hb'⟩ := this
    exact ⟨b, (ha _).trans hb', (ha _).trans rfl⟩

/-- A new node that dies in the middle of a flush: the file is empty, and it never starts again. -/
theorem C147_cut_case (E : Env) : ∃ u d, During E (openTree E Disk.empty).final .flush u ∧ Crash u d ∧
    ¬ Whole (openTree E Disk.empty).final d ∧ ∀ r t', Boots E d r t' → r = .refused := by
  have hs := (bears_start E).sound
  generalize (openTree E Disk.empty).final = t at *
  have hs' : Sound (t.wrote []) := ⟨hs.blocks, hs.heightReference, hs.transactions, hs.summary, hs.oldSummary, hs.gas, hs.oldGas, hs.deriv⟩
  refine ⟨t.wrote [], (t.wrote []).close, .inr (.inl ?_), hs'.close, cut_not_whole hs'.close (cut_empty t), fun r t' hb => boots_refused hb rfl⟩
  exact List.mem_cons_self

/-- Or the first block is counted but is not there. -/
theorem C147_torn_case (E : Env) : ∃ u d, During E (openTree E Disk.empty).final .flush u ∧ Crash u d ∧
    ¬ Whole (openTree E Disk.empty).final d ∧ Torn (openTree E Disk.empty).final d := by
  have hs := (bears_start E).sound
  have hf := (openTree_fresh E).2
  have hh : (openTree E Disk.empty).final.main.chain.height = U256.one := by rw [hf]; rfl
  have hcf : (openTree E Disk.empty).final.main.chain.config = none := by rw [hf]; rfl
  have hz : KV.empty ∈ (openTree E Disk.empty).final.main.chain.blocks.recov := by
    rw [hf]; exact List.mem_cons_of_mem _ List.mem_cons_self
  have hg : (openTree E Disk.empty).final.main.chain.blocks.get U256.zero.toBE.val ≠ none := by
    rw [hf]
    show KV.get _ _ ≠ none
    simp [bootChain, Db.insert, Db.open', KV.get_insert, Db.commit]
  generalize (openTree E Disk.empty).final = t at *
  have hs' : Sound (t.wrote t.newConfig) := ⟨hs.blocks, hs.heightReference, hs.transactions, hs.summary, hs.oldSummary, hs.gas, hs.oldGas, hs.deriv⟩
  have hc := hs'.close
  have hr : MainChain.readConfig (some t.newConfig) = .ok (t.main.chain.height, t.main.chain.difficulty) := MainChain.readConfig_written _ _
  have h01 : U256.zero.val < t.main.chain.height.val := by rw [hh]; decide
  refine ⟨t.wrote t.newConfig, { (t.wrote t.newConfig).close with blocks := KV.empty }, .inr (.inl (wrote_mem t).2),
    ⟨hz, hc.heightReference, hc.transactions, hc.config, hc.summary, hc.oldSummary, hc.gas, hc.oldGas, hc.deriv⟩, ?_, ?_⟩
  · rintro ⟨⟨h, df, h1, h2⟩, _⟩
    have h1 : MainChain.readConfig (some t.newConfig) = .ok (h, df) := h1
    rw [hr] at h1; cases h1
    exact hg (h2 U256.zero h01).symm
  · refine ⟨_, hr, 0, h01, fun h₀ df₀ h1 => ?_, fun q hq => absurd hq (Nat.not_lt_zero _), U256.zero, Nat.le_refl _, h01, fun e => hg e.symm⟩
    rw [hcf] at h1; cases h1
    exact Nat.le_refl _

end BCT.Props
