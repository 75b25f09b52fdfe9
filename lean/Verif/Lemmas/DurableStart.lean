import Verif.Lemmas.DurableStep
/-!
# What is left of a node that died, and the next process
-/

namespace BCT
open BCT.Props

/-! ## A chain found in files -/

section
variable {E : Env} {bs : List Block} {x : Spec.Found Block} {k i j : Nat}

theorem after_slot (key : Block → Hash × Nat) (hi : k ≤ i) (hl : i ≤ bs.length) (q : Nat) :
    (x.after key bs k i j).slot (bs.take k) q = x.slot (bs.take i) q := by
  unfold Spec.Found.after
  by_cases hq : q < k
  · have h1 : q < (bs.take k).length := by rw [List.length_take]; omega
    have h2 : q < (bs.take i).length := by rw [List.length_take]; omega
    unfold Spec.Found.slot
    rw [if_pos h1, if_pos h2, List.getElem?_take_of_lt hq, List.getElem?_take_of_lt (by omega)]
  · have h1 : ¬ q < (bs.take k).length := by rw [List.length_take]; omega
    conv => lhs; unfold Spec.Found.slot
    rw [if_neg h1]
    rfl

theorem after_indexed (key : Block → Hash × Nat) : (x.after key bs k i j).indexed key (bs.take k) = x.indexed key (bs.take j) := by
  conv => lhs; unfold Spec.Found.indexed
  have h1 : (x.after key bs k i j).count = k := rfl
  have h2 : (x.after key bs k i j).index = x.indexed key (bs.take j) := rfl
  have h3 : (bs.take k).drop k = [] := List.drop_eq_nil_of_le (by rw [List.length_take]; omega)
  rw [h1, h2, h3]
  rfl

theorem slot_height (hh : ∀ (i : Nat) (h : i < bs.length), bs[i].info.height.val = i)
    (hg : ∀ q b, x.ghosts q = some b → b.info.height.val = q) (i q : Nat) (b : Block) (h : x.slot (bs.take i) q = some b) :
    b.info.height.val = q := by
  unfold Spec.Found.slot at h
  split at h
  · rename_i hq
    rw [List.length_take] at hq
    rw [List.getElem?_take_of_lt (by omega)] at h
    obtain ⟨h1, h2⟩ := List.getElem?_eq_some_iff.mp h
    rw [← h2]; exact hh q h1
  · exact hg q b h

/-- The files of a chain, and how many blocks it has. -/
theorem found_chain (hh : ∀ (i : Nat) (h : i < bs.length), bs[i].info.height.val = i)
    (hg : ∀ q b, x.ghosts q = some b → b.info.height.val = q) (hi : k ≤ i ∧ i ≤ bs.length) {bl rf : KV}
    (h1 : Slots bl (x.slot (bs.take i))) (h2 : Indexed rf (x.indexed (Spec.mainKey E) (bs.take j))) {h : U256}
    (hv : h.val = k) (d : Hash) (cf : Option Bytes) :
    Chain.Is E ⟨Db.open' bl, Db.open' rf, h, d, cf⟩ (bs.take k) (x.after (Spec.mainKey E) bs k i j) ∧
    ChainLog E (Db.open' bl) (Db.open' rf) (bs.take k) (x.after (Spec.mainKey E) bs k i j) k := by
  have hk : (bs.take k).length = k := by rw [List.length_take]; omega
  have hs : Slots bl ((x.after (Spec.mainKey E) bs k i j).slot (bs.take k)) := h1.congr (after_slot _ hi.1 hi.2)
  have hx : Indexed rf ((x.after (Spec.mainKey E) bs k i j).indexed (Spec.mainKey E) (bs.take k)) := by
    rw [after_indexed]; exact h2
  refine ⟨⟨hk.trans hv.symm, fun q hq => ?_, hs, hx, fun q b hb => slot_height hh hg i q b hb, Nat.le_of_eq hk.symm⟩, ?_⟩
  · rw [List.getElem_take]
    exact hh q (by rw [List.length_take] at hq; omega)
  · have l1 := Log.single (P := fun m bs' => Slots m ((x.after (Spec.mainKey E) bs k i j).slot bs')) (d := Db.open' bl) (m := bl)
      (l := bs.take k) rfl hs
    have l2 := Log.single (P := fun m bs' => Indexed m ((x.after (Spec.mainKey E) bs k i j).indexed (Spec.mainKey E) bs'))
      (d := Db.open' rf) (m := rf) (l := bs.take k) rfl hx
    rw [hk] at l1 l2
    exact ⟨Nat.le_refl _, l1, l2⟩

end

theorem up_after (E : Env) (x : Spec.Found DerivativeBlock) (ds : List DerivativeBlock) (k i j : Nat) :
    Found.up (x.after (Spec.derivKey E) ds k i j) =
      (Found.up x).after (Spec.mainKey E) (ds.map Block.derivative) k i j := by
  unfold Spec.Found.after
  have h1 : (fun q => (x.slot (ds.take i) q).map Block.derivative) = (Found.up x).slot ((ds.map Block.derivative).take i) := by
    funext q
    rw [← List.map_take, Found.slot_up]
  have h2 : x.indexed (Spec.derivKey E) (ds.take j) = (Found.up x).indexed (Spec.mainKey E) ((ds.map Block.derivative).take j) := by
    rw [← List.map_take, Found.indexed_up]
  show Spec.Found.mk (fun q => (x.slot (ds.take i) q).map Block.derivative) (x.indexed (Spec.derivKey E) (ds.take j)) k = _
  rw [h1, h2]

/-! ## What is left -/

/-- The files of a node that died are these, but for the configuration files. -/
structure FitsData (E : Env) (f : Spec.Frail) (l : Spec.Frail.Left E f) (d : Disk) : Prop where
  blocks : Slots d.blocks (f.found.main.slot (f.node.blocks.take l.blocks))
  refs : Indexed d.heightReference (f.found.main.indexed (Spec.mainKey E) (f.node.blocks.take l.index))
  txs : Stores d.transactions (f.node.txs.drop (f.node.txs.length - l.txs))
  coins : Books l.coins d.summary
  gas : Books l.gas d.gas
  oldCoins : Books l.oldCoins d.oldSummary
  oldGas : Books l.oldGas d.oldGas
  deriv : ∀ o : Address,
    Slots (d.deriv (hexEncode o.val)).blocks
      ((Found.up (f.found.chains o)).slot (((f.node.blocksOf o).map Block.derivative).take (l.blocksOf o))) ∧
    Indexed (d.deriv (hexEncode o.val)).heightReference
      ((Found.up (f.found.chains o)).indexed (Spec.mainKey E) (((f.node.blocksOf o).map Block.derivative).take (l.indexOf o)))

/-- The files of a node that died are these, and the configuration files count so many blocks. -/
structure FitsAt (E : Env) (f : Spec.Frail) (l : Spec.Frail.Left E f) (k : Nat) (ks : Address → Option (Hash × Nat)) (d : Disk) : Prop
    extends FitsData E f l d where
  config : Counts d.config k
  says : ∀ o : Address, Says (d.deriv (hexEncode o.val)).config (ks o)
  count : k ≤ l.blocks
  counts : ∀ o, ((ks o).map (·.2)).getD 0 ≤ l.blocksOf o

/-- The files of a node that died are these. -/
def Fits (E : Env) (f : Spec.Frail) (l : Spec.Frail.Left E f) (d : Disk) : Prop := FitsAt E f l f.kept f.keptOf d

theorem reverse_take_reverse {α : Type} (l : List α) (j : Nat) (_h : j ≤ l.length) :
    (l.reverse.take j).reverse = l.drop (l.length - j) := by
  rw [List.take_reverse, List.reverse_reverse]

section
variable {E : Env} {t : Tree} {f : Spec.Frail}

/-- Whatever a crash leaves, the abstract node could have left. -/
theorem Bears.left (h : Bears E t f) {d : Disk} (hc : Crash t d) : ∃ l : Spec.Frail.Left E f, Fits E f l d := by
  obtain ⟨i, hi, h1⟩ := h.main.blocks.sound _ hc.blocks
  obtain ⟨j, hj, h2⟩ := h.main.refs.sound _ hc.heightReference
  obtain ⟨q, hq, h3⟩ := h.txs.sound _ hc.transactions
  rw [List.length_reverse] at hq
  rw [reverse_take_reverse _ _ hq.2] at h3
  obtain ⟨b1, m1, c1⟩ := h.coins.sound _ hc.summary
  obtain ⟨b2, m2, c2⟩ := h.gas.sound _ hc.gas
  obtain ⟨b3, m3, c3⟩ := h.oldCoins.sound _ hc.oldSummary
  obtain ⟨b4, m4, c4⟩ := h.oldGas.sound _ hc.oldGas
  have hb : ∀ o, ∃ i, (f.lengthKept o ≤ i ∧ i ≤ (f.node.blocksOf o).length) ∧ Slots (d.deriv (hexEncode o.val)).blocks
      ((Found.up (f.found.chains o)).slot (((f.node.blocksOf o).map Block.derivative).take i)) := fun o => by
    obtain ⟨i, hi, h1⟩ := (h.deriv o).blocks.sound _ (hc.deriv (hexEncode o.val)).1
    rw [List.length_map] at hi
    exact ⟨i, hi, h1⟩
  have hr : ∀ o, ∃ i, (f.lengthKept o ≤ i ∧ i ≤ (f.node.blocksOf o).length) ∧ Indexed (d.deriv (hexEncode o.val)).heightReference
      ((Found.up (f.found.chains o)).indexed (Spec.mainKey E) (((f.node.blocksOf o).map Block.derivative).take i)) := fun o => by
    obtain ⟨i, hi, h1⟩ := (h.deriv o).refs.sound _ (hc.deriv (hexEncode o.val)).2.1
    rw [List.length_map] at hi
    exact ⟨i, hi, h1⟩
  obtain ⟨bo, hb⟩ := Classical.axiomOfChoice hb
  obtain ⟨ro, hr⟩ := Classical.axiomOfChoice hr
  exact ⟨⟨i, j, hi, hj, q, hq, b1, m1, b2, m2, b3, m3, b4, m4, bo, ro, fun o => (hb o).1, fun o => (hr o).1⟩, ⟨h1, h2, h3, c1, c2, c3, c4, fun o => ⟨(hb o).2, (hr o).2⟩⟩, by rw [hc.config]; exact h.config,
    fun o => by rw [(hc.deriv _).2.2]; exact h.says o, hi.1, fun o => (hb o).1.1⟩

/-- Whatever the abstract node can leave, a crash can leave. -/
theorem Bears.leaves (h : Bears E t f) (l : Spec.Frail.Left E f) : ∃ d : Disk, Crash t d ∧ Fits E f l d := by
  obtain ⟨m1, r1, p1⟩ := h.main.blocks.full l.blocks l.blocks_le
  obtain ⟨m2, r2, p2⟩ := h.main.refs.full l.index l.index_le
  obtain ⟨m3, r3, p3⟩ := h.txs.full l.txs (by rw [List.length_reverse]; exact l.txs_le)
  rw [reverse_take_reverse _ _ l.txs_le.2] at p3
  obtain ⟨m4, r4, p4⟩ := h.coins.full _ l.coins_mem
  obtain ⟨m5, r5, p5⟩ := h.gas.full _ l.gas_mem
  obtain ⟨m6, r6, p6⟩ := h.oldCoins.full _ l.oldCoins_mem
  obtain ⟨m7, r7, p7⟩ := h.oldGas.full _ l.oldGas_mem
  have hd : ∀ q : Bytes, ∃ dd : DerivDisk, (dd.blocks ∈ (t.derivFiles q).blocks.recov ∧
      dd.heightReference ∈ (t.derivFiles q).heightReference.recov ∧ dd.config = (t.derivFiles q).config) ∧
      ∀ o : Address, hexEncode o.val = q →
        Slots dd.blocks ((Found.up (f.found.chains o)).slot (((f.node.blocksOf o).map Block.derivative).take (l.blocksOf o))) ∧
        Indexed dd.heightReference
          ((Found.up (f.found.chains o)).indexed (Spec.mainKey E) (((f.node.blocksOf o).map Block.derivative).take (l.indexOf o))) := by
    intro q
    by_cases hq : ∃ o : Address, hexEncode o.val = q
    · obtain ⟨o, rfl⟩ := hq
      obtain ⟨m8, r8, p8⟩ := (h.deriv o).blocks.full (l.blocksOf o) (by rw [List.length_map]; exact l.blocksOf_le o)
      obtain ⟨m9, r9, p9⟩ := (h.deriv o).refs.full (l.indexOf o) (by rw [List.length_map]; exact l.indexOf_le o)
      refine ⟨⟨m8, m9, (t.derivFiles (hexEncode o.val)).config⟩, ⟨r8, r9, rfl⟩, fun o' ho' => ?_⟩
      rw [hexEncode_address ho']
      exact ⟨p8, p9⟩
    · exact ⟨⟨_, _, _⟩, ⟨(h.sound.deriv q).1, (h.sound.deriv q).2, rfl⟩, fun o ho => absurd ⟨o, ho⟩ hq⟩
  obtain ⟨dd, hd⟩ := Classical.axiomOfChoice hd
  refine ⟨⟨m1, m2, m3, t.main.chain.config, m4, m6, m5, m7, dd⟩, ⟨r1, r2, r3, rfl, r4, r6, r5, r7, fun q => (hd q).1⟩,
    ⟨p1, p2, p3, p4, p5, p6, p7, fun o => (hd _).2 o rfl⟩, h.config, fun o => ?_, l.blocks_le.1, fun o => (l.blocksOf_le o).1⟩
  rw [(hd _).1.2.2]
  exact h.says o

/-! ## The next process -/

theorem Books.seed {b : Spec.Book} {d : Db} (h : Books b d.cur) :
    Books (b.put Spec.root.val Spec.emission) (d.insert ROOT_PUBLIC_ADDRESS.val (Ledger.encode COINS_PER_CYCLE)).cur :=
  h.insert ROOT_PUBLIC_ADDRESS.val COINS_PER_CYCLE

/-- The parts of the next process's state that do not depend on how the main chain is found. -/
theorem Bears.rebornAt (h : Bears E t f) {l : Spec.Frail.Left E f} {k : Nat} {ks : Address → Option (Hash × Nat)} {d : Disk}
    (hf : FitsAt E f l k ks d) :
    (openTree E d).out = .ok () ∧ Bears E (openTree E d).final (f.rebornAt E l k ks) := by
  -- the main chain
  obtain ⟨c, height, hout, hfin, hcf, hhv, hsum, his, hlog, hfirst⟩ : ∃ (c : Chain) (height : U256),
      (openTree E d).out = .ok () ∧
      (openTree E d).final = { d.boot with main := { d.boot.main with chain := c }, summary := seedSummary height d.boot.summary } ∧
      c.config = d.config ∧ height.val = (f.rebornAt E l k ks).node.blocks.length ∧ (c.blocks.Sound ∧ c.heightReference.Sound) ∧
      Chain.Is E c (f.rebornAt E l k ks).node.blocks (f.rebornAt E l k ks).found.main ∧
      ChainLog E c.blocks c.heightReference (f.rebornAt E l k ks).node.blocks (f.rebornAt E l k ks).found.main k ∧
      ∃ bs, (f.rebornAt E l k ks).node.blocks = genesis E :: bs := by
    have base := fun (h' : U256) (hv : h'.val = k) (df : Hash) => found_chain (E := E) (j := l.index) h.mirrors.main.heights
      h.mirrors.main.ghosts ⟨hf.count, l.blocks_le.2⟩ hf.blocks hf.refs hv df d.config
    rcases hf.config with ⟨h0, hc⟩ | ⟨h0, df, hc⟩
    · have hz := openTree_zero (E := E) (d := d) (df := BEGINNING_DIFFICULTY) (by rw [hc]; rfl)
      have hb : (f.rebornAt E l k ks).node.blocks = [genesis E] := by
        show (if k = 0 then [Spec.firstBlock E] else _) = _
        rw [if_pos h0, firstBlock_eq]
      have ht : f.node.blocks.take k = [] := by rw [h0]; rfl
      obtain ⟨b1, b2⟩ := base U256.zero (by rw [h0]; rfl) BEGINNING_DIFFICULTY
      rw [ht] at b1 b2
      have b3 := b1.add (b := genesis E) rfl zero_add_one_lt
      rw [hb]
      refine ⟨bootChain E (Db.open' d.blocks) (Db.open' d.heightReference) BEGINNING_DIFFICULTY d.config, U256.one, hz.1, hz.2, rfl, rfl,
        ⟨Db.sound_insert _ _ _, Db.sound_insert _ _ _⟩, b3, ⟨b2.count, ?_, ?_⟩, [], rfl⟩
      · exact b2.blocks.next (Db.next_insert _ _ _) (Db.sound_open _) (.inr ⟨genesis E, rfl⟩) b3.slots
      · exact b2.refs.next (Db.next_insert _ _ _) (Db.sound_open _) (.inr ⟨genesis E, rfl⟩) b3.refs
    · have hlt : k < U256.size := by
        have h1 := hf.count
        have h2 := l.blocks_le.2
        have h3 := h.mirrors.height
        have h4 := t.main.chain.height.lt
        omega
      have hrc : MainChain.readConfig d.config = .ok (⟨k, hlt⟩, df) := by
        rw [hc]; exact MainChain.readConfig_written ⟨k, hlt⟩ df
      have hp := openTree_pos (E := E) hrc (by show k ≠ 0; omega)
      have hb : (f.rebornAt E l k ks).node.blocks = f.node.blocks.take k := by
        show (if k = 0 then [Spec.firstBlock E] else _) = _
        rw [if_neg (by omega)]
      obtain ⟨b1, b2⟩ := base ⟨k, hlt⟩ rfl df
      rw [hb]
      refine ⟨_, ⟨k, hlt⟩, hp.1, hp.2, rfl, ?_, ⟨Db.sound_open _, Db.sound_open _⟩, b1, b2, ?_⟩
      · have := hf.count
        have := l.blocks_le.2
        rw [List.length_take]; show k = _; omega
      · obtain ⟨bs, e⟩ := h.mirrors.first
        rw [e]
        obtain ⟨k', hk⟩ : ∃ k', k = k' + 1 := ⟨k - 1, by omega⟩
        rw [hk]
        exact ⟨_, rfl⟩
  -- the coins
  have hone : (height = U256.one) ↔ (f.rebornAt E l k ks).node.blocks.length = 1 := by
    rw [← hhv]
    constructor
    · intro e; rw [e]; rfl
    · intro e; exact U256.ext e
  have hcoins : Books (f.rebornAt E l k ks).node.coins (seedSummary height d.boot.summary).cur ∧
      TableLog (f.rebornAt E l k ks).coins (seedSummary height d.boot.summary) ∧ (seedSummary height d.boot.summary).Sound := by
    have e1 : (f.rebornAt E l k ks).coins = if (f.rebornAt E l k ks).node.blocks.length = 1 then
      [l.coins.put Spec.root.val Spec.emission, l.coins] else [l.coins] := rfl
    have e2 : (f.rebornAt E l k ks).node.coins = (f.rebornAt E l k ks).coins.headD [] := rfl
    have s1 : TableLog [l.coins] d.boot.summary := TableLog.single (m := d.summary) rfl hf.coins
    rw [e2, e1]
    unfold seedSummary
    by_cases h1 : height = U256.one
    · rw [if_pos h1, if_pos (hone.mp h1)]
      exact ⟨Books.seed hf.coins, s1.next (Db.next_insert _ _ _) (Db.sound_open _) (Books.seed hf.coins), Db.sound_insert _ _ _⟩
    · rw [if_neg h1, if_neg (fun e => h1 (hone.mpr e))]
      exact ⟨hf.coins, s1, Db.sound_open _⟩
  -- the derivative chains
  have hder : ∀ o : Address, Dormant E ⟨Db.open' (d.deriv (hexEncode o.val)).blocks, Db.open' (d.deriv (hexEncode o.val)).heightReference,
        (d.deriv (hexEncode o.val)).config⟩ ((f.rebornAt E l k ks).node.saved o) ((f.rebornAt E l k ks).found.chains o) ∧
      ChainLog E (Db.open' (d.deriv (hexEncode o.val)).blocks) (Db.open' (d.deriv (hexEncode o.val)).heightReference)
        (((f.rebornAt E l k ks).node.blocksOf o).map Block.derivative) (Found.up ((f.rebornAt E l k ks).found.chains o)) ((f.rebornAt E l k ks).lengthKept o) := by
    intro o
    obtain ⟨ch, _, _, hi⟩ := h.mirrors.owner o
    obtain ⟨d1, d2⟩ := hf.deriv o
    have hup : Found.up ((f.rebornAt E l k ks).found.chains o) = (Found.up (f.found.chains o)).after (Spec.mainKey E)
        ((f.node.blocksOf o).map Block.derivative) (((ks o).map (·.2)).getD 0) (l.blocksOf o) (l.indexOf o) := up_after E _ _ _ _ _
    have hble : ((ks o).map (·.2)).getD 0 ≤ l.blocksOf o ∧ l.blocksOf o ≤ ((f.node.blocksOf o).map Block.derivative).length := by
      rw [List.length_map]; exact ⟨hf.counts o, (l.blocksOf_le o).2⟩
    have base := fun (h' : U256) (hv : h'.val = ((ks o).map (·.2)).getD 0) (df : Hash) => found_chain (E := E) (j := l.indexOf o) hi.heights
      hi.ghosts hble d1 d2 hv df (d.deriv (hexEncode o.val)).config
    have hbo : (f.rebornAt E l k ks).node.blocksOf o = (f.node.blocksOf o).take (((ks o).map (·.2)).getD 0) := by
      show (((ks o).map (fun c => (c.1, (f.node.blocksOf o).take c.2))).map (·.2)).getD [] = _
      cases ks o <;> rfl
    have hlk : (f.rebornAt E l k ks).lengthKept o = ((ks o).map (·.2)).getD 0 := rfl
    have hlt : ((ks o).map (·.2)).getD 0 < U256.size := by
      have h1 := hble
      have h2 := hi.len
      have h3 := ch.height.lt
      omega
    refine ⟨⟨fun _ hm => List.mem_singleton.mp hm, fun _ hm => List.mem_singleton.mp hm, fun p => ?_⟩, ?_⟩
    · have hs := hf.says o
      rw [hup]
      show ∃ ch, DerivativeChain.new p (Db.open' (d.deriv (hexEncode o.val)).blocks)
        (Db.open' (d.deriv (hexEncode o.val)).heightReference) (d.deriv (hexEncode o.val)).config = .ok ch ∧ _
      have hsv : (f.rebornAt E l k ks).node.saved o = (ks o).map (fun c => (c.1, (f.node.blocksOf o).take c.2)) := rfl
      rw [hsv]
      cases hk : ks o with
      | none =>
        rw [hk] at hs
        have h0 : ((ks o).map (·.2)).getD 0 = 0 := by rw [hk]; rfl
        have := (base U256.zero (by rw [h0]; rfl) BEGINNING_DIFFICULTY).1
        have hcf : (d.deriv (hexEncode o.val)).config = none := hs
        rw [hcf] at this ⊢
        refine ⟨_, rfl, rfl, ?_⟩
        rw [h0] at this
        exact this
      | some g =>
        rw [hk] at hs
        obtain ⟨df, hs⟩ := hs
        have hg : ((ks o).map (·.2)).getD 0 = g.2 := by rw [hk]; rfl
        have hgl : g.2 < U256.size := by rw [← hg]; exact hlt
        have hrc := DerivativeChain.readConfig_written p ⟨g.2, hgl⟩ df g.1
        have := (base ⟨g.2, hgl⟩ hg.symm df).1
        rw [hs] at this ⊢
        refine ⟨_, by unfold DerivativeChain.new; rw [show beBytes 32 g.2 = (⟨g.2, hgl⟩ : U256).toBE.val from rfl, hrc]; rfl, rfl, ?_⟩
        rw [hg] at this
        show Chain.Is E _ (((f.node.blocksOf o).take g.2).map Block.derivative) _
        rw [List.map_take]
        exact this
    · rw [hbo, hup, hlk, List.map_take]
      exact (base ⟨((ks o).map (·.2)).getD 0, hlt⟩ rfl BEGINNING_DIFFICULTY).2
  refine ⟨hout, ?_⟩
  rw [hfin]
  exact
    { mirrors := ⟨hfirst, his, fun q => hf.txs q, hcoins.1, hf.gas, hf.oldCoins, hf.oldGas, fun o _ => ⟨rfl, (hder o).1⟩,
        fun o c hc => by cases hc⟩
      sound := ⟨hsum.1, hsum.2, Db.sound_open _, hcoins.2.2, Db.sound_open _, Db.sound_open _, Db.sound_open _,
        fun _ => ⟨Db.sound_open _, Db.sound_open _⟩⟩
      main := hlog
      config := by show Counts c.config k; rw [hcf]; exact hf.config
      txs := by
        have := Log.single (P := fun m l => Stores m l.reverse) (d := Db.open' d.transactions)
          (l := (f.rebornAt E l k ks).node.txs.reverse) (m := d.transactions) rfl (by rw [List.reverse_reverse]; exact hf.txs)
        rw [List.length_reverse] at this
        exact this
      coins := hcoins.2.1
      gas := TableLog.single (m := d.gas) rfl hf.gas
      deriv := fun o => (hder o).2
      says := hf.says
      oldCoins := TableLog.single (m := d.oldSummary) rfl hf.oldCoins
      oldGas := TableLog.single (m := d.oldGas) rfl hf.oldGas }

/-- The next process, after a death between two calls. -/
theorem Bears.reborn (h : Bears E t f) {l : Spec.Frail.Left E f} {d : Disk} (hf : Fits E f l d) :
    (openTree E d).out = .ok () ∧ Bears E (openTree E d).final (f.reborn E l) := h.rebornAt hf

end

end BCT
