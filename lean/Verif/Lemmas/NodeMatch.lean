import Verif.Spec.Frail
import Verif.Lemmas.NodeBook
import Verif.Lemmas.EmitDeriv
import Verif.Lemmas.Send
import Verif.Props.Ledger
/-!
# When a node is in a state of the abstract node
-/

namespace BCT
open BCT.Props

/-- The database holds these blocks by their heights, and nothing else. -/
structure Slots (m : KV) (f : Nat → Option Block) : Prop where
  at' : ∀ q, q < U256.size → m.get (beBytes 32 q) = (f q).map Block.dump
  keys : ∀ k v, m.get k = some v → k.length = 32

/-- The database is this index, the newest entry for a digest first. -/
structure Indexed (m : KV) (ix : List (Hash × Nat)) : Prop where
  at' : ∀ h : Hash, m.get h.val = ((ix.find? (fun e => e.1 = h)).map (·.2)).map (beBytes 32)
  keys : ∀ k v, m.get k = some v → k.length = 32
  small : ∀ e ∈ ix, e.2 < U256.size

theorem Slots.insert {m : KV} {f : Nat → Option Block} (h : Slots m f) {a : U256} (b : Block) :
    Slots (m.insert a.toBE.val b.dump) (fun q => if q = a.val then some b else f q) := by
  refine ⟨fun q hq => ?_, fun k v hk => ?_⟩
  · rw [KV.get_insert]
    have ha : a.toBE.val = beBytes 32 a.val := rfl
    by_cases hq' : q = a.val
    · rw [if_pos (by rw [ha, hq'])]
      simp only [hq', if_true]; rfl
    · rw [if_neg (fun e => hq' (beBytes_inj (k := 32) a.lt hq (ha.symm.trans e)).symm)]
      simp only [hq', if_false]
      exact h.at' q hq
  · rw [KV.get_insert] at hk
    split at hk
    · rename_i e; rw [← e]; exact a.toBE.property
    · exact h.keys k v hk

theorem Indexed.insert {m : KV} {ix : List (Hash × Nat)} (h : Indexed m ix) (d : Hash) (a : U256) :
    Indexed (m.insert d.val a.toBE.val) ((d, a.val) :: ix) := by
  refine ⟨fun q => ?_, fun k v hk => ?_, fun e he => ?_⟩
  · rw [KV.get_insert, List.find?_cons]
    by_cases hq : d = q
    · subst hq; simp [U256.toBE]
    · have h1 : ¬ d.val = q.val := fun e => hq (Subtype.ext e)
      simp only [h1, if_false, hq, decide_false]
      exact h.at' q
  · rw [KV.get_insert] at hk
    split at hk
    · rename_i e; rw [← e]; exact d.property
    · exact h.keys k v hk
  · rcases List.mem_cons.mp he with rfl | he
    · exact a.lt
    · exact h.small e he

theorem Slots.congr {m : KV} {f g : Nat → Option Block} (h : Slots m f) (hg : ∀ q, g q = f q) : Slots m g :=
  ⟨fun q hq => by rw [hg]; exact h.at' q hq, h.keys⟩

theorem slots_empty : Slots KV.empty (fun _ => none) := ⟨fun _ _ => rfl, fun _ _ h => (by cases h)⟩

theorem indexed_empty : Indexed KV.empty [] := ⟨fun _ => rfl, fun _ _ h => (by cases h), fun _ h => (List.not_mem_nil h).elim⟩

/-- The chain has the blocks, and its files hold besides them what was found. -/
structure Chain.Is (E : Env) (c : Chain) (bs : List Block) (x : Spec.Found Block) : Prop where
  len : bs.length = c.height.val
  heights : ∀ (i : Nat) (h : i < bs.length), bs[i].info.height.val = i
  slots : Slots c.blocks.cur (x.slot bs)
  refs : Indexed c.heightReference.cur (x.indexed (Spec.mainKey E) bs)
  ghosts : ∀ q b, x.ghosts q = some b → b.info.height.val = q
  count : x.count ≤ bs.length

theorem Found.indexed_append {β : Type} {key : β → Hash × Nat} {x : Spec.Found β} {bs : List β} (h : x.count ≤ bs.length) (b : β) :
    x.indexed key (bs ++ [b]) = key b :: x.indexed key bs := by
  unfold Spec.Found.indexed
  rw [List.drop_append_of_le_length h, List.map_append, List.reverse_append]
  rfl

theorem Found.slot_append {β : Type} (x : Spec.Found β) (bs : List β) (b : β) (q : Nat) :
    x.slot (bs ++ [b]) q = if q = bs.length then some b else x.slot bs q := by
  unfold Spec.Found.slot
  rw [List.length_append, List.length_singleton]
  rcases Nat.lt_trichotomy q bs.length with h | h | h
  · rw [if_pos (by omega), if_neg (by omega), if_pos h, List.getElem?_append_left h]
  · rw [if_pos (by omega), if_pos h, h, List.getElem?_append_right (Nat.le_refl _)]; simp
  · rw [if_neg (by omega), if_neg (by omega), if_neg (by omega)]

namespace Chain.Is
variable {E : Env} {c : Chain} {bs : List Block} {x : Spec.Found Block}

theorem same {c' : Chain} (h : Chain.Is E c bs x) (hs : Chain.Same c c') : Chain.Is E c' bs x :=
  ⟨by rw [hs.2.2]; exact h.len, h.heights, by rw [hs.1]; exact h.slots, by rw [hs.2.1]; exact h.refs, h.ghosts, h.count⟩

theorem add {b : Block} (h : Chain.Is E c bs x) (hb : b.info.height = c.height) (hm : c.height.val + 1 < U256.size) :
    Chain.Is E (c.put3 E b.dump ⟨c.height.val + 1, hm⟩) (bs ++ [b]) x := by
  have hl := h.len
  refine ⟨by simp [Chain.put3, hl], fun i hi => ?_, ?_, ?_, h.ghosts,
    by have := h.count; rw [List.length_append]; omega⟩
  · by_cases hlt : i < bs.length
    · rw [List.getElem_append_left hlt]; exact h.heights i hlt
    · rw [List.getElem_append_right (by omega)]
      simp only [List.getElem_singleton, hb]
      simp at hi; omega
  · exact (h.slots.insert (a := c.height) b).congr fun q => by rw [Found.slot_append, hl]
  · rw [Found.indexed_append h.count]
    have : Spec.mainKey E b = (E.sha256 b.dump, c.height.val) := by rw [← hb]; rfl
    rw [this]
    exact h.refs.insert _ _

theorem findRaw (h : Chain.Is E c bs x) (q : U256) : c.findRawByHeight q = (x.read bs q.val).map Block.dump := by
  unfold Chain.findRawByHeight Spec.Found.read
  rw [← h.len]
  by_cases hq : q.val ≤ bs.length
  · rw [if_neg (by omega), if_pos hq]
    exact h.slots.at' q.val q.lt
  · rw [if_pos (by omega), if_neg hq]; rfl

theorem read_lt {β : Type} {x : Spec.Found β} {bs : List β} {q : Nat} (h : q < bs.length) : x.read bs q = bs[q]? := by
  unfold Spec.Found.read Spec.Found.slot
  rw [if_pos (by omega), if_pos h]

theorem entry_lt (h : Chain.Is E c bs x) {q : Hash} {k : Nat} (he : x.entry (Spec.mainKey E) bs q = some k) :
    k < U256.size := by
  unfold Spec.Found.entry at he
  rw [Option.map_eq_some_iff] at he
  obtain ⟨e, he, rfl⟩ := he
  exact h.refs.small e (List.mem_of_find?_eq_some he)

theorem findByHash (h : Chain.Is E c bs x) (q : Hash) :
    c.findRawByHash q = .ok ((x.lookup (Spec.mainKey E) bs q).map Block.dump) := by
  unfold Chain.findRawByHash Spec.Found.lookup
  have hr : c.heightReference.get q.val = (x.entry (Spec.mainKey E) bs q).map (beBytes 32) := h.refs.at' q
  rw [hr]
  cases hf : x.entry (Spec.mainKey E) bs q with
  | none => rfl
  | some k =>
    have := fromBE_toBE ⟨k, h.entry_lt hf⟩
    simp only [U256.toBE] at this
    simp only [Option.map_some, this, Outcome.ok_bind, h.findRaw, Option.bind_some]

theorem empty (E : Env) (d : Hash) (cf : Option Bytes) :
    Chain.Is E ⟨Db.open' KV.empty, Db.open' KV.empty, U256.zero, d, cf⟩ [] .nothing :=
  ⟨rfl, fun _ h => by simp at h, slots_empty, indexed_empty, fun _ _ h => (by cases h), Nat.le_refl _⟩

/-- Nothing was found: what is read is what is in the chain. -/
theorem read_nothing {β : Type} (bs : List β) (q : Nat) : Spec.Found.nothing.read bs q = bs[q]? := by
  unfold Spec.Found.read Spec.Found.slot
  by_cases h : q < bs.length
  · rw [if_pos (by omega), if_pos h]
  · rw [if_neg h, List.getElem?_eq_none (by omega)]
    split <;> rfl

/-- Nothing was found: a digest leads to the newest block with it. -/
theorem lookup_nothing {β : Type} {key : β → Hash × Nat} {bs : List β}
    (hh : ∀ (i : Nat) (h : i < bs.length), (key bs[i]).2 = i) (q : Hash) :
    Spec.Found.nothing.lookup key bs q = bs.reverse.find? (fun b => (key b).1 = q) := by
  unfold Spec.Found.lookup Spec.Found.entry Spec.Found.indexed
  have e : ((bs.drop (Spec.Found.nothing (β := β)).count).map key).reverse ++ (Spec.Found.nothing (β := β)).index =
      bs.reverse.map key := by
    show ((bs.drop 0).map key).reverse ++ [] = _
    rw [List.drop_zero, List.append_nil, List.map_reverse]
  rw [e, List.find?_map]
  have : ((fun e => decide (e.1 = q)) ∘ key) = (fun b => decide ((key b).1 = q)) := rfl
  rw [this]
  cases hf : bs.reverse.find? (fun b => decide ((key b).1 = q)) with
  | none => rfl
  | some b =>
    have hb : b ∈ bs := List.mem_reverse.mp (List.mem_of_find?_eq_some hf)
    obtain ⟨i, hi, rfl⟩ := List.mem_iff_getElem.mp hb
    simp only [Option.map_some, Option.bind_some, hh i hi, read_nothing]
    exact List.getElem?_eq_getElem hi

/-- Nothing was found: the chain stores exactly the blocks. -/
theorem holds (h : Chain.Is E c bs .nothing) : Chain.Holds E c bs := by
  have hlt : ∀ i, i < bs.length → i < U256.size := fun i hi => by have := c.height.lt; rw [h.len] at hi; omega
  have hix : Spec.Found.nothing.indexed (Spec.mainKey E) bs = (bs.map (Spec.mainKey E)).reverse := by
    unfold Spec.Found.indexed
    show ((bs.drop 0).map _).reverse ++ [] = _
    rw [List.drop_zero, List.append_nil]
  refine ⟨h.len, h.heights, fun i hi => ?_, fun k v hk => ?_, fun k v hk => ?_, fun i hi => ?_⟩
  · have := h.slots.at' i (hlt i hi)
    unfold Spec.Found.slot at this
    rw [if_pos hi, List.getElem?_eq_getElem hi] at this
    exact this
  · have hl := h.slots.keys k v hk
    obtain ⟨q, hq, rfl⟩ : ∃ q, q < U256.size ∧ k = beBytes 32 q := ⟨beNat k, by
      have := beNat_lt k; rw [hl] at this; exact this, by rw [← hl, beBytes_beNat]⟩
    have := h.slots.at' q hq
    have hk' : c.blocks.cur.get (beBytes 32 q) = some v := hk
    rw [hk'] at this
    unfold Spec.Found.slot at this
    by_cases hlt : q < bs.length
    · exact ⟨q, hlt, rfl⟩
    · rw [if_neg hlt] at this; cases this
  · have hl := h.refs.keys k v hk
    have := h.refs.at' ⟨k, hl⟩
    have hk' : c.heightReference.cur.get k = some v := hk
    rw [hk', hix] at this
    rw [eq_comm, Option.map_eq_some_iff] at this
    obtain ⟨a, ha, hv⟩ := this
    rw [Option.map_eq_some_iff] at ha
    obtain ⟨e, he, rfl⟩ := ha
    have hm := List.mem_of_find?_eq_some he
    have he' := List.find?_some he
    obtain ⟨b, hb, rfl⟩ := List.mem_map.mp (List.mem_reverse.mp hm)
    obtain ⟨i, hi, rfl⟩ := List.mem_iff_getElem.mp hb
    refine ⟨i, hi, ?_, ?_⟩
    · rw [← hv]; show beBytes 32 bs[i].info.height.val = _; rw [h.heights i hi]
    · have : (Spec.mainKey E bs[i]).1 = ⟨k, hl⟩ := by simpa using he'
      exact (congrArg Subtype.val this).symm
  · have := h.refs.at' (bs[i].hash E)
    rw [hix] at this
    cases hf : (bs.map (Spec.mainKey E)).reverse.find? (fun e => e.1 = bs[i].hash E) with
    | some e => rw [hf] at this; exact ⟨_, this⟩
    | none =>
      exfalso
      rw [List.find?_eq_none] at hf
      refine hf (Spec.mainKey E bs[i]) (List.mem_reverse.mpr (List.mem_map_of_mem (List.getElem_mem hi))) ?_
      exact decide_eq_true rfl

end Chain.Is

/-- The blocks of a derivative chain among all blocks. -/
def Found.up (x : Spec.Found DerivativeBlock) : Spec.Found Block :=
  ⟨fun q => (x.ghosts q).map Block.derivative, x.index, x.count⟩

theorem Found.slot_up (x : Spec.Found DerivativeBlock) (ds : List DerivativeBlock) (q : Nat) :
    (Found.up x).slot (ds.map Block.derivative) q = (x.slot ds q).map Block.derivative := by
  unfold Spec.Found.slot
  rw [List.length_map, List.getElem?_map]
  split <;> rfl

theorem Found.read_up (x : Spec.Found DerivativeBlock) (ds : List DerivativeBlock) (q : Nat) :
    (Found.up x).read (ds.map Block.derivative) q = (x.read ds q).map Block.derivative := by
  unfold Spec.Found.read
  rw [List.length_map, Found.slot_up]
  split <;> rfl

theorem Found.indexed_up (E : Env) (x : Spec.Found DerivativeBlock) (ds : List DerivativeBlock) :
    (Found.up x).indexed (Spec.mainKey E) (ds.map Block.derivative) = x.indexed (Spec.derivKey E) ds := by
  unfold Spec.Found.indexed
  show (((ds.map Block.derivative).drop x.count).map _).reverse ++ x.index = _
  rw [← List.map_drop, List.map_map]
  rfl

theorem Found.lookup_up (E : Env) (x : Spec.Found DerivativeBlock) (ds : List DerivativeBlock) (h : Hash) :
    (Found.up x).lookup (Spec.mainKey E) (ds.map Block.derivative) h =
      (x.lookup (Spec.derivKey E) ds h).map Block.derivative := by
  unfold Spec.Found.lookup Spec.Found.entry
  rw [Found.indexed_up]
  cases (x.indexed (Spec.derivKey E) ds).find? (fun e => e.1 = h) with
  | none => rfl
  | some e => exact Found.read_up x ds e.2

theorem Found.up_nothing : Found.up Spec.Found.nothing = Spec.Found.nothing := rfl

/-- The files of a derivative chain that is not open: they are written out, and opening gives the saved chain, or an
empty one with the anchor proposed. -/
structure Dormant (E : Env) (f : DerivFiles) (c : Option (Hash × List DerivativeBlock)) (x : Spec.Found DerivativeBlock) :
    Prop where
  blocks : ∀ m ∈ f.blocks.recov, m = f.blocks.cur
  refs : ∀ m ∈ f.heightReference.recov, m = f.heightReference.cur
  opens : ∀ p, ∃ ch, DerivativeChain.new p f.blocks f.heightReference f.config = .ok ch ∧
    ch.genesisHash = (c.getD (p, [])).1 ∧ Chain.Is E ch.chain ((c.getD (p, [])).2.map Block.derivative) (Found.up x)

theorem dormant_fresh (E : Env) : Dormant E DerivFiles.fresh none .nothing :=
  ⟨fun _ hm => List.mem_singleton.mp hm, fun _ hm => List.mem_singleton.mp hm,
    fun p => ⟨_, DerivativeChain.new_fresh p, rfl, Chain.Is.empty E _ _⟩⟩

/-- The node is in a state of the abstract node, with what was found. -/
structure Mirrors (E : Env) (X : Spec.Leftovers) (t : Tree) (n : Spec.Node) : Prop where
  first : ∃ bs, n.blocks = genesis E :: bs
  main : Chain.Is E t.main.chain n.blocks X.main
  txs : ∀ h : Hash, t.main.transactions.get h.val = (n.stored h).map Transaction.dump
  coins : Books n.coins t.summary.cur
  gas : Books n.gas t.gas.cur
  oldCoins : Books n.oldCoins t.oldSummary.cur
  oldGas : Books n.oldGas t.oldGas.cur
  closed : ∀ o, n.chains o = none →
    t.derivMem o = none ∧ Dormant E (t.derivFiles (hexEncode o.val)) (n.saved o) (X.chains o)
  opened : ∀ o c, n.chains o = some c → (t.derivMem o).isSome = true ∧ (t.handle o).genesisHash = c.1 ∧
    Chain.Is E (t.handle o).chain (c.2.map Block.derivative) (Found.up (X.chains o))

/-- The node is in a state of the abstract node, and nothing was found. -/
abbrev Matches (E : Env) (t : Tree) (n : Spec.Node) : Prop := Mirrors E .nothing t n

/-- No chain is longer than `k`. -/
def Short (k : Nat) (n : Spec.Node) : Prop :=
  n.blocks.length ≤ k ∧ ∀ o c, n.chains o = some c ∨ n.saved o = some c → c.2.length ≤ k

theorem firstBlock_eq (E : Env) : Spec.firstBlock E = genesis E := by
  unfold Spec.firstBlock genesis
  rw [← treeRoot_eq]
  have : Spec.root.val ++ Spec.ascii "|50010000000000000000000000|0" = MainChain.initialAmount := by decide +kernel
  rw [this]
  rfl

theorem emission_eq : Spec.emission = COINS_PER_CYCLE.val := rfl
theorem root_eq : Spec.root = ROOT_PUBLIC_ADDRESS := rfl

theorem matches_start (E : Env) : Matches E (openTree E Disk.empty).final (Spec.Node.start E) := by
  rw [(openTree_fresh E).2]
  refine ⟨⟨[], by unfold Spec.Node.start; rw [firstBlock_eq]⟩, ?_, fun h => by simp [Spec.Node.stored, Spec.Node.start], ?_,
    Books.empty, Books.empty, Books.empty, fun o _ => ⟨rfl, dormant_fresh E⟩, fun o c h => by cases h⟩
  · show Chain.Is E (bootChain E (Db.open' KV.empty) (Db.open' KV.empty) BEGINNING_DIFFICULTY none) [Spec.firstBlock E] _
    rw [firstBlock_eq]
    have h0 := (Chain.Is.empty E BEGINNING_DIFFICULTY none).add (b := genesis E) rfl zero_add_one_lt
    exact h0
  · have := Books.empty.insert ROOT_PUBLIC_ADDRESS.val COINS_PER_CYCLE
    exact this

theorem readable_iff (b : Block) : Spec.readable b = true ↔ b.IsMain := by
  cases b <;> simp [Spec.readable, Block.IsMain]

/-- Decoding a block as read from the main chain. -/
theorem decode_readable {E : Env} {b : Block} (hb : b.info.height.val ≠ 0 ∨ b = genesis E) :
    (Spec.readable b = true → MainChain.decode (some b.dump) = .ok (some b)) ∧
    (Spec.readable b = false → ∃ e, MainChain.decode (some b.dump) = .err e) := by
  constructor
  · intro hr
    refine decode_main b ((readable_iff b).mp hr) ?_
    rcases hb with hb | rfl
    · exact .inl hb
    · exact .inr ⟨_, rfl⟩
  · intro hr
    cases b with
    | derivative d =>
      obtain ⟨e, he⟩ := C11_main_block_read_back_partial.2.1 d
      exact ⟨.chainFindByHeight, by simp [MainChain.decode, Block.dump, he]⟩
    | transaction d => cases hr
    | summarize d => cases hr

section
variable {E : Env} {X : Spec.Leftovers} {t : Tree} {n : Spec.Node}

theorem Mirrors.read_ok (h : Mirrors E X t n) {q : Nat} {b : Block} (hb : X.main.read n.blocks q = some b) :
    b.info.height.val ≠ 0 ∨ b = genesis E := by
  obtain ⟨bs, hbs⟩ := h.first
  have hh := h.main
  unfold Spec.Found.read Spec.Found.slot at hb
  split at hb
  · split at hb
    · rename_i hlt
      rw [List.getElem?_eq_getElem hlt] at hb
      cases hb
      by_cases hz : q = 0
      · right; subst hz; simp only [hbs]; rfl
      · left; rw [hh.heights q hlt]; exact hz
    · rename_i hq
      left
      rw [hh.ghosts q b hb]
      rw [hbs, List.length_cons] at hq
      omega
  · cases hb

/-- `get_last_block` is the tip. -/
theorem Mirrors.last (h : Mirrors E X t n) :
    (∃ b, n.tip = some b ∧ n.blocks.getLast? = some b ∧ t.main.getLastBlock = .ok (some b) ∧
      b.info.height.val + 1 = n.blocks.length) ∨
    (n.tip = none ∧ ∃ e, t.main.getLastBlock = .err e) := by
  obtain ⟨bs, hbs⟩ := h.first
  have hl := h.main.len
  have hp : 1 ≤ t.main.chain.height.val := by rw [← hl, hbs]; simp
  have hi : n.blocks.length - 1 < n.blocks.length := by omega
  have hraw : t.main.getLastRawBlock = .ok (some n.blocks[n.blocks.length - 1].dump) := by
    unfold MainChain.getLastRawBlock MainChain.findRawByHeight
    rw [lastIndex hp]
    simp only [Outcome.ok_bind]
    rw [h.main.findRaw]
    simp only
    rw [← hl, Chain.Is.read_lt hi, List.getElem?_eq_getElem hi]; rfl
  have hlast : n.blocks.getLast? = some n.blocks[n.blocks.length - 1] := by
    rw [List.getLast?_eq_getElem?, List.getElem?_eq_getElem hi]
  have hdec := decode_readable (h.read_ok (b := n.blocks[n.blocks.length - 1]) (q := n.blocks.length - 1)
    (by rw [Chain.Is.read_lt hi, List.getElem?_eq_getElem hi]))
  unfold Spec.Node.tip MainChain.getLastBlock
  rw [hlast, hraw, Outcome.ok_bind]
  cases hr : Spec.readable n.blocks[n.blocks.length - 1] with
  | true =>
    left
    exact ⟨_, by simp [hr], rfl, hdec.1 hr, by rw [h.main.heights _ hi]; omega⟩
  | false =>
    right
    exact ⟨by simp [hr], hdec.2 hr⟩

theorem Mirrors.withDigest (h : Mirrors E X t n) (q : Hash) :
    match X.main.lookup (Spec.mainKey E) n.blocks q with
    | none => t.main.findByHash q = .ok none
    | some b => (Spec.readable b = true → t.main.findByHash q = .ok (some b)) ∧
        (Spec.readable b = false → ∃ e, t.main.findByHash q = .err e) := by
  unfold MainChain.findByHash MainChain.findRawByHash
  rw [h.main.findByHash]
  cases hf : X.main.lookup (Spec.mainKey E) n.blocks q with
  | none => rfl
  | some b =>
    simp only [Option.map_some, Outcome.ok_bind]
    refine decode_readable (E := E) ?_
    unfold Spec.Found.lookup at hf
    rw [Option.bind_eq_some_iff] at hf
    obtain ⟨k, _, hk⟩ := hf
    exact h.read_ok hk

theorem withDigest_nothing (h : Matches E t n) (q : Hash) :
    Spec.Found.nothing.lookup (Spec.mainKey E) n.blocks q = n.withDigest E q :=
  Chain.Is.lookup_nothing (fun i hi => h.main.heights i hi) q

theorem Matches.withDigest (h : Matches E t n) (q : Hash) :
    match n.withDigest E q with
    | none => t.main.findByHash q = .ok none
    | some b => (Spec.readable b = true → t.main.findByHash q = .ok (some b)) ∧
        (Spec.readable b = false → ∃ e, t.main.findByHash q = .err e) := by
  have := Mirrors.withDigest h q
  rw [show (Spec.Leftovers.nothing).main = Spec.Found.nothing from rfl, withDigest_nothing h] at this
  exact this

end

end BCT
