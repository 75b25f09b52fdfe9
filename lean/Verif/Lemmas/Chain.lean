import Verif.Lemmas.Store
import Verif.Lemmas.Merkle
/-!
# The chain holds the list of accepted blocks
-/

namespace BCT

/-- The chain stores exactly the blocks `bs`, in order of height, each found under its hash. -/
structure Chain.Holds (E : Env) (c : Chain) (bs : List Block) : Prop where
  len : bs.length = c.height.val
  heights : ∀ (i : Nat) (h : i < bs.length), bs[i].info.height.val = i
  stored : ∀ (i : Nat) (h : i < bs.length), c.blocks.get (beBytes 32 i) = some bs[i].dump
  only : ∀ k v, c.blocks.get k = some v → ∃ i, i < bs.length ∧ k = beBytes 32 i
  refs : ∀ k v, c.heightReference.get k = some v →
    ∃ (i : Nat) (h : i < bs.length), v = beBytes 32 i ∧ k = (bs[i].hash E).val
  found : ∀ (i : Nat) (h : i < bs.length), ∃ v, c.heightReference.get (bs[i].hash E).val = some v

namespace Chain

theorem addBlock_wrong {E : Env} {bh : U256} {dump : Bytes} {s : Chain} (h : bh ≠ s.height) :
    addBlock E bh dump s = ⟨.err .chainAddingBlock, s, []⟩ := by
  unfold addBlock
  simp [h]

/-- After the first effect of `add_block`. -/
def put1 (s : Chain) (dump : Bytes) : Chain :=
  { s with blocks := s.blocks.insert s.height.toBE.val dump }

/-- After the second effect of `add_block`. -/
def put2 (E : Env) (s : Chain) (dump : Bytes) : Chain :=
  { s with
    blocks := s.blocks.insert s.height.toBE.val dump,
    heightReference := s.heightReference.insert (E.sha256 dump).val s.height.toBE.val }

/-- After a successful `add_block`. -/
def put3 (E : Env) (s : Chain) (dump : Bytes) (h : U256) : Chain :=
  { s with
    blocks := s.blocks.insert s.height.toBE.val dump,
    heightReference := s.heightReference.insert (E.sha256 dump).val s.height.toBE.val,
    height := h }

theorem addBlock_right {E : Env} {dump : Bytes} {s : Chain} (h : s.height.val + 1 < U256.size) :
    addBlock E s.height dump s =
      ⟨.ok (), s.put3 E dump ⟨s.height.val + 1, h⟩,
        [s.put1 dump, s.put2 E dump, s.put3 E dump ⟨s.height.val + 1, h⟩]⟩ := by
  have h1 : s.height.add U256.one = .ok ⟨s.height.val + 1, h⟩ := by
    unfold U256.add
    rw [dif_pos (by simpa [U256.one] using h)]
    rfl
  unfold addBlock
  simp [h1, Act.step_bind, put1, put2, put3]

theorem addBlock_max {E : Env} {dump : Bytes} {s : Chain} (h : ¬ s.height.val + 1 < U256.size) :
    addBlock E s.height dump s =
      ⟨.panic .overflow, s.put2 E dump, [s.put1 dump, s.put2 E dump]⟩ := by
  have h1 : s.height.add U256.one = .panic .overflow := by
    unfold U256.add
    rw [dif_neg (by simpa [U256.one] using h)]
  unfold addBlock
  simp [h1, Act.step_bind, put1, put2]

/-- `t` continues `s` by accepting some blocks satisfying `A`. -/
def Grows (E : Env) (A : Block → Prop) (s t : Chain) : Prop :=
  s.height.val ≤ t.height.val ∧
  (t.height.val + 1 < U256.size → ∀ bs, Holds E s bs → ∃ new, Holds E t (bs ++ new) ∧ ∀ b ∈ new, A b)

theorem grows_preord (E : Env) (A : Block → Prop) : Act.PreOrd (Grows E A) where
  refl s := ⟨Nat.le_refl _, fun _ bs h => ⟨[], by simpa using h, by simp⟩⟩
  trans := by
    rintro a b c ⟨h1, h2⟩ ⟨h3, h4⟩
    refine ⟨Nat.le_trans h1 h3, fun hc bs hbs => ?_⟩
    obtain ⟨n1, hn1, ha1⟩ := h2 (by omega) bs hbs
    obtain ⟨n2, hn2, ha2⟩ := h4 hc _ hn1
    refine ⟨n1 ++ n2, by simpa using hn2, fun x hx => ?_⟩
    rcases List.mem_append.mp hx with hx | hx
    · exact ha1 x hx
    · exact ha2 x hx

/-- Same contents. -/
def Same (s t : Chain) : Prop :=
  t.blocks.cur = s.blocks.cur ∧ t.heightReference.cur = s.heightReference.cur ∧ t.height = s.height

theorem same_preord : Act.PreOrd Same where
  refl s := ⟨rfl, rfl, rfl⟩
  trans h1 h2 := ⟨h2.1.trans h1.1, h2.2.1.trans h1.2.1, h2.2.2.trans h1.2.2⟩

theorem Holds.same {E : Env} {s t : Chain} {bs : List Block} (h : Holds E s bs) (hs : Same s t) : Holds E t bs := by
  obtain ⟨h1, h2, h3⟩ := hs
  refine ⟨?_, h.heights, ?_, ?_, ?_, ?_⟩
  · rw [h3]; exact h.len
  · intro i hi; unfold Db.get; rw [h1]; exact h.stored i hi
  · intro k v; unfold Db.get; rw [h1]; exact h.only k v
  · intro k v; unfold Db.get; rw [h2]; exact h.refs k v
  · intro i hi; unfold Db.get; rw [h2]; exact h.found i hi

theorem Same.grows {E : Env} {A : Block → Prop} {s t : Chain} (h : Same s t) : Grows E A s t :=
  ⟨by rw [h.2.2]; exact Nat.le_refl _, fun _ bs hb => ⟨[], by simpa using hb.same h, by simp⟩⟩

theorem Holds.addBlock {E : Env} {s : Chain} {bs : List Block} {b : Block} (h : Holds E s bs)
    (hb : b.info.height = s.height) (hm : s.height.val + 1 < U256.size) :
    Holds E (Chain.addBlock E b.info.height b.dump s).final (bs ++ [b]) := by
  rw [hb, addBlock_right hm]
  unfold put3
  have hlt : ∀ i, i < bs.length → i < 256 ^ 32 := fun i hi => by
    have := s.height.lt; rw [h.len] at hi; unfold U256.size at this; omega
  have hsz : s.height.val < 256 ^ 32 := s.height.lt
  have hl := h.len
  refine ⟨by simp [h.len], ?_, ?_, ?_, ?_, ?_⟩
  · intro i hi
    by_cases hlt : i < bs.length
    · rw [List.getElem_append_left hlt]; exact h.heights i hlt
    · rw [List.getElem_append_right (by omega)]
      simp only [List.getElem_singleton, hb]
      simp at hi; omega
  · intro i hi
    simp only [Db.get_insert, U256.toBE]
    by_cases hi' : i < bs.length
    · rw [List.getElem_append_left hi', if_neg]
      · exact h.stored i hi'
      · intro he
        have := beBytes_inj hsz (hlt i hi') he
        omega
    · rw [List.getElem_append_right (by omega)]
      have : i = s.height.val := by simp at hi; omega
      subst this
      simp
  · intro k v hk
    simp only [Db.get_insert, U256.toBE] at hk
    split at hk
    · rename_i he
      exact ⟨s.height.val, by simp; omega, he.symm⟩
    · obtain ⟨i, h1, h2⟩ := h.only k v hk
      exact ⟨i, by simp; omega, h2⟩
  · intro k v hk
    simp only [Db.get_insert, U256.toBE] at hk
    split at hk
    · rename_i he
      refine ⟨s.height.val, by simp; omega, by simpa using hk.symm, ?_⟩
      rw [← he, List.getElem_append_right (by omega)]
      simp [Block.hash]
    · obtain ⟨i, h1, h2, h3⟩ := h.refs k v hk
      refine ⟨i, by simp; omega, h2, ?_⟩
      rw [List.getElem_append_left h1]; exact h3
  · intro i hi
    simp only [Db.get_insert]
    by_cases hi' : i < bs.length
    · rw [List.getElem_append_left hi']
      split
      · exact ⟨_, rfl⟩
      · exact h.found i hi'
    · rw [List.getElem_append_right (by omega)]
      simp [Block.hash]

theorem addBlock_grows {E : Env} {A : Block → Prop} {b : Block} (hA : A b) :
    Act.RelF (Grows E A) (Chain.addBlock E b.info.height b.dump) := by
  intro s
  by_cases hb : b.info.height = s.height
  · by_cases hm : s.height.val + 1 < U256.size
    · refine ⟨?_, fun _ bs hbs => ⟨[b], hbs.addBlock hb hm, by simpa using hA⟩⟩
      rw [hb, addBlock_right hm]; simp [put3]
    · rw [hb, addBlock_max hm]
      exact ⟨Nat.le_refl _, fun h => absurd h hm⟩
  · rw [addBlock_wrong hb]; exact (grows_preord E A).refl s

/-! ### Answers of a chain that holds `bs` -/

theorem Holds.findRaw {E : Env} {c : Chain} {bs : List Block} (h : Holds E c bs) (q : U256) :
    c.findRawByHeight q = bs[q.val]?.map Block.dump := by
  unfold findRawByHeight
  split
  · rename_i hlt
    rw [List.getElem?_eq_none (by rw [h.len]; omega)]; rfl
  · by_cases hq : q.val < bs.length
    · rw [List.getElem?_eq_getElem hq]
      exact h.stored q.val hq
    · rw [List.getElem?_eq_none (by omega)]
      cases hg : c.blocks.get q.toBE.val with
      | none => rfl
      | some v =>
        obtain ⟨i, h1, h2⟩ := h.only _ _ hg
        have : q.val = i := beBytes_inj (k := 32) q.lt (by
          have := c.height.lt; rw [h.len] at h1; unfold U256.size at this; omega) h2
        omega

theorem Holds.findByHash {E : Env} {c : Chain} {bs : List Block} (h : Holds E c bs) (q : Hash) :
    (∃ (i : Nat) (hi : i < bs.length), bs[i].hash E = q ∧ c.findRawByHash q = .ok (some bs[i].dump)) ∨
    ((∀ b ∈ bs, b.hash E ≠ q) ∧ c.findRawByHash q = .ok none) := by
  unfold findRawByHash
  cases hg : c.heightReference.get q.val with
  | none =>
    right
    refine ⟨fun b hb he => ?_, rfl⟩
    obtain ⟨i, hi, rfl⟩ := List.mem_iff_getElem.mp hb
    obtain ⟨v, hv⟩ := h.found i hi
    rw [he, hg] at hv; cases hv
  | some v =>
    left
    obtain ⟨i, hi, rfl, hk⟩ := h.refs _ _ hg
    have hlt : i < U256.size := by have := c.height.lt; rw [h.len] at hi; omega
    refine ⟨i, hi, (Subtype.ext hk).symm, ?_⟩
    have := fromBE_toBE ⟨i, hlt⟩
    simp only [U256.toBE] at this
    simp only [this, Outcome.ok_bind, h.findRaw]
    rw [List.getElem?_eq_getElem hi]; rfl

end Chain

/-! ### The node's main chain -/

theorem Tree.onMain_relF {α : Type} {R : MainChain → MainChain → Prop} {Q : Tree → Tree → Prop} {x : Act MainChain α}
    (hx : Act.RelF R x) (h : ∀ t m, R t.main m → Q t { t with main := m }) : Act.RelF Q (Tree.onMain x) :=
  Act.relF_zoom hx (fun t s hs => h t s hs)

/-- The main chain of `t` continues that of `s`. -/
def MainGrows (E : Env) (A : Block → Prop) (s t : Tree) : Prop := Chain.Grows E A s.main.chain t.main.chain

theorem mainGrows_preord (E : Env) (A : Block → Prop) : Act.PreOrd (MainGrows E A) where
  refl _ := (Chain.grows_preord E A).refl _
  trans h1 h2 := (Chain.grows_preord E A).trans h1 h2

/-- The main chain's contents are the same. -/
def MainSame (s t : Tree) : Prop := Chain.Same s.main.chain t.main.chain

theorem mainSame_preord : Act.PreOrd MainSame where
  refl _ := Chain.same_preord.refl _
  trans h1 h2 := Chain.same_preord.trans h1 h2

theorem MainChain.writeConfig_same (f : MainChain → Bytes) :
    Act.Rel (fun a b : MainChain => Chain.Same a.chain b.chain) (MainChain.writeConfig f) :=
  Act.rel_step (fun _ => ⟨rfl, rfl, rfl⟩)

theorem mcSame_preord : Act.PreOrd (fun a b : MainChain => Chain.Same a.chain b.chain) where
  refl _ := Chain.same_preord.refl _
  trans h1 h2 := Chain.same_preord.trans h1 h2

theorem MainChain.flush_same :
    Act.Rel (fun a b : MainChain => Chain.Same a.chain b.chain) MainChain.flush := by
  have C := Act.rel_closed mcSame_preord
  unfold MainChain.flush MainChain.dumpConfig
  refine C.bind (C.bind (writeConfig_same _) fun _ => C.bind (writeConfig_same _) fun _ => writeConfig_same _) fun _ =>
    C.bind (Act.rel_step fun _ => ⟨rfl, rfl, rfl⟩) fun _ => C.bind (Act.rel_step fun _ => ⟨rfl, rfl, rfl⟩) fun _ =>
      Act.rel_step fun _ => ⟨rfl, rfl, rfl⟩

theorem Tree.flush_mainSame : Act.Rel MainSame Tree.flush := by
  have C := Act.rel_closed mainSame_preord
  unfold Tree.flush
  refine C.bind (Act.rel_zoom MainChain.flush_same fun _ _ h => h) fun _ => ?_
  refine C.bind (Act.rel_step fun _ => Chain.same_preord.refl _) fun _ => ?_
  refine C.bind (Act.rel_step fun _ => Chain.same_preord.refl _) fun _ => ?_
  refine C.bind (Act.rel_step fun _ => Chain.same_preord.refl _) fun _ => ?_
  exact Act.rel_step fun _ => Chain.same_preord.refl _

theorem Tree.rotate_mainSame : Act.Rel MainSame Tree.rotateDbs := by
  have C := Act.rel_closed mainSame_preord
  unfold Tree.rotateDbs
  refine C.bind Tree.flush_mainSame fun _ => ?_
  refine C.bind (Act.rel_step fun _ => Chain.same_preord.refl _) fun _ => ?_
  refine C.bind (Act.rel_step fun _ => Chain.same_preord.refl _) fun _ => ?_
  refine C.bind (Act.rel_step fun _ => Chain.same_preord.refl _) fun _ => ?_
  exact Act.rel_step fun _ => Chain.same_preord.refl _

theorem Act.rel_true {σ α : Type} (x : Act σ α) : Act.Rel (fun _ _ => True) x := fun _ => ⟨trivial, fun _ _ => trivial⟩

theorem Tree.onSummary_mainSame {α : Type} (x : Act Db α) : Act.Rel MainSame (Tree.onSummary x) :=
  Act.rel_zoom (Act.rel_true x) fun _ _ _ => Chain.same_preord.refl _
theorem Tree.onGas_mainSame {α : Type} (x : Act Db α) : Act.Rel MainSame (Tree.onGas x) :=
  Act.rel_zoom (Act.rel_true x) fun _ _ _ => Chain.same_preord.refl _
theorem Tree.onDeriv_mainSame {α : Type} (o : Address) (x : Act DerivativeChain α) :
    Act.Rel MainSame (Tree.onDeriv o x) :=
  Act.rel_zoom (Act.rel_true x) fun _ _ _ => Chain.same_preord.refl _

theorem Tree.getDeriv_mainSame (E : Env) (o : Address) : Act.Rel MainSame (Tree.getDerivativeChain E o) := by
  have C := Act.rel_closed mainSame_preord
  unfold Tree.getDerivativeChain
  refine C.bind C.get fun _ => ?_
  split
  · exact C.pure _
  · exact C.bind (C.lift _) fun _ => C.bind (C.lift _) fun _ => C.bind (C.lift _) fun _ =>
      Act.rel_step fun _ => Chain.same_preord.refl _

theorem Act.Rel.mono {σ α : Type} {R Q : σ → σ → Prop} {x : Act σ α} (h : Act.Rel R x) (hq : ∀ a b, R a b → Q a b) :
    Act.Rel Q x := fun s => ⟨hq _ _ (h s).1, fun t ht => hq _ _ ((h s).2 t ht)⟩

theorem mainGrows_prims (E : Env) (A : Block → Prop) :
    Prims E A (fun {α} (x : Act Tree α) => Act.RelF (MainGrows E A) x) := by
  have key : ∀ {α : Type} {x : Act Tree α}, Act.Rel MainSame x → Act.RelF (MainGrows E A) x :=
    fun h => (h.mono fun _ _ h => h.grows).relF
  refine ⟨fun b hb => ?_, fun t => ?_, ?_, fun _ _ => key (Tree.onSummary_mainSame _),
    fun _ _ => key (Tree.onSummary_mainSame _), fun _ _ => key (Tree.onSummary_mainSame _),
    fun _ _ _ _ => key (Tree.onSummary_mainSame _), fun _ _ => key (Tree.onGas_mainSame _),
    fun _ _ => key (Tree.onGas_mainSame _), fun _ _ _ => key (Tree.onGas_mainSame _), key Tree.flush_mainSame,
    key Tree.rotate_mainSame, fun _ => key (Tree.getDeriv_mainSame _ _), fun _ _ => key (Tree.onDeriv_mainSame _ _),
    fun _ => key (Tree.onDeriv_mainSame _ _)⟩
  · refine Act.relF_zoom (R := fun a b : MainChain => Chain.Grows E A a.chain b.chain) ?_ (fun _ _ h => h)
    exact Act.relF_zoom (part := fun m : MainChain => m.chain) (put := fun c m => { m with chain := c })
      (Chain.addBlock_grows hb) (fun _ _ h => h)
  · refine key (Act.rel_zoom (R := fun a b : MainChain => Chain.Same a.chain b.chain) ?_ (fun _ _ h => h))
    exact Act.rel_step fun _ => Chain.same_preord.refl _
  · exact key (Act.rel_zoom MainChain.flush_same fun _ _ h => h)

/-- The genesis block. -/
def genesis (E : Env) : Block :=
  .summarize ⟨MainChain.genesisInfo, merkleRootT E [E.sha256 MainChain.initialAmount]⟩

theorem U256.val_one : U256.one.val = 1 := rfl

theorem zero_add_one_lt : U256.zero.val + 1 < U256.size := by decide

/-- The chain `MainChain::new` builds before it looks at the height. -/
def Chain.loaded (c : Chain) (h : U256) (d : Hash) : Chain := { c with height := h, difficulty := d }

/-- The main chain right after the genesis block was put into databases `bl`, `rf`. -/
def bootChain (E : Env) (bl rf : Db) (d : Hash) (cfg : Option Bytes) : Chain :=
  { blocks := bl.insert U256.zero.toBE.val (genesis E).dump,
    heightReference := rf.insert ((genesis E).hash E).val U256.zero.toBE.val,
    height := U256.one, difficulty := d, config := cfg }

theorem MainChain.new_err (E : Env) (m : MainChain) (e : Err) (hc : readConfig m.chain.config = .err e) :
    MainChain.new E m = ⟨.err e, m, []⟩ := by
  unfold MainChain.new
  simp [hc]

theorem MainChain.new_pos (E : Env) (m : MainChain) (h : U256) (d : Hash)
    (hc : readConfig m.chain.config = .ok (h, d)) (hp : h.val ≠ 0) :
    MainChain.new E m = ⟨.ok (), { m with chain := m.chain.loaded h d }, [{ m with chain := m.chain.loaded h d }]⟩ := by
  unfold MainChain.new
  simp [hc, Act.step_bind, hp, Chain.loaded]

theorem MainChain.new_zero (E : Env) (m : MainChain) (d : Hash)
    (hc : readConfig m.chain.config = .ok (U256.zero, d)) :
    MainChain.new E m = ⟨.ok (),
      { m with chain := bootChain E m.chain.blocks m.chain.heightReference d m.chain.config },
      [{ m with chain := m.chain.loaded U256.zero d },
       { m with chain := (m.chain.loaded U256.zero d).put1 (genesis E).dump },
       { m with chain := (m.chain.loaded U256.zero d).put2 E (genesis E).dump },
       { m with chain := bootChain E m.chain.blocks m.chain.heightReference d m.chain.config }]⟩ := by
  have hz : U256.zero.val = 0 := rfl
  unfold MainChain.new
  simp only [Act.get_bind, hc, Act.lift_ok_bind, Act.step_bind]
  rw [if_pos hz, merkleRoot_eq, Act.lift_ok_bind, Act.mapErr_run]
  have := Chain.addBlock_right (E := E) (dump := (genesis E).dump)
    (s := m.chain.loaded U256.zero d) zero_add_one_lt
  unfold MainChain.addBlock onChain
  rw [Act.zoom_run,
    show (Block.summarize ⟨genesisInfo, merkleRootT E [E.sha256 initialAmount]⟩) = genesis E from rfl,
    show (genesis E).info.height = (m.chain.loaded U256.zero d).height from rfl]
  change _ = Res.mk _ _ _
  simp only
  rw [show ({ m.chain with height := U256.zero, difficulty := d } : Chain) = m.chain.loaded U256.zero d from rfl, this]
  rfl

theorem bootChain_holds (E : Env) (d : Hash) (cfg : Option Bytes) :
    Chain.Holds E (bootChain E (Db.open' KV.empty) (Db.open' KV.empty) d cfg) [genesis E] := by
  have h0 : Chain.Holds E ⟨Db.open' KV.empty, Db.open' KV.empty, U256.zero, d, cfg⟩ [] := by
    refine ⟨rfl, ?_, ?_, ?_, ?_, ?_⟩ <;> simp
  have := h0.addBlock (b := genesis E) rfl zero_add_one_lt
  have e : (genesis E).info.height = U256.zero := rfl
  rw [e] at this
  have h2 := Chain.addBlock_right (E := E) (dump := (genesis E).dump)
    (s := ⟨Db.open' KV.empty, Db.open' KV.empty, U256.zero, d, cfg⟩) zero_add_one_lt
  simp only at h2
  rw [h2] at this
  exact this

end BCT
