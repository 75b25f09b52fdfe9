import Verif.Props.ThreadsLive
import Verif.Props.Chain
import Verif.Model.Sha256
/-!
# C100: lookups while blocks are being added (chain.rs)
-/

namespace BCT

theorem Prog.bind_assoc {σ α β γ : Type} (p : Prog σ α) (f : α → Prog σ β) (g : β → Prog σ γ) :
    (p >>= f) >>= g = p >>= fun a => f a >>= g := by
  change Prog.bind (Prog.bind p f) g = Prog.bind p (fun a => Prog.bind (f a) g)
  induction p with
  | done o => cases o <;> rfl
  | step next rest ih => simp only [Prog.bind, ih]

/-- A program keeps its own history whatever it does. -/
theorem Prog.hist_true {σ α : Type} (p : Prog σ α) : ∀ hist, Prog.Hist (fun _ => True) (fun _ _ => True) p hist := by
  induction p with
  | done o => exact fun _ => trivial
  | step next rest ih => exact fun _ s _ _ _ => ⟨trivial, ih s _⟩

theorem Prog.hist_mem {σ α : Type} {x : σ × σ} (p : Prog σ α) : ∀ hist, x ∈ hist →
    Prog.Hist (fun _ => True) (fun l _ => x ∈ l) p hist := by
  induction p with
  | done o => exact fun _ h => h
  | step next rest ih => exact fun _ h s _ _ _ => ⟨trivial, ih s _ (by simp [h])⟩

/-- Steps related by a preorder: later states are above earlier ones. -/
theorem Exec.sorted {ι σ α : Type} [DecidableEq ι] {start c : Config ι σ α} {log : List (Event ι σ)}
    (h : Exec start log c) {R : σ → σ → Prop} (hrefl : ∀ s, R s s) (htrans : ∀ a b c, R a b → R b c → R a c)
    (hR : ∀ e ∈ log, R e.before e.after) :
    R start.shared c.shared ∧ (∀ e ∈ log, R start.shared e.before ∧ R e.after c.shared) ∧
      log.Pairwise (fun a b => R a.after b.before) := by
  induction h with
  | refl => exact ⟨hrefl _, by simp, by simp⟩
  | @step log c i next rest s' _ hi hn ih =>
    obtain ⟨h1, h2, h3⟩ := ih (fun e he => hR e (by simp [he]))
    have hs : R c.shared s' := hR ⟨i, c.shared, s'⟩ (by simp)
    refine ⟨htrans _ _ _ h1 hs, fun e he => ?_, ?_⟩
    · rcases List.mem_append.mp he with he | he
      · exact ⟨(h2 e he).1, htrans _ _ _ (h2 e he).2 hs⟩
      · rw [List.mem_singleton.mp he]; exact ⟨h1, hrefl _⟩
    · rw [List.pairwise_append]
      refine ⟨h3, by simp, fun a ha b hb => ?_⟩
      rw [List.mem_singleton.mp hb]
      exact (h2 a ha).2

end BCT

namespace BCT.Props
open BCT

variable {ι α β : Type}

/-! ## The steps of `add_block` -/

def storeBlock (b : Block) (h : U256) : Tree → Tree :=
  Node.setChain fun s => { s with blocks := s.blocks.insert h.toBE.val b.dump }

def storeRef (E : Env) (b : Block) (h : U256) : Tree → Tree :=
  Node.setChain fun s => { s with heightReference := s.heightReference.insert (E.sha256 b.dump).val h.toBE.val }

def afterRef (h : U256) : Prog Node Unit :=
  match h.add U256.one with
  | .ok h' => do
    Node.write (Node.setChain fun s => { s with height := h' })
    Node.unlock
  | o => do
    Node.unlock
    let _ ← .lift o
    pure ()

def afterStore (E : Env) (b : Block) (h : U256) : Prog Node Unit := do
  Node.write (storeRef E b h)
  afterRef h

def afterRead (E : Env) (b : Block) (h : U256) : Prog Node Unit :=
  if b.info.height ≠ h then do
    Node.unlock
    .lift (.err .chainAddingBlock)
  else do
    Node.write (storeBlock b h)
    afterStore E b h

def afterLock (E : Env) (b : Block) : Prog Node Unit := do
  let h ← Node.read (fun t => .ok t.main.chain.height)
  afterRead E b h

theorem addBlock_stages (E : Env) (b : Block) : Node.addBlock E b = Node.lock >>= fun _ => afterLock E b := rfl

/-! ## Programs that change the chain by `add_block` only -/

/-- The step leaves the chain's contents and the lock as they are. -/
def Quiet (n n' : Node) : Prop := Chain.Same n.data.main.chain n'.data.main.chain ∧ n'.held = n.held

/-- The program changes the chain's contents only by whole `add_block` calls. -/
inductive Adds (E : Env) : Prog Node α → Prop where
  | done (o : Outcome α) : Adds E (.done o)
  | quiet {next : Node → Option Node} {rest : Node → Prog Node α} :
      (∀ n n', next n = some n' → Quiet n n') → (∀ n, Adds E (rest n)) → Adds E (.step next rest)
  | add (b : Block) {f : Unit → Prog Node α} : (∀ a, Adds E (f a)) → Adds E (Node.addBlock E b >>= f)

theorem Adds.bind {E : Env} {p : Prog Node α} {f : α → Prog Node β} (hp : Adds E p) (hf : ∀ a, Adds E (f a)) :
    Adds E (p >>= f) := by
  induction hp with
  | done o => cases o with
    | ok a => exact hf a
    | err e => exact .done _
    | panic e => exact .done _
    | ub => exact .done _
  | quiet h _ ih => exact .quiet h ih
  | add b _ ih => rw [Prog.bind_assoc]; exact .add b ih

theorem adds_lift (E : Env) (o : Outcome α) : Adds E (Prog.lift o) := .done o
theorem adds_pure (E : Env) (a : α) : Adds E (pure a) := .done _

theorem quiet_refl (n : Node) : Quiet n n := ⟨⟨rfl, rfl, rfl⟩, rfl⟩

theorem adds_read (E : Env) (f : Tree → Outcome α) : Adds E (Node.read f) :=
  .quiet (fun n n' hn => by cases hn; exact quiet_refl n) fun _ => .done _

theorem adds_write (E : Env) {f : Tree → Tree} (h : ∀ t, Chain.Same t.main.chain (f t).main.chain) :
    Adds E (Node.write f) := .quiet (fun n n' hn => by cases hn; exact ⟨h _, rfl⟩) fun _ => .done _

theorem adds_onTree (E : Env) {x : Act Tree α} (h : ∀ t, Chain.Same t.main.chain (x t).final.main.chain) :
    Adds E (Node.onTree x) := .quiet (fun n n' hn => by cases hn; exact ⟨h _, rfl⟩) fun _ => .done _

theorem adds_readHeight (E : Env) : Adds E Node.readHeight :=
  .quiet (fun n n' hn => by
    simp only [Option.ite_none_left_eq_some] at hn
    cases hn.2
    exact quiet_refl n) fun _ => .done _

theorem adds_addBlock (E : Env) (b : Block) : Adds E (Node.addBlock E b) := by
  have h : ∀ p : Prog Node Unit, p = p >>= fun a => (pure a : Prog Node Unit) := by
    intro p
    change p = Prog.bind p _
    induction p with
    | done o => cases o <;> rfl
    | step next rest ih => simp only [Prog.bind]; congr 1; funext s; exact ih s
  rw [h (Node.addBlock E b)]
  exact .add b fun _ => .done _

theorem adds_findRawByHeight (E : Env) (k : U256) : Adds E (Node.findRawByHeight k) := by
  unfold Node.findRawByHeight
  refine .bind (adds_readHeight E) fun _ => ?_
  split
  · exact adds_pure E _
  · exact adds_read E _

theorem adds_lookup (E : Env) (l : Node.Lookup) : Adds E l.prog := by
  cases l with
  | byHeight k => exact adds_findRawByHeight E k
  | byHash h =>
    refine .bind (adds_read E _) fun r => ?_
    cases r with
    | none => exact adds_pure E _
    | some v => exact .bind (adds_lift E _) fun _ => adds_findRawByHeight E _
  | last => exact .bind (adds_readHeight E) fun _ => .bind (adds_lift E _) fun _ => adds_findRawByHeight E _

theorem adds_getLastBlock (E : Env) : Adds E Node.getLastBlock :=
  .bind (adds_lookup E .last) fun _ => adds_lift E _

theorem same_refl (c : Chain) : Chain.Same c c := ⟨rfl, rfl, rfl⟩

theorem adds_mainFlush (E : Env) : Adds E Node.mainFlush := by
  unfold Node.mainFlush Node.dumpConfig
  exact .bind (.bind (adds_write E fun t => same_refl _) fun _ => .bind (adds_readHeight E) fun _ =>
    .bind (adds_write E fun t => same_refl _) fun _ => .bind (adds_read E _) fun _ => adds_write E fun t => same_refl _)
    fun _ => .bind (adds_write E fun t => ⟨rfl, rfl, rfl⟩) fun _ => .bind (adds_write E fun t => ⟨rfl, rfl, rfl⟩) fun _ =>
    adds_write E fun t => same_refl _

theorem adds_flush (E : Env) : Adds E Node.flush := by
  unfold Node.flush
  exact .bind (adds_mainFlush E) fun _ => .bind (adds_write E fun t => same_refl _) fun _ =>
    .bind (adds_write E fun t => same_refl _) fun _ => .bind (adds_write E fun t => same_refl _) fun _ =>
    adds_write E fun t => same_refl _

theorem adds_rotate (E : Env) : Adds E Node.rotateDbs := by
  unfold Node.rotateDbs
  exact .bind (adds_flush E) fun _ => .bind (adds_write E fun t => same_refl _) fun _ =>
    .bind (adds_write E fun t => same_refl _) fun _ => .bind (adds_write E fun t => same_refl _) fun _ =>
    adds_write E fun t => same_refl _

theorem sendAmount_same (a b : Bytes) (v : U256) (t : Tree) :
    Chain.Same t.main.chain (Tree.sendAmount a b v t).final.main.chain := by
  unfold Tree.sendAmount
  split
  · exact same_refl _
  · exact same_refl _

theorem adds_send (E : Env) (tx : Transaction) : Adds E (Node.sendTransaction E tx) := by
  unfold Node.sendTransaction
  refine .bind (adds_read E _) fun _ => .bind (adds_read E _) fun _ => .bind (adds_lift E _) fun _ => ?_
  split
  · exact adds_lift E _
  · refine .bind (adds_getLastBlock E) fun _ => .bind (adds_lift E _) fun _ => .bind (adds_lift E _) fun _ =>
      .bind (adds_lift E _) fun _ => ?_
    split
    · exact adds_lift E _
    · exact .bind (adds_onTree E fun t => same_refl _) fun _ => .bind (adds_onTree E (sendAmount_same _ _ _)) fun _ =>
        adds_onTree E fun t => same_refl _

theorem adds_emit (E : Env) (pow : BytesN 32) (founder : Address) (txs : List Hash) (ts : UInt64) :
    Adds E (Node.emitMain E pow founder txs ts) := by
  unfold Node.emitMain
  refine .bind (adds_getLastBlock E) fun _ => .bind (adds_lift E _) fun _ => .bind (adds_lift E _) fun _ => ?_
  split
  · exact adds_lift E _
  · refine .bind (adds_lift E _) fun _ => .bind (adds_lift E _) fun _ => .bind (adds_lift E _) fun _ =>
      .bind ?_ fun _ => .bind (adds_addBlock E _) fun _ => adds_pure E _
    split
    · split
      · exact adds_lift E _
      · exact .bind (adds_read E _) fun _ => .bind (adds_rotate E) fun _ =>
          .bind (adds_onTree E fun t => same_refl _) fun _ => adds_pure E _
    · split
      · exact adds_lift E _
      · exact .bind (adds_lift E _) fun _ => adds_pure E _

theorem adds_call (E : Env) (k : Node.AnyCall) : Adds E (k.prog E) := by
  cases k with
  | shared k =>
    refine .bind ?_ fun _ => adds_pure E _
    cases k with
    | send tx => exact adds_send E tx
    | flush => exact adds_flush E
    | handle h =>
      cases h with
      | addBlock b => exact adds_addBlock E b
      | addTransaction t => exact adds_onTree E fun t => same_refl _
      | flush => exact adds_mainFlush E
  | emit pow founder txs ts => exact .bind (adds_emit E pow founder txs ts) fun _ => adds_pure E _
  | lookup l => exact adds_lookup E l

/-- A step of such a program. -/
theorem Adds.step {E : Env} {next : Node → Option Node} {rest : Node → Prog Node α} (h : Adds E (.step next rest))
    {n n' : Node} (hn : next n = some n') :
    (Quiet n n' ∧ Adds E (rest n)) ∨
    (n.held = false ∧ n' = { n with held := true } ∧
      ∃ b f, rest n = afterLock E b >>= f ∧ ∀ a, Adds E (f a)) := by
  generalize hp : Prog.step next rest = p at h
  cases h with
  | done o => cases hp
  | quiet h1 h2 =>
    cases hp
    exact .inl ⟨h1 n n' hn, h2 n⟩
  | add b hf =>
    cases hp
    right
    simp only [Option.ite_none_left_eq_some] at hn
    obtain ⟨h1, h2⟩ := hn
    cases h2
    exact ⟨by simpa using h1, rfl, b, _, rfl, hf⟩

/-! ## The chain while a block is being added -/

/-- What always holds of the chain: the accepted blocks are stored; each reference leads to a block with that hash,
accepted or just being added. -/
def Good (E : Env) (c : Chain) (bs : List Block) : Prop :=
  bs.length = c.height.val ∧ (∀ (i : Nat) (h : i < bs.length), c.blocks.get (beBytes 32 i) = some bs[i].dump) ∧
  ∀ k v, c.heightReference.get k = some v → ∃ j raw, j ≤ bs.length ∧ v = beBytes 32 j ∧
    c.blocks.get v = some raw ∧ k = (E.sha256 raw).val

/-- The chain has grown: stored blocks and references to them are kept. -/
def Above (c c' : Chain) : Prop :=
  c.height.val ≤ c'.height.val ∧ (∀ k v, c.blocks.get k = some v → c'.blocks.get k = some v) ∧
  ∀ k v, c.heightReference.get k = some v → ∃ v', c'.heightReference.get k = some v'

theorem above_refl (c : Chain) : Above c c := ⟨Nat.le_refl _, fun _ _ h => h, fun _ v h => ⟨v, h⟩⟩

theorem above_trans {a b c : Chain} (h : Above a b) (h' : Above b c) : Above a c :=
  ⟨h.1.trans h'.1, fun k v e => h'.2.1 k v (h.2.1 k v e), fun k v e => by
    obtain ⟨v', e'⟩ := h.2.2 k v e
    exact h'.2.2 k v' e'⟩

theorem above_same {c c' : Chain} (h : Chain.Same c c') : Above c c' := by
  obtain ⟨h1, h2, h3⟩ := h
  refine ⟨by rw [h3], fun k v e => ?_, fun k v e => ⟨v, ?_⟩⟩
  · unfold Db.get at e ⊢; rw [h1]; exact e
  · unfold Db.get at e ⊢; rw [h2]; exact e

theorem Good.same {E : Env} {c c' : Chain} {bs : List Block} (h : Good E c bs) (hs : Chain.Same c c') :
    Good E c' bs := by
  obtain ⟨h1, h2, h3⟩ := hs
  refine ⟨by rw [h3]; exact h.1, fun i hi => ?_, fun k v e => ?_⟩
  · unfold Db.get; rw [h1]; exact h.2.1 i hi
  · unfold Db.get at e; rw [h2] at e
    obtain ⟨j, raw, a, b, c, d⟩ := h.2.2 k v e
    exact ⟨j, raw, a, b, by unfold Db.get; rw [h1]; exact c, d⟩

theorem good_of_holds {E : Env} {c : Chain} {bs : List Block} (h : c.Holds E bs) : Good E c bs := by
  refine ⟨h.len, h.stored, fun k v e => ?_⟩
  obtain ⟨i, hi, rfl, hk⟩ := h.refs k v e
  exact ⟨i, _, Nat.le_of_lt hi, rfl, h.stored i hi, hk⟩

theorem free_slot {E : Env} {c : Chain} {bs : List Block} (h : c.Holds E bs) : c.blocks.get c.height.toBE.val = none := by
  cases hg : c.blocks.get c.height.toBE.val with
  | none => rfl
  | some v =>
    obtain ⟨i, hi, e⟩ := h.only _ _ hg
    have hl := h.len
    have := beBytes_inj (k := 32) c.height.lt (by have := c.height.lt; unfold U256.size at this; omega) e
    omega

theorem above_put1 {E : Env} {c : Chain} {bs : List Block} (h : c.Holds E bs) (d : Bytes) : Above c (c.put1 d) := by
  refine ⟨Nat.le_refl _, fun k v e => ?_, fun k v e => ⟨v, e⟩⟩
  unfold Chain.put1
  simp only [Db.get_insert]
  split
  · rename_i hk
    rw [← hk, free_slot h] at e
    cases e
  · exact e

theorem good_put1 {E : Env} {c : Chain} {bs : List Block} (h : c.Holds E bs) (d : Bytes) : Good E (c.put1 d) bs := by
  have g := good_of_holds h
  have a := above_put1 h d
  refine ⟨g.1, fun i hi => a.2.1 _ _ (g.2.1 i hi), fun k v e => ?_⟩
  obtain ⟨j, raw, h1, h2, h3, h4⟩ := g.2.2 k v e
  exact ⟨j, raw, h1, h2, a.2.1 _ _ h3, h4⟩

theorem above_put2 (E : Env) (c : Chain) (d : Bytes) : Above (c.put1 d) (c.put2 E d) := by
  refine ⟨Nat.le_refl _, fun k v e => e, fun k v e => ?_⟩
  unfold Chain.put2
  simp only [Db.get_insert]
  split
  · exact ⟨_, rfl⟩
  · exact ⟨v, e⟩

theorem good_put2 {E : Env} {c : Chain} {bs : List Block} (h : c.Holds E bs) (d : Bytes) : Good E (c.put2 E d) bs := by
  have g := good_put1 h d
  refine ⟨g.1, g.2.1, fun k v e => ?_⟩
  unfold Chain.put2 at e
  simp only [Db.get_insert] at e
  split at e
  · rename_i hk
    cases e
    refine ⟨c.height.val, d, Nat.le_of_eq h.len.symm, rfl, ?_, hk.symm⟩
    unfold Chain.put2
    simp only [Db.get_insert, if_true]
  · exact g.2.2 k v e

/-- The thread that holds the lock, by how far it has come in `add_block`; `c` is the chain as it is now, `bs` the
blocks accepted so far. -/
inductive Holder (E : Env) (bs : List Block) : Chain → Prog Node α → Prop where
  | enter (b : Block) {f : Unit → Prog Node α} {c : Chain} : c.Holds E bs → (∀ a, Adds E (f a)) →
      Holder E bs c (afterLock E b >>= f)
  | right (b : Block) {f : Unit → Prog Node α} {c : Chain} : c.Holds E bs → b.info.height = c.height →
      (∀ a, Adds E (f a)) →
      Holder E bs c ((Node.write (storeBlock b c.height) >>= fun _ => afterStore E b c.height) >>= f)
  | stored (b : Block) {f : Unit → Prog Node α} (c0 : Chain) {c : Chain} : c0.Holds E bs →
      b.info.height = c0.height → Chain.Same (c0.put1 b.dump) c → (∀ a, Adds E (f a)) →
      Holder E bs c (afterStore E b c0.height >>= f)
  | referred (b : Block) {f : Unit → Prog Node α} (c0 : Chain) {c : Chain} : c0.Holds E bs →
      b.info.height = c0.height → Chain.Same (c0.put2 E b.dump) c → (∀ a, Adds E (f a)) →
      Holder E bs c (afterRef c0.height >>= f)
  | leave {g : Prog Node α} {c : Chain} : c.Holds E bs → Adds E g → Holder E bs c (Node.unlock >>= fun _ => g)

theorem Holder.good {E : Env} {bs : List Block} {c : Chain} {p : Prog Node α} (h : Holder E bs c p) : Good E c bs := by
  cases h with
  | enter b h _ => exact good_of_holds h
  | right b h _ _ => exact good_of_holds h
  | stored b c0 h _ hs _ => exact (good_put1 h _).same hs
  | referred b c0 h _ hs _ => exact (good_put2 h _).same hs
  | leave h _ => exact good_of_holds h

theorem Holder.other {E : Env} {bs : List Block} {c c' : Chain} {p : Prog Node α} (h : Holder E bs c p)
    (hs : Chain.Same c c') : Holder E bs c' p := by
  cases h with
  | enter b h hf => exact .enter b (h.same hs) hf
  | right b h hb hf =>
    have := hs.2.2
    rw [← this]
    exact .right b (h.same hs) (hb.trans this.symm) hf
  | stored b c0 h hb h1 hf => exact .stored b c0 h hb (Chain.same_preord.trans h1 hs) hf
  | referred b c0 h hb h1 hf => exact .referred b c0 h hb (Chain.same_preord.trans h1 hs) hf
  | leave h hg => exact .leave (h.same hs) hg

/-- A step of the holder. -/
theorem Holder.step {E : Env} {bs : List Block} {n n' : Node} {next : Node → Option Node} {rest : Node → Prog Node α}
    (h : Holder E bs n.data.main.chain (.step next rest)) (hn : next n = some n') (hheld : n.held = true)
    (hm : n.data.main.chain.height.val + 1 < U256.size) :
    Above n.data.main.chain n'.data.main.chain ∧
    n'.data.main.chain.height.val ≤ n.data.main.chain.height.val + 1 ∧
    ((n'.held = true ∧ ∃ bs', Holder E bs' n'.data.main.chain (rest n)) ∨
     (n'.held = false ∧ ∃ bs', n'.data.main.chain.Holds E bs' ∧ Adds E (rest n))) := by
  generalize hc : n.data.main.chain = c at h hm
  generalize hp : Prog.step next rest = p at h
  cases h with
  | @enter b f _ h hf =>
    cases hp
    cases hn
    rw [hc]
    refine ⟨above_refl _, Nat.le_succ _, .inl ⟨hheld, ?_⟩⟩
    change ∃ bs', Holder E bs' c (afterRead E b n.data.main.chain.height >>= f)
    rw [hc]
    unfold afterRead
    split
    · refine ⟨bs, ?_⟩
      rw [Prog.bind_assoc]
      exact .leave h (.bind (adds_lift E _) hf)
    · rename_i hb
      exact ⟨bs, .right b h (not_not.mp hb) hf⟩
  | @right b f _ h hb hf =>
    cases hp
    cases hn
    have e : (storeBlock b c.height n.data).main.chain = c.put1 b.dump := by
      subst hc; rfl
    simp only [e]
    exact ⟨above_put1 h _, Nat.le_succ _, .inl ⟨hheld, bs, .stored b c h hb (same_refl _) hf⟩⟩
  | @stored b f c0 _ h hb hs hf =>
    cases hp
    cases hn
    have e : Chain.Same (c0.put2 E b.dump) (storeRef E b c0.height n.data).main.chain := by
      subst hc
      obtain ⟨h1, h2, h3⟩ := hs
      refine ⟨h1, ?_, h3⟩
      exact congrArg (fun m => KV.insert m _ _) h2
    refine ⟨?_, by subst hc; exact Nat.le_succ _, .inl ⟨hheld, bs, .referred b c0 h hb e hf⟩⟩
    simp only
    refine above_trans (above_trans ?_ (above_put2 E c0 b.dump)) (above_same e)
    exact above_same ⟨hs.1.symm, hs.2.1.symm, hs.2.2.symm⟩
  | @referred b f c0 _ h hb hs hf =>
    have hm0 : c0.height.val + 1 < U256.size := by rw [hs.2.2] at hm; exact hm
    have hadd : c0.height.add U256.one = .ok ⟨c0.height.val + 1, hm0⟩ := by
      unfold U256.add
      rw [dif_pos (by simpa [U256.one] using hm0)]
      rfl
    unfold afterRef at hp
    rw [hadd] at hp
    cases hp
    cases hn
    have hfin := h.addBlock hb hm0
    rw [hb, Chain.addBlock_right hm0] at hfin
    have e : Chain.Same (c0.put3 E b.dump ⟨c0.height.val + 1, hm0⟩)
        (Node.setChain (fun s => { s with height := ⟨c0.height.val + 1, hm0⟩ }) n.data).main.chain := by
      subst hc
      exact ⟨hs.1, hs.2.1, rfl⟩
    refine ⟨?_, ?_, .inl ⟨hheld, bs ++ [b], ?_⟩⟩
    · subst hc
      refine ⟨?_, fun k v e => e, fun k v e => ⟨v, e⟩⟩
      change n.data.main.chain.height.val ≤ c0.height.val + 1
      rw [hs.2.2]
      exact Nat.le_succ _
    · subst hc
      change c0.height.val + 1 ≤ _
      rw [hs.2.2]
      exact Nat.le_refl _
    · exact .leave (hfin.same e) (hf ())
  | @leave g _ h hg =>
    cases hp
    cases hn
    rw [hc]
    exact ⟨above_refl _, Nat.le_succ _, .inr ⟨rfl, bs, h, hg⟩⟩

/-- The chain and the threads at any moment. -/
def Inv (E : Env) (c : Config ι Node α) : Prop :=
  (c.shared.held = false ∧ (∃ bs, c.shared.data.main.chain.Holds E bs) ∧ ∀ i, Adds E (c.threads i)) ∨
  (c.shared.held = true ∧ ∃ k, (∃ bs, Holder E bs c.shared.data.main.chain (c.threads k)) ∧
    ∀ i, i ≠ k → Adds E (c.threads i))

theorem Inv.good {E : Env} {c : Config ι Node α} (h : Inv E c) : ∃ bs, Good E c.shared.data.main.chain bs := by
  rcases h with ⟨_, ⟨bs, h⟩, _⟩ | ⟨_, k, ⟨bs, h⟩, _⟩
  · exact ⟨bs, good_of_holds h⟩
  · exact ⟨bs, h.good⟩

theorem Inv.step [DecidableEq ι] {E : Env} {c : Config ι Node α} (h : Inv E c) {i : ι} {next : Node → Option Node}
    {rest : Node → Prog Node α} {n' : Node} (hi : c.threads i = .step next rest) (hn : next c.shared = some n')
    (hm : c.shared.data.main.chain.height.val + 1 < U256.size) :
    Above c.shared.data.main.chain n'.data.main.chain ∧
    n'.data.main.chain.height.val ≤ c.shared.data.main.chain.height.val + 1 ∧
    Inv E ⟨n', Function.update c.threads i (rest c.shared)⟩ := by
  rcases h with ⟨h1, ⟨bs, h2⟩, h3⟩ | ⟨h1, k, ⟨bs, h2⟩, h3⟩
  · have others : ∀ j, j ≠ i → Adds E (Function.update c.threads i (rest c.shared) j) := fun j hj => by
      rw [Function.update_of_ne hj]; exact h3 j
    have ht := h3 i
    rw [hi] at ht
    rcases ht.step hn with ⟨hq, ha⟩ | ⟨_, rfl, b, f, e, hf⟩
    · refine ⟨above_same hq.1, by rw [hq.1.2.2]; exact Nat.le_succ _, .inl ⟨hq.2.trans h1, ⟨bs, h2.same hq.1⟩, fun j => ?_⟩⟩
      by_cases hj : j = i
      · subst hj; simp only [Function.update_self]; exact ha
      · exact others j hj
    · refine ⟨above_refl _, Nat.le_succ _, .inr ⟨rfl, i, ⟨bs, ?_⟩, others⟩⟩
      simp only [Function.update_self, e]
      exact .enter b h2 hf
  · by_cases hik : i = k
    · subst hik
      have others : ∀ j, j ≠ i → Adds E (Function.update c.threads i (rest c.shared) j) := fun j hj => by
        rw [Function.update_of_ne hj]; exact h3 j hj
      rw [hi] at h2
      obtain ⟨ha, hle, h⟩ := h2.step hn h1 hm
      refine ⟨ha, hle, ?_⟩
      rcases h with ⟨e, bs', h⟩ | ⟨e, bs', h, hg⟩
      · exact .inr ⟨e, i, ⟨bs', by simp only [Function.update_self]; exact h⟩, others⟩
      · refine .inl ⟨e, ⟨bs', h⟩, fun j => ?_⟩
        by_cases hj : j = i
        · subst hj; simp only [Function.update_self]; exact hg
        · exact others j hj
    · have ht := h3 i hik
      rw [hi] at ht
      rcases ht.step hn with ⟨hq, ha⟩ | ⟨e, _⟩
      · refine ⟨above_same hq.1, by rw [hq.1.2.2]; exact Nat.le_succ _, .inr ⟨hq.2.trans h1, k, ⟨bs, ?_⟩, fun j hj => ?_⟩⟩
        · simp only [Function.update_of_ne (Ne.symm hik)]
          exact h2.other hq.1
        · by_cases hji : j = i
          · subst hji; simp only [Function.update_self]; exact ha
          · simp only [Function.update_of_ne hji]; exact h3 j hj
      · rw [h1] at e; cases e

/-- Every state the threads go through. -/
theorem exec_chain [DecidableEq ι] {E : Env} {start c : Config ι Node α} {log : List (Event ι Node)}
    (h : Exec start log c) (hs : Inv E start)
    (hm : start.shared.data.main.chain.height.val + log.length + 1 < U256.size) :
    Inv E c ∧ c.shared.data.main.chain.height.val ≤ start.shared.data.main.chain.height.val + log.length ∧
    ∀ e ∈ log, (∃ bs, Good E e.before.data.main.chain bs) ∧
      (e.before.held = false → ∃ bs, e.before.data.main.chain.Holds E bs) ∧
      Above e.before.data.main.chain e.after.data.main.chain := by
  induction h with
  | refl => exact ⟨hs, Nat.le_refl _, by simp⟩
  | @step log c i next rest s' _ hi hn ih =>
    rw [List.length_append, List.length_singleton] at hm ⊢
    obtain ⟨h1, h2, h3⟩ := ih (by omega)
    obtain ⟨h4, h6, h5⟩ := h1.step hi hn (by omega)
    refine ⟨h5, by simp only; omega, fun e he => ?_⟩
    rcases List.mem_append.mp he with he | he
    · exact h3 e he
    · rw [List.mem_singleton.mp he]
      refine ⟨h1.good, fun hf => ?_, h4⟩
      rcases h1 with ⟨_, h, _⟩ | ⟨e, _⟩
      · exact h
      · simp only at hf; rw [hf] at e; cases e

/-! ## What lookups see -/

/-- The steps of `find_raw_by_height`, appended to `pre`. -/
def SawHeight (k : U256) (pre hist : List (Node × Node)) (o : Outcome (Option Bytes)) : Prop :=
  ∃ n1 : Node, n1.held = false ∧
    ((hist = pre ++ [(n1, n1)] ∧ n1.data.main.chain.height.val < k.val ∧ o = .ok none) ∨
     ∃ n2 : Node, hist = pre ++ [(n1, n1), (n2, n2)] ∧ k.val ≤ n1.data.main.chain.height.val ∧
      o = .ok (n2.data.main.chain.blocks.get k.toBE.val))

theorem hist_findRawByHeight (k : U256) (pre : List (Node × Node)) :
    Prog.Hist (fun _ => True) (SawHeight k pre) (Node.findRawByHeight k) pre := by
  intro n1 n1' _ hn
  simp only [Option.ite_none_left_eq_some] at hn
  obtain ⟨h1, h2⟩ := hn
  cases h2
  have h1 : n1.held = false := by simpa using h1
  refine ⟨trivial, ?_⟩
  change Prog.Hist _ _ (if n1.data.main.chain.height.val < k.val then pure none else _) _
  split
  · rename_i hlt
    exact ⟨n1, h1, .inl ⟨rfl, hlt, rfl⟩⟩
  · rename_i hle
    intro n2 n2' _ hn
    cases hn
    refine ⟨trivial, n1, h1, .inr ⟨n2, ?_, Nat.le_of_not_lt hle, rfl⟩⟩
    simp

/-- The steps of `get_last_raw_block`. -/
def SawLast (hist : List (Node × Node)) (o : Outcome (Option Bytes)) : Prop :=
  ∃ n1 : Node, n1.held = false ∧ (n1, n1) ∈ hist ∧ (n1.data.main.chain.height.val = 0 ∨
    ∃ i : U256, i.val + 1 = n1.data.main.chain.height.val ∧ SawHeight i [(n1, n1)] hist o)

theorem hist_last : Prog.Hist (fun _ => True) SawLast Node.getLastRawBlock [] := by
  intro n1 n1' _ hn
  simp only [Option.ite_none_left_eq_some] at hn
  obtain ⟨h1, h2⟩ := hn
  cases h2
  have h1 : n1.held = false := by simpa using h1
  refine ⟨trivial, ?_⟩
  by_cases h0 : n1.data.main.chain.height.val = 0
  · exact (Prog.hist_mem (x := (n1, n1)) _ _ (by simp)).mono fun _ _ h => ⟨n1, h1, h, .inl h0⟩
  · have hi := lastIndex (h := n1.data.main.chain.height) (by omega)
    change Prog.Hist _ _ (Prog.lift (n1.data.main.chain.height.sub U256.one) >>= Node.findRawByHeight) _
    rw [hi]
    refine (hist_findRawByHeight _ _).mono fun l o h => ⟨n1, h1, ?_, .inr ⟨_, ?_, h⟩⟩
    · obtain ⟨_, _, ⟨rfl, _⟩ | ⟨_, rfl, _⟩⟩ := h <;> simp
    · simp only
      omega

/-- The steps of `find_raw_by_hash`. -/
def SawHash (q : Hash) (hist : List (Node × Node)) (o : Outcome (Option Bytes)) : Prop :=
  ∃ n1 : Node,
    (n1.data.main.chain.heightReference.get q.val = none ∧ hist = [(n1, n1)] ∧ o = .ok none) ∨
    ∃ v, n1.data.main.chain.heightReference.get q.val = some v ∧ (n1, n1) ∈ hist ∧
      ∀ k : U256, U256.fromBE v = .ok k → SawHeight k [(n1, n1)] hist o

theorem hist_findRawByHash (q : Hash) : Prog.Hist (fun _ => True) (SawHash q) (Node.findRawByHash q) [] := by
  intro n1 n1' _ hn
  cases hn
  refine ⟨trivial, ?_⟩
  cases hg : n1.data.main.chain.heightReference.get q.val with
  | none =>
    change Prog.Hist _ _ (match n1.data.main.chain.heightReference.get q.val with
      | none => pure none
      | some h => _) _
    rw [hg]
    exact ⟨n1, .inl ⟨hg, rfl, rfl⟩⟩
  | some v =>
    change Prog.Hist _ _ (match n1.data.main.chain.heightReference.get q.val with
      | none => pure none
      | some h => Prog.lift (U256.fromBE h) >>= Node.findRawByHeight) _
    rw [hg]
    simp only
    cases hk : U256.fromBE v with
    | ok k =>
      refine (hist_findRawByHeight k _).mono fun l o h => ⟨n1, .inr ⟨v, hg, ?_, fun k' hk' => ?_⟩⟩
      · obtain ⟨_, _, ⟨rfl, _⟩ | ⟨_, rfl, _⟩⟩ := h <;> simp
      · rw [hk] at hk'
        cases hk'
        exact h
    | err e => exact ⟨n1, .inr ⟨v, hg, by simp, fun k' hk' => by rw [hk] at hk'; cases hk'⟩⟩
    | panic e => exact ⟨n1, .inr ⟨v, hg, by simp, fun k' hk' => by rw [hk] at hk'; cases hk'⟩⟩
    | ub => exact ⟨n1, .inr ⟨v, hg, by simp, fun k' hk' => by rw [hk] at hk'; cases hk'⟩⟩

/-- The steps of a lookup. -/
def Saw : Node.Lookup → List (Node × Node) → Outcome (Option Bytes) → Prop
  | .byHeight k => SawHeight k []
  | .byHash q => SawHash q
  | .last => SawLast

theorem hist_lookup (l : Node.Lookup) : Prog.Hist (fun _ => True) (Saw l) l.prog [] := by
  cases l with
  | byHeight k => exact hist_findRawByHeight k []
  | byHash q => exact hist_findRawByHash q
  | last => exact hist_last

theorem first_event [DecidableEq ι] {i : ι} {log : List (Event ι Node)} {x : Node × Node} {l : List (Node × Node)}
    (h : ownSteps i log = x :: l) : ∃ e, log.find? (fun e => e.thread = i) = some e ∧ e.before = x.1 := by
  unfold ownSteps at h
  cases hf : log.filter (fun e => decide (e.thread = i)) with
  | nil => rw [hf] at h; cases h
  | cons e l' =>
    rw [hf] at h
    simp only [List.map_cons, List.cons.injEq] at h
    refine ⟨e, ?_, by rw [← h.1]⟩
    rw [← List.head?_filter, hf]
    rfl

theorem own_sorted [DecidableEq ι] {R : Node → Node → Prop} {log : List (Event ι Node)} (i : ι)
    (h : log.Pairwise (fun a b => R a.after b.before)) : (ownSteps i log).Pairwise (fun a b => R a.2 b.1) := by
  unfold ownSteps
  rw [List.pairwise_map]
  exact h.filter _

/-- What a lookup may answer, given the chain when the lookup made its first step and the chain at some moment after
the lookup ended. A block it returns is found at every later moment; it does not miss a block that was there
when it began. The last block is the one that was last when the lookup began. -/
def Answers (E : Env) : Node.Lookup → MainChain → MainChain → Option Bytes → Prop
  | .byHeight k, first, later, r =>
    (∀ d, r = some d → later.findRawByHeight k = some d) ∧ (r = none → first.findRawByHeight k = none)
  | .byHash q, first, later, r =>
    (∀ d, r = some d → E.sha256 d = q ∧ ∃ k, later.findRawByHeight k = some d) ∧
    (r = none → first.findRawByHash q = .ok none)
  | .last, first, _, r => ∃ d, r = some d ∧ first.getLastRawBlock = .ok (some d)

theorem found_later {c c' : Chain} {k : U256} {d : Bytes} (hk : k.val ≤ c'.height.val) (h : Above c c')
    (hd : c.blocks.get k.toBE.val = some d) : c'.findRawByHeight k = some d := by
  unfold Chain.findRawByHeight
  rw [if_neg (by omega)]
  exact h.2.1 _ _ hd

/-- C100, the part that holds. Any number of threads emit, add blocks and transactions, send, flush and look blocks
up, on a node with any history. Under every schedule, every lookup that has ended has returned `Ok` with an answer
as above. -/
theorem C100_lookup_partial [DecidableEq ι] (E : Env) (s : Tree) (hr : Run E s) (call : ι → Node.AnyCall)
    (log : List (Event ι Node)) (c : Config ι Node (Option Bytes))
    (h : Exec ⟨⟨s, false⟩, fun i => (call i).prog E⟩ log c)
    (hm : s.main.getHeight.val + log.length + 1 < U256.size) (i : ι) (l : Node.Lookup)
    (hl : call i = .lookup l) (o : Outcome (Option Bytes)) (ho : c.threads i = .done o) :
    ∃ r e, o = .ok r ∧ log.find? (fun e => e.thread = i) = some e ∧
      Answers E l e.before.data.main c.shared.data.main r := by
  obtain ⟨bs0, hb0⟩ := run_holds hr (by change s.main.getHeight.val + 1 < _; omega)
  obtain ⟨-, -, hev⟩ := exec_chain h (.inl ⟨rfl, ⟨_, hb0⟩, fun i => adds_call E (call i)⟩) hm
  obtain ⟨-, hso, hpw⟩ := h.sorted (R := fun a b => Above a.data.main.chain b.data.main.chain)
    (fun s => above_refl _) (fun _ _ _ => above_trans) (fun e he => (hev e he).2.2)
  have hown := own_sorted (R := fun a b => Above a.data.main.chain b.data.main.chain) i hpw
  have hP : Prog.Hist (fun _ => True) (Saw l) (.done o) (ownSteps i log) := by
    have := (h.hist (J := fun _ => True) (P := fun j l' o' => j = i → Saw l l' o') trivial (fun j => by
      by_cases hj : j = i
      · subst hj
        simp only [hl]
        exact (hist_lookup l).mono fun _ _ h _ => h
      · exact (Prog.hist_true _ _).mono fun _ _ _ e => absurd e hj)).2.2 i
    rw [ho] at this
    exact this rfl
  have hmem : ∀ n ∈ ownSteps i log, (∃ bs, Good E n.1.data.main.chain bs) ∧
      (n.1.held = false → ∃ bs, n.1.data.main.chain.Holds E bs) ∧
      1 ≤ n.1.data.main.chain.height.val ∧ Above n.2.data.main.chain c.shared.data.main.chain := by
    intro n hn
    have he := mem_ownSteps hn
    have h1 := hev _ he
    have h2 := hso _ he
    have h3 : s.main.chain.height.val ≤ n.1.data.main.chain.height.val := h2.1.1
    have h4 := hb0.len
    simp only [List.length_cons] at h4
    exact ⟨h1.1, h1.2.1, by omega, h2.2⟩
  generalize hlist : ownSteps i log = hist at hP hown hmem
  cases l with
  | byHeight k =>
    obtain ⟨n1, hf, ⟨rfl, hlt, rfl⟩ | ⟨n2, rfl, hle, rfl⟩⟩ := hP
    · obtain ⟨e, he, hb⟩ := first_event hlist
      refine ⟨_, e, rfl, he, fun d hd => (by cases hd), fun _ => ?_⟩
      rw [hb]
      exact if_pos hlt
    · obtain ⟨e, he, hb⟩ := first_event hlist
      have h12 : Above n1.data.main.chain n2.data.main.chain := by
        simp only [List.nil_append, List.pairwise_cons] at hown
        exact hown.1 (n2, n2) (by simp)
      have h2c := (hmem (n2, n2) (by simp)).2.2.2
      refine ⟨_, e, rfl, he, fun d hd => found_later (hle.trans (above_trans h12 h2c).1) h2c hd, fun hn => ?_⟩
      rw [hb]
      refine (if_neg (by simp only; omega)).trans ?_
      simp only
      cases hg : n1.data.main.chain.blocks.get k.toBE.val with
      | none => rfl
      | some d => rw [h12.2.1 _ _ hg] at hn; cases hn
  | byHash q =>
    obtain ⟨n1, ⟨hg, rfl, rfl⟩ | ⟨v, hg, hmem1, hsaw⟩⟩ := hP
    · obtain ⟨e, he, hb⟩ := first_event hlist
      refine ⟨_, e, rfl, he, fun d hd => (by cases hd), fun _ => ?_⟩
      rw [hb]
      unfold MainChain.findRawByHash Chain.findRawByHash
      simp only [hg]
    · obtain ⟨bs, hgood⟩ := (hmem _ hmem1).1
      obtain ⟨j, raw, hj, rfl, hraw, hsha⟩ := hgood.2.2 _ _ hg
      have hjh : j ≤ n1.data.main.chain.height.val := hgood.1 ▸ hj
      have hjlt : j < U256.size := lt_of_le_of_lt hjh n1.data.main.chain.height.lt
      obtain ⟨n2, hf2, ⟨rfl, hlt, rfl⟩ | ⟨n3, rfl, hle, rfl⟩⟩ := hsaw ⟨j, hjlt⟩ (fromBE_toBE ⟨j, hjlt⟩)
      · exfalso
        simp only [List.cons_append, List.nil_append, List.pairwise_cons] at hown
        have := (hown.1 (n2, n2) (by simp)).1
        simp only at this hlt
        omega
      · simp only [List.cons_append, List.nil_append, List.pairwise_cons] at hown hlist
        obtain ⟨e, he, hb⟩ := first_event hlist
        have h13 : Above n1.data.main.chain n3.data.main.chain := hown.1 (n3, n3) (by simp)
        have h3c := (hmem (n3, n3) (by simp)).2.2.2
        have hd := h13.2.1 _ _ hraw
        have hd' : n3.data.main.chain.blocks.get (⟨j, hjlt⟩ : U256).toBE.val = some raw := hd
        rw [hd']
        refine ⟨_, e, rfl, he, fun d hd => ?_, fun hn => by cases hn⟩
        cases hd
        refine ⟨(Subtype.ext hsha).symm, ⟨j, hjlt⟩, found_later ?_ h3c hd'⟩
        exact hjh.trans (above_trans h13 h3c).1
  | last =>
    obtain ⟨n1, hf, hmem1, h0⟩ := hP
    rcases h0 with h0 | ⟨k, hk, hsaw⟩
    · have := (hmem _ hmem1).2.2.1
      simp only at this
      omega
    obtain ⟨bs, hb⟩ := (hmem _ hmem1).2.1 hf
    obtain ⟨n2, hf2, ⟨rfl, hlt, rfl⟩ | ⟨n3, rfl, hle, rfl⟩⟩ := hsaw
    · exfalso
      simp only [List.cons_append, List.nil_append, List.pairwise_cons] at hown
      have := (hown.1 (n2, n2) (by simp)).1
      simp only at this hlt
      omega
    · simp only [List.cons_append, List.nil_append, List.pairwise_cons] at hown hlist
      obtain ⟨e, he, hbe⟩ := first_event hlist
      have h13 : Above n1.data.main.chain n3.data.main.chain := hown.1 (n3, n3) (by simp)
      have hlen : bs.length = n1.data.main.chain.height.val := hb.len
      have hst := hb.stored k.val (by omega)
      refine ⟨_, e, rfl, he, _, h13.2.1 _ _ hst, ?_⟩
      rw [hbe]
      unfold MainChain.getLastRawBlock
      rw [lastIndex (h := n1.data.main.chain.height) (by omega)]
      have he : (⟨n1.data.main.chain.height.val - 1, by have := n1.data.main.chain.height.lt; omega⟩ : U256) = k :=
        U256.ext (by simp only; omega)
      simp only [Outcome.ok_bind, he]
      refine congrArg _ ((if_neg (by omega)).trans hst)

/-- The theorem is about something: on every node, lookups and other calls of finitely many threads all end. -/
example (E : Env) (b : Block) : ∃ (log : List (Event (Fin 4) Node)) (c : Config (Fin 4) Node (Option Bytes)),
    Exec ⟨⟨(openTree E Disk.empty).final, false⟩, fun i => (if i = 0 then Node.AnyCall.shared (.handle (.addBlock b))
      else if i = 1 then .lookup (.byHeight U256.one) else if i = 2 then .lookup (.byHash (b.hash E))
      else .lookup .last).prog E⟩ log c ∧
    Run E (openTree E Disk.empty).final ∧
    (openTree E Disk.empty).final.main.getHeight.val + log.length + 1 < U256.size ∧
    ∀ i, ∃ o, c.threads i = .done o := by
  obtain ⟨_, log, c, h, hall⟩ := C99_all_end E (openTree E Disk.empty).final (fun i : Fin 4 =>
    if i = 0 then Node.AnyCall.shared (.handle (.addBlock b)) else if i = 1 then .lookup (.byHeight U256.one)
      else if i = 2 then .lookup (.byHash (b.hash E)) else .lookup .last) [] _ .refl
  refine ⟨log, c, h, .fresh, ?_, hall⟩
  have hl := (C99_all_end _ _ _ _ _ h).1
  have h1 : (openTree E Disk.empty).final.main.getHeight.val = 1 := by rw [(openTree_fresh E).2]; rfl
  rw [h1]
  simp only [List.nil_append, Fintype.card_fin] at hl
  unfold U256.size
  omega

/-! ## C100 -/

/-- A thread looks up the block of a height and then, if there is one, looks it up by its hash; it returns whether it
was found again. -/
def foundAgain (E : Env) (k : U256) : Prog Node Bool := do
  let r ← Node.findRawByHeight k
  match r with
  | none => pure true
  | some d => do
    let r' ← Node.findRawByHash (E.sha256 d)
    pure r'.isSome

/-- One thread adds a block while the other looks up. -/
def addAndLook (E : Env) (s : Tree) (b : Block) (k : U256) : Config Bool Node Bool :=
  ⟨⟨s, false⟩, fun i => if i then foundAgain E k else Node.addBlock E b >>= fun _ => pure true⟩

/-- C100 in full: blocks appear to readers at once; a block that is found by height is from then on found by hash. -/
def C100_full : Prop := ∀ (E : Env) (s : Tree) (b : Block) (k : U256) (log : List (Event Bool Node))
  (c : Config Bool Node Bool), Run E s → s.main.getHeight.val + 1 < U256.size →
  Exec (addAndLook E s b k) log c → c.threads true ≠ .done (.ok false)

/-- In every state, for every block that can be added and whose hash is new, some schedule shows the block to a
reader and then denies it to the same reader. -/
theorem seen_then_denied (E : Env) (s : Tree) (b : Block) (hb : b.info.height = s.main.getHeight)
    (hnew : s.main.chain.heightReference.get (E.sha256 b.dump).val = none) :
    ∃ log c, Exec (addAndLook E s b s.main.getHeight) log c ∧ c.threads true = .done (.ok false) := by
  obtain ⟨look, hlook⟩ : ∃ look : Option Bytes → Prog Node Bool, look = fun r => match r with
    | none => pure true
    | some d => Node.findRawByHash (E.sha256 d) >>= fun r' => pure r'.isSome := ⟨_, rfl⟩
  have r1 : Prog.Runs (foundAgain E s.main.getHeight) ⟨s, false⟩
      (Node.read (fun t => .ok (t.main.chain.blocks.get s.main.getHeight.toBE.val)) >>= look) ⟨s, false⟩ := by
    subst hlook
    refine .step (s' := ⟨s, false⟩) rfl ?_
    have : ∀ p q : Prog Node Bool, p = q → Prog.Runs p ⟨s, false⟩ q ⟨s, false⟩ := fun _ _ e => e ▸ .refl
    refine this _ _ ?_
    change (if s.main.chain.height.val < s.main.getHeight.val then (pure none : Prog Node (Option Bytes)) else _) >>= _ = _
    rw [if_neg (show ¬ s.main.chain.height.val < s.main.getHeight.val from Nat.lt_irrefl _)]
  obtain ⟨s1, hs1⟩ : ∃ s1, s1 = storeBlock b s.main.getHeight s := ⟨_, rfl⟩
  have r2 : Prog.Runs (Node.addBlock E b >>= fun _ => pure true) ⟨s, false⟩
      (afterStore E b s.main.getHeight >>= fun _ => pure true) ⟨s1, true⟩ := by
    refine .step (s' := ⟨s, true⟩) rfl (.step (s' := ⟨s, true⟩) rfl ?_)
    have : afterRead E b s.main.getHeight = Node.write (storeBlock b s.main.getHeight) >>= fun _ =>
        afterStore E b s.main.getHeight := by
      unfold afterRead; rw [if_neg (by simp [hb])]
    change Prog.Runs (afterRead E b s.main.getHeight >>= fun _ => pure true) _ _ _
    rw [this]
    exact .step (s' := ⟨s1, true⟩) (by rw [hs1]) .refl
  have r3 : Prog.Runs (Node.read (fun t => .ok (t.main.chain.blocks.get s.main.getHeight.toBE.val)) >>= look)
      ⟨s1, true⟩ (.done (.ok false)) ⟨s1, true⟩ := by
    refine .step (s' := ⟨s1, true⟩) rfl ?_
    change Prog.Runs (look (s1.main.chain.blocks.get s.main.getHeight.toBE.val)) _ _ _
    have hget : s1.main.chain.blocks.get s.main.getHeight.toBE.val = some b.dump := by
      rw [hs1]
      change (s.main.chain.blocks.insert _ _).get _ = _
      rw [Db.get_insert, if_pos rfl]
    rw [hget, hlook]
    refine .step (s' := ⟨s1, true⟩) rfl ?_
    have href : s1.main.chain.heightReference.get (E.sha256 b.dump).val = none := by rw [hs1]; exact hnew
    change Prog.Runs ((match s1.main.chain.heightReference.get (E.sha256 b.dump).val with
      | none => pure none
      | some h => _) >>= _) _ _ _
    rw [href]
    exact .refl
  obtain ⟨l1, h1⟩ := (Exec.refl (start := addAndLook E s b s.main.getHeight)).go true rfl r1
  obtain ⟨l2, h2⟩ := h1.go false rfl r2
  obtain ⟨l3, h3⟩ := h2.go true rfl r3
  exact ⟨_, _, h3, by simp⟩

/-- C100 is false of the code: in every state, for every block that can be added and whose hash is new, some schedule
shows the block to a reader by height and then denies it to the same reader by hash. -/
theorem C100_refuted :
    (∀ (E : Env) (s : Tree) (b : Block), b.info.height = s.main.getHeight →
      s.main.chain.heightReference.get (E.sha256 b.dump).val = none →
      ∃ log c, Exec (addAndLook E s b s.main.getHeight) log c ∧ c.threads true = .done (.ok false)) ∧
    ¬ C100_full := by
  refine ⟨seen_then_denied, fun hfull => ?_⟩
  obtain ⟨log, c, h1, h2⟩ := seen_then_denied (shaEnv true) (openTree (shaEnv true) Disk.empty).final
    (.summarize ⟨⟨0, BytesN.fill 32 0, BytesN.fill 32 0, U256.one, BytesN.fill 32 0, ROOT_PUBLIC_ADDRESS⟩, BytesN.fill 32 0⟩)
    (by decide +kernel) (by decide +kernel)
  exact hfull _ _ _ _ log c .fresh (by decide +kernel) h1 h2

end BCT.Props
