import Verif.Props.ThreadsLinked
/-!
# Threads adding blocks to a chain behind a lock, wherever in the shared state it is

The invariant of C100 (`Props/ThreadsRead.lean`) for any place of the chain.
-/

namespace BCT

/-- Where a chain and its lock are in the shared state. -/
structure Slot (σ : Type) where
  get : σ → Locked Chain
  set : Locked Chain → σ → σ
  get_set : ∀ c s, get (set c s) = c

namespace Slot

variable {σ α β : Type} (L : Slot σ)

def lock : Prog σ Unit :=
  .step (fun s => if (L.get s).held then none else some (L.set { L.get s with held := true } s)) fun _ => .done (.ok ())

def unlock : Prog σ Unit :=
  .step (fun s => some (L.set { L.get s with held := false } s)) fun _ => .done (.ok ())

def read (f : Chain → Outcome α) : Prog σ α := .step (fun s => some s) fun s => .done (f (L.get s).data)

def write (f : Chain → Chain) : Prog σ Unit :=
  .step (fun s => some (L.set { L.get s with data := f (L.get s).data } s)) fun _ => .done (.ok ())

def storeBlock (b : Block) (h : U256) (s : Chain) : Chain := { s with blocks := s.blocks.insert h.toBE.val b.dump }

def storeRef (E : Env) (b : Block) (h : U256) (s : Chain) : Chain :=
  { s with heightReference := s.heightReference.insert (E.sha256 b.dump).val h.toBE.val }

def afterRef (h : U256) : Prog σ Unit :=
  match h.add U256.one with
  | .ok h' => do
    L.write (fun s => { s with height := h' })
    L.unlock
  | o => do
    L.unlock
    let _ ← .lift o
    pure ()

def afterStore (E : Env) (b : Block) (h : U256) : Prog σ Unit := do
  L.write (storeRef E b h)
  L.afterRef h

def afterRead (E : Env) (b : Block) (h : U256) : Prog σ Unit :=
  if b.info.height ≠ h then do
    L.unlock
    .lift (.err .chainAddingBlock)
  else do
    L.write (storeBlock b h)
    L.afterStore E b h

def afterLock (E : Env) (b : Block) : Prog σ Unit := do
  let h ← L.read (fun c => .ok c.height)
  L.afterRead E b h

/-- The steps of `add_block`. -/
def addBlock (E : Env) (b : Block) : Prog σ Unit := do
  L.lock
  L.afterLock E b

/-- The step leaves the chain's contents and the lock as they are. -/
def Quiet (s s' : σ) : Prop := Chain.Same (L.get s).data (L.get s').data ∧ (L.get s').held = (L.get s).held

/-- The program changes the chain's contents only by whole `add_block` calls, of blocks as `P` says. -/
inductive Adds (E : Env) (P : Block → Prop) : Prog σ α → Prop where
  | done (o : Outcome α) : Adds E P (.done o)
  | quiet {next : σ → Option σ} {rest : σ → Prog σ α} :
      (∀ n n', next n = some n' → L.Quiet n n') → (∀ n, Adds E P (rest n)) → Adds E P (.step next rest)
  | add (b : Block) {f : Unit → Prog σ α} : P b → (∀ a, Adds E P (f a)) → Adds E P (L.addBlock E b >>= f)

variable {L} {P : Block → Prop}

/-- The chain holds the blocks, and they are as `P` says. -/
structure HoldsOf (E : Env) (P : Block → Prop) (c : Chain) (bs : List Block) : Prop where
  holds : c.Holds E bs
  all : ∀ b ∈ bs, P b

theorem HoldsOf.same {E : Env} {c c' : Chain} {bs : List Block} (h : HoldsOf E P c bs) (hs : Chain.Same c c') :
    HoldsOf E P c' bs := ⟨h.holds.same hs, h.all⟩

theorem Adds.bind {E : Env} {p : Prog σ α} {f : α → Prog σ β} (hp : L.Adds E P p) (hf : ∀ a, L.Adds E P (f a)) :
    L.Adds E P (p >>= f) := by
  induction hp with
  | done o => cases o with
    | ok a => exact hf a
    | err e => exact .done _
    | panic e => exact .done _
    | ub => exact .done _
  | quiet h _ ih => exact .quiet h ih
  | add b hb _ ih => rw [Prog.bind_assoc]; exact .add b hb ih

theorem adds_lift (E : Env) (o : Outcome α) : L.Adds E P (Prog.lift o) := .done o
theorem adds_pure (E : Env) (a : α) : L.Adds E P (pure a) := .done _

theorem quiet_refl (s : σ) : L.Quiet s s := ⟨⟨rfl, rfl, rfl⟩, rfl⟩

theorem adds_addBlock (E : Env) (b : Block) (hb : P b) : L.Adds E P (L.addBlock E b) := by
  have h : ∀ p : Prog σ Unit, p = p >>= fun a => (pure a : Prog σ Unit) := by
    intro p
    change p = Prog.bind p _
    induction p with
    | done o => cases o <;> rfl
    | step next rest ih => simp only [Prog.bind]; congr 1; funext s; exact ih s
  rw [h (L.addBlock E b)]
  exact .add b hb fun _ => .done _

/-- A step of such a program. -/
theorem Adds.step {E : Env} {next : σ → Option σ} {rest : σ → Prog σ α} (h : L.Adds E P (.step next rest))
    {n n' : σ} (hn : next n = some n') :
    (L.Quiet n n' ∧ L.Adds E P (rest n)) ∨
    ((L.get n).held = false ∧ L.get n' = { L.get n with held := true } ∧
      ∃ b f, P b ∧ rest n = L.afterLock E b >>= f ∧ ∀ a, L.Adds E P (f a)) := by
  generalize hp : Prog.step next rest = p at h
  cases h with
  | done o => cases hp
  | quiet h1 h2 =>
    cases hp
    exact .inl ⟨h1 n n' hn, h2 n⟩
  | add b hb hf =>
    cases hp
    right
    simp only [Option.ite_none_left_eq_some] at hn
    obtain ⟨h1, h2⟩ := hn
    cases h2
    exact ⟨by simpa using h1, L.get_set _ _, b, _, hb, rfl, hf⟩

open Props in
/-- The thread that holds the lock, by how far it has come in `add_block`; `c` is the chain as it is now, `bs` the
blocks accepted so far. -/
inductive Holder (L : Slot σ) (E : Env) (P : Block → Prop) (bs : List Block) : Chain → Prog σ α → Prop where
  | enter (b : Block) {f : Unit → Prog σ α} {c : Chain} : P b → HoldsOf E P c bs → (∀ a, L.Adds E P (f a)) →
      Holder L E P bs c (L.afterLock E b >>= f)
  | right (b : Block) {f : Unit → Prog σ α} {c : Chain} : P b → HoldsOf E P c bs → b.info.height = c.height →
      (∀ a, L.Adds E P (f a)) →
      Holder L E P bs c ((L.write (storeBlock b c.height) >>= fun _ => L.afterStore E b c.height) >>= f)
  | stored (b : Block) {f : Unit → Prog σ α} (c0 : Chain) {c : Chain} : P b → HoldsOf E P c0 bs →
      b.info.height = c0.height → Chain.Same (c0.put1 b.dump) c → (∀ a, L.Adds E P (f a)) →
      Holder L E P bs c (L.afterStore E b c0.height >>= f)
  | referred (b : Block) {f : Unit → Prog σ α} (c0 : Chain) {c : Chain} : P b → HoldsOf E P c0 bs →
      b.info.height = c0.height → Chain.Same (c0.put2 E b.dump) c → (∀ a, L.Adds E P (f a)) →
      Holder L E P bs c (L.afterRef c0.height >>= f)
  | leave {g : Prog σ α} {c : Chain} : HoldsOf E P c bs → L.Adds E P g → Holder L E P bs c (L.unlock >>= fun _ => g)

open Props

/-- Every reference leads to a stored block of that hash, as `P` says and stored at its height; it may be the block
just being added. -/
def Backed (E : Env) (P : Block → Prop) (c : Chain) : Prop :=
  ∀ k v, c.heightReference.get k = some v → ∃ b : Block, P b ∧ v = b.info.height.toBE.val ∧
    c.blocks.get v = some b.dump ∧ k = (b.hash E).val

theorem Backed.same {E : Env} {c c' : Chain} (h : Backed E P c) (hs : Chain.Same c c') : Backed E P c' := by
  obtain ⟨h1, h2, h3⟩ := hs
  intro k v e
  unfold Db.get at e
  rw [h2] at e
  obtain ⟨b, a1, a2, a3, a4⟩ := h k v e
  exact ⟨b, a1, a2, by unfold Db.get; rw [h1]; exact a3, a4⟩

theorem HoldsOf.backed {E : Env} {c : Chain} {bs : List Block} (h : HoldsOf E P c bs) : Backed E P c := by
  intro k v e
  obtain ⟨i, hi, rfl, hk⟩ := h.holds.refs k v e
  have hh := h.holds.heights i hi
  refine ⟨bs[i], h.all _ (List.getElem_mem hi), ?_, h.holds.stored i hi, hk⟩
  change beBytes 32 i = beBytes 32 bs[i].info.height.val
  rw [hh]

theorem backed_put1 {E : Env} {c : Chain} {bs : List Block} (h : HoldsOf E P c bs) (d : Bytes) :
    Backed E P (c.put1 d) := by
  intro k v e
  obtain ⟨b, a1, a2, a3, a4⟩ := h.backed k v e
  exact ⟨b, a1, a2, (above_put1 h.holds d).2.1 _ _ a3, a4⟩

theorem backed_put2 {E : Env} {c : Chain} {bs : List Block} (h : HoldsOf E P c bs) (b : Block) (p : P b)
    (hb : b.info.height = c.height) : Backed E P (c.put2 E b.dump) := by
  intro k v e
  unfold Chain.put2 at e
  simp only [Db.get_insert] at e
  split at e
  · rename_i hk
    cases e
    refine ⟨b, p, by rw [hb], ?_, hk.symm⟩
    unfold Chain.put2
    simp only [Db.get_insert, if_true]
  · exact backed_put1 h b.dump k v e

theorem Holder.backed {E : Env} {bs : List Block} {c : Chain} {p : Prog σ α} (h : L.Holder E P bs c p) :
    Backed E P c := by
  cases h with
  | enter b _ h _ => exact h.backed
  | right b _ h _ _ => exact h.backed
  | stored b c0 _ h _ hs _ => exact (backed_put1 h _).same hs
  | referred b c0 pb h hb hs _ => exact (backed_put2 h b pb hb).same hs
  | leave h _ => exact h.backed

theorem Holder.good {E : Env} {bs : List Block} {c : Chain} {p : Prog σ α} (h : L.Holder E P bs c p) : Good E c bs := by
  cases h with
  | enter b _ h _ => exact good_of_holds h.holds
  | right b _ h _ _ => exact good_of_holds h.holds
  | stored b c0 _ h _ hs _ => exact (good_put1 h.holds _).same hs
  | referred b c0 _ h _ hs _ => exact (good_put2 h.holds _).same hs
  | leave h _ => exact good_of_holds h.holds

theorem Holder.other {E : Env} {bs : List Block} {c c' : Chain} {p : Prog σ α} (h : L.Holder E P bs c p)
    (hs : Chain.Same c c') : L.Holder E P bs c' p := by
  cases h with
  | enter b p h hf => exact .enter b p (h.same hs) hf
  | right b p h hb hf =>
    have := hs.2.2
    rw [← this]
    exact .right b p (h.same hs) (hb.trans this.symm) hf
  | stored b c0 p h hb h1 hf => exact .stored b c0 p h hb (Chain.same_preord.trans h1 hs) hf
  | referred b c0 p h hb h1 hf => exact .referred b c0 p h hb (Chain.same_preord.trans h1 hs) hf
  | leave h hg => exact .leave (h.same hs) hg

/-- A step of the holder. -/
theorem Holder.step {E : Env} {bs : List Block} {n n' : σ} {next : σ → Option σ} {rest : σ → Prog σ α}
    (h : L.Holder E P bs (L.get n).data (.step next rest)) (hn : next n = some n') (hheld : (L.get n).held = true)
    (hm : (L.get n).data.height.val + 1 < U256.size) :
    Above (L.get n).data (L.get n').data ∧
    (L.get n').data.height.val ≤ (L.get n).data.height.val + 1 ∧
    (((L.get n').held = true ∧ ∃ bs', L.Holder E P bs' (L.get n').data (rest n)) ∨
     ((L.get n').held = false ∧ ∃ bs', HoldsOf E P (L.get n').data bs' ∧ L.Adds E P (rest n))) := by
  generalize hc : (L.get n).data = c at h hm
  generalize hp : Prog.step next rest = q at h
  cases h with
  | @enter b f _ p h hf =>
    cases hp
    cases hn
    rw [hc]
    refine ⟨above_refl _, Nat.le_succ _, .inl ⟨hheld, ?_⟩⟩
    change ∃ bs', L.Holder E P bs' c (L.afterRead E b (L.get n).data.height >>= f)
    rw [hc]
    unfold afterRead
    split
    · refine ⟨bs, ?_⟩
      rw [Prog.bind_assoc]
      exact .leave h (.bind (adds_lift E _) hf)
    · rename_i hb
      exact ⟨bs, .right b p h (not_not.mp hb) hf⟩
  | @right b f _ p h hb hf =>
    cases hp
    cases hn
    rw [L.get_set]
    have e : storeBlock b c.height (L.get n).data = c.put1 b.dump := by
      subst hc; rfl
    simp only [e]
    exact ⟨above_put1 h.holds _, Nat.le_succ _, .inl ⟨hheld, bs, .stored b c p h hb (same_refl _) hf⟩⟩
  | @stored b f c0 _ p h hb hs hf =>
    cases hp
    cases hn
    rw [L.get_set]
    have e : Chain.Same (c0.put2 E b.dump) (storeRef E b c0.height (L.get n).data) := by
      subst hc
      obtain ⟨h1, h2, h3⟩ := hs
      refine ⟨h1, ?_, h3⟩
      exact congrArg (fun m => KV.insert m _ _) h2
    refine ⟨?_, by subst hc; exact Nat.le_succ _, .inl ⟨hheld, bs, .referred b c0 p h hb e hf⟩⟩
    simp only
    refine above_trans (above_trans ?_ (above_put2 E c0 b.dump)) (above_same e)
    exact above_same ⟨hs.1.symm, hs.2.1.symm, hs.2.2.symm⟩
  | @referred b f c0 _ p h hb hs hf =>
    have hm0 : c0.height.val + 1 < U256.size := by rw [hs.2.2] at hm; exact hm
    have hadd : c0.height.add U256.one = .ok ⟨c0.height.val + 1, hm0⟩ := by
      unfold U256.add
      rw [dif_pos (by simpa [U256.one] using hm0)]
      rfl
    unfold afterRef at hp
    rw [hadd] at hp
    cases hp
    cases hn
    rw [L.get_set]
    have hfin := h.holds.addBlock hb hm0
    rw [hb, Chain.addBlock_right hm0] at hfin
    have e : Chain.Same (c0.put3 E b.dump ⟨c0.height.val + 1, hm0⟩)
        { (L.get n).data with height := ⟨c0.height.val + 1, hm0⟩ } := by
      subst hc
      exact ⟨hs.1, hs.2.1, rfl⟩
    refine ⟨?_, ?_, .inl ⟨hheld, bs ++ [b], ?_⟩⟩
    · subst hc
      refine ⟨?_, fun k v e => e, fun k v e => ⟨v, e⟩⟩
      change (L.get n).data.height.val ≤ c0.height.val + 1
      rw [hs.2.2]
      exact Nat.le_succ _
    · subst hc
      change c0.height.val + 1 ≤ _
      rw [hs.2.2]
      exact Nat.le_refl _
    · exact .leave ⟨hfin.same e, fun x hx => by
        rcases List.mem_append.mp hx with hx | hx
        · exact h.all x hx
        · rw [List.mem_singleton.mp hx]; exact p⟩ (hf ())
  | @leave g _ h hg =>
    cases hp
    cases hn
    rw [L.get_set, hc]
    exact ⟨above_refl _, Nat.le_succ _, .inr ⟨rfl, bs, h, hg⟩⟩

variable {ι : Type}

/-- The chain and the threads at any moment. -/
def Inv (L : Slot σ) (E : Env) (P : Block → Prop) (c : Config ι σ α) : Prop :=
  ((L.get c.shared).held = false ∧ (∃ bs, HoldsOf E P (L.get c.shared).data bs) ∧ ∀ i, L.Adds E P (c.threads i)) ∨
  ((L.get c.shared).held = true ∧ ∃ k, (∃ bs, L.Holder E P bs (L.get c.shared).data (c.threads k)) ∧
    ∀ i, i ≠ k → L.Adds E P (c.threads i))

theorem Inv.good {E : Env} {c : Config ι σ α} (h : L.Inv E P c) : ∃ bs, Good E (L.get c.shared).data bs := by
  rcases h with ⟨_, ⟨bs, h⟩, _⟩ | ⟨_, k, ⟨bs, h⟩, _⟩
  · exact ⟨bs, good_of_holds h.holds⟩
  · exact ⟨bs, h.good⟩

theorem Inv.backed {E : Env} {c : Config ι σ α} (h : L.Inv E P c) : Backed E P (L.get c.shared).data := by
  rcases h with ⟨_, ⟨bs, h⟩, _⟩ | ⟨_, k, ⟨bs, h⟩, _⟩
  · exact h.backed
  · exact h.backed

theorem Inv.step [DecidableEq ι] {E : Env} {c : Config ι σ α} (h : L.Inv E P c) {i : ι} {next : σ → Option σ}
    {rest : σ → Prog σ α} {n' : σ} (hi : c.threads i = .step next rest) (hn : next c.shared = some n')
    (hm : (L.get c.shared).data.height.val + 1 < U256.size) :
    Above (L.get c.shared).data (L.get n').data ∧
    (L.get n').data.height.val ≤ (L.get c.shared).data.height.val + 1 ∧
    L.Inv E P ⟨n', Function.update c.threads i (rest c.shared)⟩ := by
  rcases h with ⟨h1, ⟨bs, h2⟩, h3⟩ | ⟨h1, k, ⟨bs, h2⟩, h3⟩
  · have others : ∀ j, j ≠ i → L.Adds E P (Function.update c.threads i (rest c.shared) j) := fun j hj => by
      rw [Function.update_of_ne hj]; exact h3 j
    have ht := h3 i
    rw [hi] at ht
    rcases ht.step hn with ⟨hq, ha⟩ | ⟨_, e', b, f, pb, e, hf⟩
    · refine ⟨above_same hq.1, by rw [hq.1.2.2]; exact Nat.le_succ _, .inl ⟨hq.2.trans h1, ⟨bs, h2.same hq.1⟩, fun j => ?_⟩⟩
      by_cases hj : j = i
      · subst hj; simp only [Function.update_self]; exact ha
      · exact others j hj
    · unfold Inv
      simp only [e']
      refine ⟨above_refl _, Nat.le_succ _, .inr ⟨trivial, i, ⟨bs, ?_⟩, others⟩⟩
      simp only [Function.update_self, e]
      exact .enter b pb h2 hf
  · by_cases hik : i = k
    · subst hik
      have others : ∀ j, j ≠ i → L.Adds E P (Function.update c.threads i (rest c.shared) j) := fun j hj => by
        rw [Function.update_of_ne hj]; exact h3 j hj
      rw [hi] at h2
      obtain ⟨ha, hle, h⟩ := h2.step hn h1 hm
      refine ⟨ha, hle, ?_⟩
      rcases h with ⟨e, bs', h⟩ | ⟨e, bs', h, hg⟩
      · exact .inr ⟨e, i, ⟨bs', by simp only [Function.update_self]; exact h⟩, others⟩
      · refine .inl ⟨e, ⟨bs', h⟩, fun j => ?_⟩
        by_cases hj : j = i
        · subst hj; simp only [Function.update_self]; exact hg
        · exact others j hj
    · have ht := h3 i hik
      rw [hi] at ht
      rcases ht.step hn with ⟨hq, ha⟩ | ⟨e, _⟩
      · refine ⟨above_same hq.1, by rw [hq.1.2.2]; exact Nat.le_succ _, .inr ⟨hq.2.trans h1, k, ⟨bs, ?_⟩, fun j hj => ?_⟩⟩
        · simp only [Function.update_of_ne (Ne.symm hik)]
          exact h2.other hq.1
        · by_cases hji : j = i
          · subst hji; simp only [Function.update_self]; exact ha
          · simp only [Function.update_of_ne hji]; exact h3 j hj
      · rw [h1] at e; cases e

/-- Every state the threads go through. -/
theorem exec_chain [DecidableEq ι] {E : Env} {start c : Config ι σ α} {log : List (Event ι σ)}
    (h : Exec start log c) (hs : L.Inv E P start)
    (hm : (L.get start.shared).data.height.val + log.length + 1 < U256.size) :
    L.Inv E P c ∧ (L.get c.shared).data.height.val ≤ (L.get start.shared).data.height.val + log.length ∧
    ∀ e ∈ log, Backed E P (L.get e.before).data ∧
      ((L.get e.before).held = false → ∃ bs, HoldsOf E P (L.get e.before).data bs) ∧
      Above (L.get e.before).data (L.get e.after).data := by
  induction h with
  | refl => exact ⟨hs, Nat.le_refl _, by simp⟩
  | @step log c i next rest s' _ hi hn ih =>
    rw [List.length_append, List.length_singleton] at hm ⊢
    obtain ⟨h1, h2, h3⟩ := ih (by omega)
    obtain ⟨h4, h6, h5⟩ := h1.step hi hn (by omega)
    refine ⟨h5, by simp only; omega, fun e he => ?_⟩
    rcases List.mem_append.mp he with he | he
    · exact h3 e he
    · rw [List.mem_singleton.mp he]
      refine ⟨h1.backed, fun hf => ?_, h4⟩
      rcases h1 with ⟨_, h, _⟩ | ⟨e, _⟩
      · exact h
      · simp only at hf; rw [hf] at e; cases e

/-! ## What a thread that added a block did -/

/-- The steps `add_block` took when it returned `Ok`. -/
def DidStore (L : Slot σ) (b : Block) (l : List (σ × σ)) : Prop :=
  ∃ n m m' : σ, (n, n) ∈ l ∧ (L.get n).data.height = b.info.height ∧ (m, m') ∈ l ∧
    (L.get m').data.blocks.get b.info.height.toBE.val = some b.dump ∧
    ∃ k k' : σ, (k, k') ∈ l ∧ (L.get k').data.height.val = b.info.height.val + 1

theorem hist_addBlock (L : Slot σ) (E : Env) (b : Block) (hist : List (σ × σ)) :
    Prog.Hist (fun _ => True) (IfOk fun l _ => L.DidStore b l) (L.addBlock E b) hist := by
  intro n0 n0' _ hn0
  refine ⟨trivial, fun n n' _ hn => ⟨trivial, ?_⟩⟩
  cases hn
  change Prog.Hist _ _ (L.afterRead E b (L.get n).data.height) _
  unfold afterRead
  split
  · intro k k' _ hk
    exact ⟨trivial, fun _ e => by cases e⟩
  · rename_i hb
    have hb : b.info.height = (L.get n).data.height := not_not.mp hb
    intro m m' _ hm
    have hst : (L.get m').data.blocks.get b.info.height.toBE.val = some b.dump := by
      cases hm
      rw [L.get_set, hb]
      change ((L.get m).data.blocks.insert _ _).get _ = _
      rw [Db.get_insert, if_pos rfl]
    refine ⟨trivial, fun r r' _ hr => ⟨trivial, ?_⟩⟩
    change Prog.Hist _ _ (L.afterRef (L.get n).data.height) _
    unfold afterRef
    cases ha : (L.get n).data.height.add U256.one with
    | ok h' =>
      intro k k' _ hk
      have hk' : (L.get k').data.height.val = b.info.height.val + 1 := by
        cases hk
        rw [L.get_set, hb]
        change h'.val = _
        unfold U256.add at ha
        split at ha
        · cases ha; rfl
        · cases ha
      exact ⟨trivial, fun u u' _ hu => ⟨trivial, fun _ _ => ⟨n, m, m', by simp, hb.symm, by simp, hst, k, k', by simp,
        hk'⟩⟩⟩
    | err e => intro _ _ _ _; exact ⟨trivial, fun _ e => by cases e⟩
    | panic e => intro _ _ _ _; exact ⟨trivial, fun _ e => by cases e⟩
    | ub => intro _ _ _ _; exact ⟨trivial, fun _ e => by cases e⟩

end Slot
end BCT
