import Verif.Props.ThreadsLinear
import Verif.Props.ThreadsRead
/-!
# C130: calls of many threads take effect one after the other (blockchaintree.rs, chain.rs)
-/

namespace BCT.Props
open BCT

variable {ι : Type}

/-! ## The calls -/

/-- Calls that access one database once. -/
inductive Brief where
  | addTransaction (t : Transaction)
  | addAmount (owner : Bytes) (n : U256)
  | subAmount (owner : Bytes) (n : U256)
  | setAmount (owner : Bytes) (n : U256)
  | sendAmount (source target : Bytes) (n : U256)
  | getAmount (owner : Address)
  | addGas (owner : Bytes) (n : U256)
  | subGas (owner : Bytes) (n : U256)
  | sendGas (source target : Bytes) (n : U256)
  | getGas (owner : Address)

/-- What threads call. -/
inductive Call where
  | add (b : Block)
  | lookup (l : Node.Lookup)
  | brief (x : Brief)

/-- What calls return. -/
inductive Reply where
  | nothing
  | block (r : Option Bytes)
  | amount (n : U256)

/-- The call in a thread. -/
def Brief.prog (E : Env) : Brief → Prog Node Reply
  | .addTransaction t => do Node.addTransaction E t; pure .nothing
  | .addAmount o n => do Node.onTree (Tree.addAmount o n); pure .nothing
  | .subAmount o n => do Node.onTree (Tree.subAmount o n); pure .nothing
  | .setAmount o n => do Node.onTree (Tree.setAmount o n); pure .nothing
  | .sendAmount a b n => do Node.onTree (Tree.sendAmount a b n); pure .nothing
  | .getAmount o => do let v ← Node.read (fun t => t.getAmount o); pure (.amount v)
  | .addGas o n => do Node.onTree (Tree.addGas o n); pure .nothing
  | .subGas o n => do Node.onTree (Tree.subGas o n); pure .nothing
  | .sendGas a b n => do Node.onTree (Tree.sendGas a b n); pure .nothing
  | .getGas o => do let v ← Node.read (fun t => t.getGas o); pure (.amount v)

/-- The call in a thread. -/
def Call.prog (E : Env) : Call → Prog Node Reply
  | .add b => do Node.addBlock E b; pure .nothing
  | .lookup l => do let r ← l.prog; pure (.block r)
  | .brief x => x.prog E

/-- What the call returns and leaves behind when it is made alone, by the sequential functions. -/
def Brief.alone (E : Env) : Brief → Tree → Outcome Reply × Tree
  | .addTransaction t, s => let r := Tree.onMain (MainChain.addTransaction E t) s; (r.out >>= fun _ => .ok .nothing, r.final)
  | .addAmount o n, s => let r := Tree.addAmount o n s; (r.out >>= fun _ => .ok .nothing, r.final)
  | .subAmount o n, s => let r := Tree.subAmount o n s; (r.out >>= fun _ => .ok .nothing, r.final)
  | .setAmount o n, s => let r := Tree.setAmount o n s; (r.out >>= fun _ => .ok .nothing, r.final)
  | .sendAmount a b n, s => let r := Tree.sendAmount a b n s; (r.out >>= fun _ => .ok .nothing, r.final)
  | .getAmount o, s => (s.getAmount o >>= fun v => .ok (.amount v), s)
  | .addGas o n, s => let r := Tree.addGas o n s; (r.out >>= fun _ => .ok .nothing, r.final)
  | .subGas o n, s => let r := Tree.subGas o n s; (r.out >>= fun _ => .ok .nothing, r.final)
  | .sendGas a b n, s => let r := Tree.sendGas a b n s; (r.out >>= fun _ => .ok .nothing, r.final)
  | .getGas o, s => (s.getGas o >>= fun v => .ok (.amount v), s)

/-- What a lookup made alone returns. -/
def lookAlone : Node.Lookup → MainChain → Outcome (Option Bytes)
  | .byHeight k, m => .ok (m.findRawByHeight k)
  | .byHash q, m => m.findRawByHash q
  | .last, m => m.getLastRawBlock

/-- What the call returns and leaves behind when it is made alone, by the sequential functions. -/
def Call.alone (E : Env) : Call → Tree → Outcome Reply × Tree
  | .add b, s => let r := Tree.onMain (MainChain.addBlock E b) s; (r.out >>= fun _ => .ok .nothing, r.final)
  | .lookup l, s => (lookAlone l s.main >>= fun r => .ok (.block r), s)
  | .brief x, s => x.alone E s

/-- The state after the calls of these threads, one after the other. -/
def afterCalls (E : Env) (call : ι → Call) (s : Tree) : List ι → Tree
  | [] => s
  | i :: l => afterCalls E call ((call i).alone E s).2 l

/-- The call looks a block up by its hash. -/
def Call.byHash : Call → Prop
  | .lookup (.byHash _) => True
  | _ => False

/-- The call adds a block. -/
def Call.adds : Call → Prop
  | .add _ => True
  | _ => False

/-- Thread `i` made its last step before thread `j` made its first. -/
def EndedFirst {σ : Type} (log : List (Event ι σ)) (i j : ι) : Prop :=
  ∃ log1 log2, log = log1 ++ log2 ∧ (∀ e ∈ log2, e.thread ≠ i) ∧ ∀ e ∈ log1, e.thread ≠ j

/-- The order explains what the threads returned and left behind: made one after the other in this order, the calls
return the same and lead to the same state. -/
structure Explains (E : Env) (s : Tree) (call : ι → Call) (c : Config ι Node Reply) (order : List ι) : Prop where
  nodup : order.Nodup
  all : ∀ i, i ∈ order
  answers : ∀ before i after, order = before ++ i :: after →
    c.threads i = .done ((call i).alone E (afterCalls E call s before)).1
  state : c.shared.data = afterCalls E call s order

/-! ## The order so far -/

theorem afterCalls_append (E : Env) (call : ι → Call) (l l' : List ι) : ∀ s,
    afterCalls E call s (l ++ l') = afterCalls E call (afterCalls E call s l) l' := by
  induction l with
  | nil => intro s; rfl
  | cons i l ih => intro s; exact ih _

theorem afterCalls_last (E : Env) (call : ι → Call) (s : Tree) (l : List ι) (i : ι) :
    afterCalls E call s (l ++ [i]) = ((call i).alone E (afterCalls E call s l)).2 := by
  rw [afterCalls_append]; rfl

/-- What thread `j` has returned or will return. -/
def AnswerIn (E : Env) (s : Tree) (call : ι → Call) (order : List ι) (j : ι) (o : Outcome Reply) : Prop :=
  ∃ pre post, order = pre ++ j :: post ∧ o = ((call j).alone E (afterCalls E call s pre)).1

theorem AnswerIn.append {E : Env} {s : Tree} {call : ι → Call} {order : List ι} {j : ι} {o : Outcome Reply}
    (h : AnswerIn E s call order j o) (i : ι) : AnswerIn E s call (order ++ [i]) j o := by
  obtain ⟨pre, post, rfl, rfl⟩ := h
  exact ⟨pre, post ++ [i], by simp, rfl⟩

theorem answerIn_last (E : Env) (s : Tree) (call : ι → Call) (order : List ι) (i : ι) :
    AnswerIn E s call (order ++ [i]) i ((call i).alone E (afterCalls E call s order)).1 := ⟨order, [], rfl, rfl⟩

theorem lookup_state {E : Env} {call : ι → Call} {i : ι} {l : Node.Lookup} (hi : call i = .lookup l) (t : Tree) :
    ((call i).alone E t).2 = t := by rw [hi]; rfl

/-- A lookup inserted into the order changes no answer. -/
theorem AnswerIn.insert {E : Env} {s : Tree} {call : ι → Call} {pre rest : List ι} {i j : ι} {o : Outcome Reply}
    {l : Node.Lookup} (hi : call i = .lookup l) (h : AnswerIn E s call (pre ++ rest) j o) :
    AnswerIn E s call (pre ++ i :: rest) j o := by
  obtain ⟨p, q, e, rfl⟩ := h
  rcases List.append_eq_append_iff.mp e with ⟨a, rfl, rfl⟩ | ⟨a, rfl, hr⟩
  · refine ⟨pre ++ i :: a, q, by simp, ?_⟩
    rw [afterCalls_append, afterCalls_append]
    simp only [afterCalls, lookup_state hi]
  · cases a with
    | nil =>
      simp only [List.nil_append] at hr
      refine ⟨p ++ [i], q, by simp [hr], ?_⟩
      rw [afterCalls_last, lookup_state hi]
    | cons x a =>
      simp only [List.cons_append, List.cons.injEq] at hr
      obtain ⟨rfl, rfl⟩ := hr
      exact ⟨p, a ++ i :: rest, by simp, rfl⟩

theorem afterCalls_insert {E : Env} {call : ι → Call} {i : ι} {l : Node.Lookup} (hi : call i = .lookup l) (s : Tree)
    (pre rest : List ι) : afterCalls E call s (pre ++ i :: rest) = afterCalls E call s (pre ++ rest) := by
  rw [afterCalls_append, afterCalls_append]
  simp only [afterCalls, lookup_state hi]

/-! ## Brief calls -/

/-- The chain of the tree, replaced. -/
theorem setChain_self (t : Tree) (g : Chain → Chain) (h : g t.main.chain = t.main.chain) : Node.setChain g t = t := by
  unfold Node.setChain; rw [h]

theorem Brief.step (E : Env) (x : Brief) : ∃ next rest, x.prog E = .step next rest ∧
    (∀ n : Node, next n = some ⟨(x.alone E n.data).2, n.held⟩) ∧ ∀ n : Node, rest n = .done (x.alone E n.data).1 := by
  cases x <;> refine ⟨_, _, rfl, fun n => rfl, fun n => ?_⟩ <;>
    simp only [Brief.alone] <;> exact Locked.done_bind_pure _ _

/-- Brief calls do not depend on the chain and do not touch it. -/
theorem Brief.blind (E : Env) (x : Brief) (g : Chain → Chain) (t : Tree) :
    x.alone E (Node.setChain g t) = ((x.alone E t).1, Node.setChain g (x.alone E t).2) ∧
    (x.alone E t).2.main.chain = t.main.chain := by
  cases x with
  | sendAmount a b n =>
    simp only [Brief.alone, Tree.sendAmount]
    split
    · exact ⟨rfl, rfl⟩
    · exact ⟨rfl, rfl⟩
  | _ => exact ⟨rfl, rfl⟩

/-! ## Where the threads are -/

/-- What a lookup does with the bytes it found. -/
def wrap (r : Option Bytes) : Prog Node Reply := pure (.block r)

/-- What `add_block` does at its end. -/
def fin (_ : Unit) : Prog Node Reply := pure .nothing

/-- The last step of a lookup by height. -/
def fetch (k : U256) : Prog Node Reply := Node.read (fun t => .ok (t.main.chain.blocks.get k.toBE.val)) >>= wrap

/-- A thread whose call has not taken effect; `S` is the state after the calls that have. -/
def Waiting (E : Env) (S : Tree) (k : Call) (p : Prog Node Reply) : Prop :=
  p = k.prog E ∨ ∃ h : U256, k = .lookup (.byHeight h) ∧ p = fetch h ∧ h.val ≤ S.main.chain.height.val

/-- A thread whose call has taken effect and will return `o`. -/
inductive Will (S : Tree) : Prog Node Reply → Outcome Reply → Prop where
  | ended (o : Outcome Reply) : Will S (.done o) o
  | find (k : U256) : k.val < S.main.chain.height.val →
      Will S (Node.findRawByHeight k >>= wrap) (.ok (.block (S.main.chain.blocks.get k.toBE.val)))
  | fetch (k : U256) : k.val < S.main.chain.height.val →
      Will S (fetch k) (.ok (.block (S.main.chain.blocks.get k.toBE.val)))

/-- Nothing below the height changes. -/
def KeepsBelow (S S' : Tree) : Prop := S.main.chain.height.val ≤ S'.main.chain.height.val ∧
  ∀ k : U256, k.val < S.main.chain.height.val → S'.main.chain.blocks.get k.toBE.val = S.main.chain.blocks.get k.toBE.val

theorem keepsBelow_refl (S : Tree) : KeepsBelow S S := ⟨Nat.le_refl _, fun _ _ => rfl⟩

theorem keeps_chain {S S' : Tree} (h : S'.main.chain = S.main.chain) : KeepsBelow S S' := by
  unfold KeepsBelow; rw [h]; exact ⟨Nat.le_refl _, fun _ _ => rfl⟩

theorem keepsBelow_trans {a b c : Tree} (h : KeepsBelow a b) (h' : KeepsBelow b c) : KeepsBelow a c :=
  ⟨h.1.trans h'.1, fun k hk => (h'.2 k (lt_of_lt_of_le hk h.1)).trans (h.2 k hk)⟩

theorem Waiting.keeps {E : Env} {S S' : Tree} {k : Call} {p : Prog Node Reply} (h : Waiting E S k p) (hk : KeepsBelow S S') :
    Waiting E S' k p := h.imp_right fun ⟨i, h1, h2, h3⟩ => ⟨i, h1, h2, h3.trans hk.1⟩

theorem Will.keeps {S S' : Tree} {p : Prog Node Reply} {o : Outcome Reply} (h : Will S p o) (hk : KeepsBelow S S') :
    Will S' p o := by
  cases h with
  | ended => exact .ended o
  | find k h => rw [← hk.2 k h]; exact .find k (lt_of_lt_of_le h hk.1)
  | fetch k h => rw [← hk.2 k h]; exact .fetch k (lt_of_lt_of_le h hk.1)

/-- The state while thread `k`, holding the lock, adds block `b`. `order` are the calls that have taken effect, `t` is
the state of the tree and `p` what the thread has yet to do. -/
inductive Adding (E : Env) (s : Tree) (call : ι → Call) (order : List ι) (k : ι) (b : Block) : Tree → Prog Node Reply → Prop where
  | enter : k ∉ order → Adding E s call order k b (afterCalls E call s order) (afterLock E b >>= fin)
  | right (h : U256) : k ∉ order → (afterCalls E call s order).main.chain.height = h → b.info.height = h →
      Adding E s call order k b (afterCalls E call s order)
        ((Node.write (storeBlock b h) >>= fun _ => afterStore E b h) >>= fin)
  | stored (pre post : List ι) (c0 : Chain) (hm : c0.height.val + 1 < U256.size) :
      order = pre ++ k :: post → (afterCalls E call s pre).main.chain = c0 → b.info.height = c0.height →
      (∃ bs, c0.Holds E bs) → (∀ j ∈ post, ¬ (call j).byHash ∧ ¬ (call j).adds) →
      (afterCalls E call s order).main.chain = c0.put3 E b.dump ⟨c0.height.val + 1, hm⟩ →
      AnswerIn E s call order k (.ok .nothing) →
      Adding E s call order k b
        (Node.setChain (fun c => { c with heightReference := c0.heightReference, height := c0.height }) (afterCalls E call s order))
        (afterStore E b c0.height >>= fin)
  | referred (h : U256) (hm : h.val + 1 < U256.size) :
      (afterCalls E call s order).main.chain.height = ⟨h.val + 1, hm⟩ → AnswerIn E s call order k (.ok .nothing) →
      Adding E s call order k b (Node.setChain (fun c => { c with height := h }) (afterCalls E call s order))
        (afterRef h >>= fin)
  | leave (o : Outcome Reply) : AnswerIn E s call order k o →
      Adding E s call order k b (afterCalls E call s order) (Node.unlock >>= fun _ => .done o)

/-- A thread that does not hold the lock. -/
def Elsewhere (E : Env) (s : Tree) (call : ι → Call) (order : List ι) (j : ι) (p : Prog Node Reply) : Prop :=
  (j ∉ order ∧ Waiting E (afterCalls E call s order) (call j) p) ∨
  ∃ o, AnswerIn E s call order j o ∧ Will (afterCalls E call s order) p o

/-- The state of all threads. -/
structure Serial (E : Env) (s : Tree) (call : ι → Call) (order : List ι) (c : Config ι Node Reply) : Prop where
  nodup : order.Nodup
  chain : ∃ bs, (afterCalls E call s order).main.chain.Holds E bs
  threads : (c.shared.held = false ∧ c.shared.data = afterCalls E call s order ∧
      ∀ j, Elsewhere E s call order j (c.threads j)) ∨
    (c.shared.held = true ∧ ∃ k b, call k = .add b ∧ Adding E s call order k b c.shared.data (c.threads k) ∧
      ∀ j, j ≠ k → Elsewhere E s call order j (c.threads j))

theorem AnswerIn.mem {E : Env} {s : Tree} {call : ι → Call} {order : List ι} {j : ι} {o : Outcome Reply}
    (h : AnswerIn E s call order j o) : j ∈ order := by
  obtain ⟨pre, post, rfl, _⟩ := h
  simp

/-- In every stage the tree is the one after the calls that have taken effect, but for parts of the chain other than
its blocks. -/
theorem Adding.tree {E : Env} {s : Tree} {call : ι → Call} {order : List ι} {k : ι} {b : Block} {t : Tree}
    {p : Prog Node Reply} (h : Adding E s call order k b t p) :
    ∃ g, t = Node.setChain g (afterCalls E call s order) ∧ ∀ c, (g c).blocks = c.blocks := by
  cases h with
  | enter _ => exact ⟨id, rfl, fun _ => rfl⟩
  | right _ _ _ _ => exact ⟨id, rfl, fun _ => rfl⟩
  | stored pre post c0 hm _ _ _ _ _ _ _ => exact ⟨_, rfl, fun _ => rfl⟩
  | referred _ _ _ _ => exact ⟨_, rfl, fun _ => rfl⟩
  | leave _ _ => exact ⟨id, rfl, fun _ => rfl⟩

theorem Adding.mem_or {E : Env} {s : Tree} {call : ι → Call} {order : List ι} {k : ι} {b : Block} {t : Tree}
    {p : Prog Node Reply} (h : Adding E s call order k b t p) : ∀ o, p ≠ .done o := by
  cases h with
  | enter _ => intro o h; cases h
  | right _ _ _ _ => intro o h; cases h
  | stored pre post c0 hm _ _ _ _ _ _ _ => intro o h; cases h
  | referred h hm _ _ =>
    intro o e
    unfold afterRef at e
    split at e <;> cases e
  | leave _ _ => intro o h; cases h

/-- Calls other than `add_block` do not touch the chain. -/
theorem Call.quiet {k : Call} (hk : ¬ k.adds) (E : Env) (g : Chain → Chain) (t : Tree) :
    (k.alone E (Node.setChain g t)).2 = Node.setChain g (k.alone E t).2 ∧ (k.alone E t).2.main.chain = t.main.chain := by
  cases k with
  | add b => exact absurd trivial hk
  | lookup l => exact ⟨rfl, rfl⟩
  | brief x =>
    obtain ⟨h1, h2⟩ := x.blind E g t
    exact ⟨by simp only [Call.alone, h1], h2⟩

theorem afterCalls_quiet {E : Env} {s : Tree} {call : ι → Call} {order : List ι} {i : ι} (hi : ¬ (call i).adds) :
    (afterCalls E call s (order ++ [i])).main.chain = (afterCalls E call s order).main.chain := by
  rw [afterCalls_last]
  exact ((call i).quiet hi E id _).2

/-- A call that takes effect while another thread holds the lock. -/
theorem Adding.append {E : Env} {s : Tree} {call : ι → Call} {order : List ι} {k i : ι} {b : Block} {t : Tree}
    {p : Prog Node Reply} (h : Adding E s call order k b t p) (hik : k ≠ i) (hi : ¬ (call i).adds)
    (hb : (call i).byHash → ∀ pre post c0 hm, order = pre ++ k :: post → (afterCalls E call s pre).main.chain = c0 →
      (afterCalls E call s order).main.chain = Chain.put3 E c0 b.dump ⟨c0.height.val + 1, hm⟩ →
      t.main.chain.heightReference = c0.heightReference → False) :
    Adding E s call (order ++ [i]) k b ((call i).alone E t).2 p := by
  have hnot : k ∉ order → k ∉ order ++ [i] := fun hk hm => by
    rcases List.mem_append.mp hm with hm | hm
    · exact hk hm
    · exact hik (List.mem_singleton.mp hm)
  cases h with
  | enter hk =>
    rw [← afterCalls_last]
    exact .enter (hnot hk)
  | right h hk hh hbh =>
    rw [← afterCalls_last]
    exact .right h (hnot hk) (by rw [afterCalls_quiet hi]; exact hh) hbh
  | stored pre post c0 hm ho hc hbh hH hpost hS ha =>
    rw [((call i).quiet hi E _ _).1, ← afterCalls_last]
    refine .stored pre (post ++ [i]) c0 hm (by rw [ho]; simp) hc hbh hH (fun j hj => ?_) ?_ (ha.append i)
    · rcases List.mem_append.mp hj with hj | hj
      · exact hpost j hj
      · rw [List.mem_singleton.mp hj]
        exact ⟨fun hq => hb hq pre post c0 hm ho hc hS rfl, hi⟩
    · rw [afterCalls_quiet hi]; exact hS
  | referred h hm hh ha =>
    rw [((call i).quiet hi E _ _).1, ← afterCalls_last]
    exact .referred h hm (by rw [afterCalls_quiet hi]; exact hh) (ha.append i)
  | leave o ha =>
    rw [← afterCalls_last]
    exact .leave o (ha.append i)

theorem keeps_put3 {E : Env} {t S : Tree} {c0 : Chain} {d : Bytes} {hm : c0.height.val + 1 < U256.size}
    (h0 : t.main.chain = c0) (hS : S.main.chain = c0.put3 E d ⟨c0.height.val + 1, hm⟩) : KeepsBelow t S := by
  unfold KeepsBelow
  rw [h0, hS]
  refine ⟨Nat.le_succ _, fun k hk => ?_⟩
  unfold Chain.put3
  simp only [Db.get_insert]
  rw [if_neg]
  intro e
  have h1 := fromBE_toBE k
  have h2 := fromBE_toBE c0.height
  rw [← e, h2] at h1
  cases h1
  omega

/-- A lookup by hash that reads the reference while another thread holds the lock: the reference it reads is that after
the calls that have taken effect, or that before the block being added. -/
theorem Adding.hash {E : Env} {s : Tree} {call : ι → Call} {order : List ι} {k i : ι} {b : Block} {t : Tree}
    {p : Prog Node Reply} {q : Hash} (h : Adding E s call order k b t p) (hik : k ≠ i) (hi : call i = .lookup (.byHash q)) :
    (t.main.chain.heightReference = (afterCalls E call s order).main.chain.heightReference ∧
      Adding E s call (order ++ [i]) k b t p) ∨
    ∃ pre post, order = pre ++ k :: post ∧ (∀ j ∈ post, ¬ (call j).byHash ∧ ¬ (call j).adds) ∧
      t.main.chain.heightReference = (afterCalls E call s pre).main.chain.heightReference ∧
      (∃ bs, (afterCalls E call s pre).main.chain.Holds E bs) ∧
      KeepsBelow (afterCalls E call s pre) (afterCalls E call s order) ∧
      Adding E s call (pre ++ i :: k :: post) k b t p := by
  have hnot : k ∉ order → k ∉ order ++ [i] := fun hk hm => by
    rcases List.mem_append.mp hm with hm | hm
    · exact hk hm
    · exact hik (List.mem_singleton.mp hm)
  have hS : afterCalls E call s (order ++ [i]) = afterCalls E call s order := by
    rw [afterCalls_last, lookup_state hi]
  cases h with
  | enter hk => left; rw [← hS]; exact ⟨rfl, .enter (hnot hk)⟩
  | right h hk hh hbh => left; rw [← hS]; exact ⟨rfl, .right h (hnot hk) (by rw [hS]; exact hh) hbh⟩
  | stored pre post c0 hm ho hc hbh hH hpost hc3 ha =>
    right
    have hins : afterCalls E call s (pre ++ i :: k :: post) = afterCalls E call s order := by
      rw [ho]; exact afterCalls_insert hi s pre (k :: post)
    have h1 : afterCalls E call s (pre ++ [i]) = afterCalls E call s pre := by rw [afterCalls_last, lookup_state hi]
    refine ⟨pre, post, ho, hpost, by rw [hc]; rfl, by rw [hc]; exact hH, keeps_put3 hc hc3, ?_⟩
    rw [← hins]
    refine .stored (pre ++ [i]) post c0 hm (by simp) (by rw [h1]; exact hc) hbh hH hpost (by rw [hins]; exact hc3) ?_
    rw [ho] at ha
    exact ha.insert hi
  | referred h hm hh ha => left; rw [← hS]; exact ⟨rfl, .referred h hm (by rw [hS]; exact hh) (ha.append i)⟩
  | leave o ha => left; rw [← hS]; exact ⟨rfl, .leave o (ha.append i)⟩

theorem Elsewhere.append {E : Env} {s : Tree} {call : ι → Call} {order : List ι} {i j : ι} {p : Prog Node Reply}
    (h : Elsewhere E s call order j p) (hij : j ≠ i) (hk : KeepsBelow (afterCalls E call s order) (afterCalls E call s (order ++ [i]))) :
    Elsewhere E s call (order ++ [i]) j p := by
  rcases h with ⟨h1, h2⟩ | ⟨o, h1, h2⟩
  · exact .inl ⟨by simp [h1, hij], h2.keeps hk⟩
  · exact .inr ⟨o, h1.append i, h2.keeps hk⟩

theorem Elsewhere.insert {E : Env} {s : Tree} {call : ι → Call} {pre rest : List ι} {i j : ι} {p : Prog Node Reply}
    {l : Node.Lookup} (hi : call i = .lookup l) (h : Elsewhere E s call (pre ++ rest) j p) (hij : j ≠ i) :
    Elsewhere E s call (pre ++ i :: rest) j p := by
  unfold Elsewhere at *
  rw [afterCalls_insert hi]
  rcases h with ⟨h1, h2⟩ | ⟨o, h1, h2⟩
  · refine .inl ⟨?_, h2⟩
    simp only [List.mem_append, List.mem_cons, not_or] at h1 ⊢
    exact ⟨h1.1, hij, h1.2⟩
  · exact .inr ⟨o, h1.insert hi, h2⟩

/-- The lookup by hash, after it read the reference in state `t`, as if made alone in state `S0`. -/
theorem hash_rest {E : Env} {S0 S : Tree} {q : Hash} {t : Tree} {bs : List Block} (hH : S0.main.chain.Holds E bs)
    (hr : t.main.chain.heightReference = S0.main.chain.heightReference) (hk : KeepsBelow S0 S)
    (p : Prog Node Reply)
    (hp : p = (match t.main.chain.heightReference.get q.val with
      | none => (pure none : Prog Node (Option Bytes))
      | some h => Prog.lift (U256.fromBE h) >>= Node.findRawByHeight) >>= wrap) :
    Will S p ((Call.lookup (.byHash q)).alone E S0).1 := by
  simp only [Call.alone, lookAlone, MainChain.findRawByHash, Chain.findRawByHash]
  rw [hr] at hp
  cases hg : S0.main.chain.heightReference.get q.val with
  | none =>
    rw [hg] at hp
    rw [hp]
    exact .ended _
  | some v =>
    obtain ⟨j, hj, rfl, hsha⟩ := hH.refs _ _ hg
    have hl := hH.len
    have hjs : j < U256.size := lt_of_lt_of_le (hl ▸ hj) (Nat.le_of_lt S0.main.chain.height.lt)
    have hf : U256.fromBE (beBytes 32 j) = .ok ⟨j, hjs⟩ := fromBE_toBE ⟨j, hjs⟩
    rw [hg] at hp
    simp only [hf] at hp ⊢
    have hlt : (⟨j, hjs⟩ : U256).val < S0.main.chain.height.val := by simp only; omega
    have hfind : S0.main.chain.findRawByHeight ⟨j, hjs⟩ = S0.main.chain.blocks.get (⟨j, hjs⟩ : U256).toBE.val := by
      unfold Chain.findRawByHeight
      rw [if_neg (by omega)]
    rw [hp]
    change Will S (Node.findRawByHeight ⟨j, hjs⟩ >>= wrap) (.ok (.block (S0.main.chain.findRawByHeight ⟨j, hjs⟩)))
    rw [hfind]
    exact (Will.find _ hlt).keeps hk

/-! ## One step -/

theorem not_adds_ne {call : ι → Call} {i k : ι} {b : Block} (hi : ¬ (call i).adds) (hk : call k = .add b) : k ≠ i := by
  rintro rfl
  rw [hk] at hi
  exact hi trivial

/-- A thread moves on without any effect on others. -/
theorem Serial.local [DecidableEq ι] {E : Env} {s : Tree} {call : ι → Call} {order : List ι} {c : Config ι Node Reply}
    (h : Serial E s call order c) {i : ι} {p : Prog Node Reply} (hi : ¬ (call i).adds)
    (hp : Elsewhere E s call order i p) : Serial E s call order ⟨c.shared, Function.update c.threads i p⟩ := by
  refine ⟨h.nodup, h.chain, ?_⟩
  have others : ∀ j, (j ≠ i → Elsewhere E s call order j (c.threads j)) →
      Elsewhere E s call order j (Function.update c.threads i p j) := fun j hj => by
    by_cases e : j = i
    · subst e; rw [Function.update_self]; exact hp
    · rw [Function.update_of_ne e]; exact hj e
  rcases h.threads with ⟨h1, h2, h3⟩ | ⟨h1, k, b, h2, h3, h4⟩
  · exact .inl ⟨h1, h2, fun j => others j fun _ => h3 j⟩
  · refine .inr ⟨h1, k, b, h2, ?_, fun j hj => others j fun _ => h4 j hj⟩
    simp only [Function.update_of_ne (not_adds_ne hi h2)]
    exact h3

/-- A call other than `add_block` takes effect. -/
theorem Serial.commit [DecidableEq ι] {E : Env} {s : Tree} {call : ι → Call} {order : List ι} {c : Config ι Node Reply}
    (h : Serial E s call order c) {i : ι} {p : Prog Node Reply} (hnot : i ∉ order) (hi : ¬ (call i).adds)
    (hq : (call i).byHash → c.shared.held = false)
    (hp : Will (afterCalls E call s (order ++ [i])) p ((call i).alone E (afterCalls E call s order)).1) :
    Serial E s call (order ++ [i]) ⟨⟨((call i).alone E c.shared.data).2, c.shared.held⟩, Function.update c.threads i p⟩ := by
  have hk : KeepsBelow (afterCalls E call s order) (afterCalls E call s (order ++ [i])) := keeps_chain (afterCalls_quiet hi)
  refine ⟨?_, by rw [afterCalls_quiet hi]; exact h.chain, ?_⟩
  · rw [List.nodup_append]
    refine ⟨h.nodup, (by simp), fun a ha b hb => ?_⟩
    rw [List.mem_singleton.mp hb]
    rintro rfl
    exact hnot ha
  have others : ∀ j, (j ≠ i → Elsewhere E s call order j (c.threads j)) →
      Elsewhere E s call (order ++ [i]) j (Function.update c.threads i p j) := fun j hj => by
    by_cases e : j = i
    · subst e; rw [Function.update_self]; exact .inr ⟨_, answerIn_last E s call order j, hp⟩
    · rw [Function.update_of_ne e]; exact (hj e).append e hk
  rcases h.threads with ⟨h1, h2, h3⟩ | ⟨h1, k, b, h2, h3, h4⟩
  · exact .inl ⟨h1, by rw [afterCalls_last, ← h2], fun j => others j fun _ => h3 j⟩
  · have hki := not_adds_ne hi h2
    refine .inr ⟨h1, k, b, h2, ?_, fun j hj => others j fun _ => h4 j hj⟩
    simp only [Function.update_of_ne hki]
    exact h3.append hki hi fun hb => by rw [hq hb] at h1; cases h1

/-- How the order changes in one step. -/
def Moved (call : ι → Call) (c : Config ι Node Reply) (i : ι) (order order' : List ι) : Prop :=
  order' = order ∨ (i ∉ order ∧ order' = order ++ [i]) ∨
  (i ∉ order ∧ (call i).byHash ∧ ∃ pre k post, order = pre ++ k :: post ∧ order' = pre ++ i :: k :: post ∧ k ≠ i ∧
    (∀ j ∈ post, ¬ (call j).byHash ∧ ¬ (call j).adds) ∧ ∀ o, c.threads k ≠ .done o)

theorem Serial.free [DecidableEq ι] {E : Env} {s : Tree} {call : ι → Call} {order : List ι} {c : Config ι Node Reply}
    (h : Serial E s call order c) (hf : c.shared.held = false) : c.shared.data = afterCalls E call s order := by
  rcases h.threads with ⟨_, h2, _⟩ | ⟨h1, _⟩
  · exact h2
  · rw [hf] at h1; cases h1

theorem Serial.tree [DecidableEq ι] {E : Env} {s : Tree} {call : ι → Call} {order : List ι} {c : Config ι Node Reply}
    (h : Serial E s call order c) :
    ∃ g, c.shared.data = Node.setChain g (afterCalls E call s order) ∧ ∀ x, (g x).blocks = x.blocks := by
  rcases h.threads with ⟨_, h2, _⟩ | ⟨_, k, b, _, h3, _⟩
  · exact ⟨id, h2, fun _ => rfl⟩
  · exact h3.tree

/-- A lookup reads the reference. -/
theorem Serial.hash [DecidableEq ι] {E : Env} {s : Tree} {call : ι → Call} {order : List ι} {c : Config ι Node Reply}
    (h : Serial E s call order c) {i : ι} {q : Hash} (hnot : i ∉ order) (hi : call i = .lookup (.byHash q))
    {p : Prog Node Reply}
    (hp : p = (match c.shared.data.main.chain.heightReference.get q.val with
      | none => (pure none : Prog Node (Option Bytes))
      | some h => Prog.lift (U256.fromBE h) >>= Node.findRawByHeight) >>= wrap) :
    ∃ order', Serial E s call order' ⟨c.shared, Function.update c.threads i p⟩ ∧ Moved call c i order order' := by
  have ha : ¬ (call i).adds := by rw [hi]; exact id
  have hS : afterCalls E call s (order ++ [i]) = afterCalls E call s order := by rw [afterCalls_last, lookup_state hi]
  have hnd : (order ++ [i]).Nodup := by
    rw [List.nodup_append]
    refine ⟨h.nodup, (by simp), fun a hm b hb => ?_⟩
    rw [List.mem_singleton.mp hb]
    rintro rfl
    exact hnot hm
  obtain ⟨bs, hH⟩ := h.chain
  rcases h.threads with ⟨h1, h2, h3⟩ | ⟨h1, k, b, h2, h3, h4⟩
  · refine ⟨order ++ [i], ?_, .inr (.inl ⟨hnot, rfl⟩)⟩
    have := h.commit (p := p) hnot ha (fun _ => h1) (by
      rw [hS, hi]
      exact hash_rest hH (by rw [h2]) (keepsBelow_refl _) p hp)
    rw [lookup_state hi] at this
    exact this
  · have hki := not_adds_ne ha h2
    rcases h3.hash hki hi with ⟨hr, hst⟩ | ⟨pre, post, ho, hpost, hr, ⟨bs', hH'⟩, hk, hst⟩
    · refine ⟨order ++ [i], ⟨hnd, by rw [hS]; exact h.chain, .inr ⟨h1, k, b, h2, ?_, fun j hj => ?_⟩⟩, .inr (.inl ⟨hnot, rfl⟩)⟩
      · simp only [Function.update_of_ne hki]; exact hst
      · by_cases e : j = i
        · subst e
          simp only [Function.update_self]
          refine .inr ⟨_, answerIn_last E s call order j, ?_⟩
          rw [hS, hi]
          exact hash_rest hH hr (keepsBelow_refl _) p hp
        · simp only [Function.update_of_ne e]
          exact (h4 j hj).append e (by rw [hS]; exact keepsBelow_refl _)
    · have hins : afterCalls E call s (pre ++ i :: k :: post) = afterCalls E call s order := by
        rw [ho]; exact afterCalls_insert hi s pre (k :: post)
      refine ⟨pre ++ i :: k :: post, ⟨?_, by rw [hins]; exact h.chain, .inr ⟨h1, k, b, h2, ?_, fun j hj => ?_⟩⟩,
        .inr (.inr ⟨hnot, by rw [hi]; trivial, pre, k, post, ho, rfl, hki, hpost, fun o e => h3.mem_or o e⟩)⟩
      · have hn := h.nodup
        rw [ho] at hn hnot
        rw [List.nodup_middle]
        exact List.nodup_cons.mpr ⟨hnot, hn⟩
      · simp only [Function.update_of_ne hki]; exact hst
      · by_cases e : j = i
        · subst e
          simp only [Function.update_self]
          refine .inr ⟨_, ⟨pre, k :: post, rfl, rfl⟩, ?_⟩
          rw [hins, hi]
          exact hash_rest hH' hr hk p hp
        · simp only [Function.update_of_ne e]
          have := h4 j hj
          rw [ho] at this
          exact this.insert hi e

/-- A step of the thread that holds the lock. -/
theorem Serial.holder [DecidableEq ι] {E : Env} {s : Tree} {call : ι → Call} {order : List ι} {n n' : Node}
    {threads : ι → Prog Node Reply} (hnd : order.Nodup) (hch : ∃ bs, (afterCalls E call s order).main.chain.Holds E bs)
    (hheld : n.held = true) {k : ι} {b : Block} (hk : call k = .add b) {next : Node → Option Node}
    {rest : Node → Prog Node Reply} (hst : Adding E s call order k b n.data (.step next rest))
    (hother : ∀ j, j ≠ k → Elsewhere E s call order j (threads j)) (hn : next n = some n')
    (hm : (afterCalls E call s order).main.chain.height.val + 1 < U256.size) :
    ∃ order', Serial E s call order' ⟨n', Function.update threads k (rest n)⟩ ∧
      (order' = order ∨ (k ∉ order ∧ order' = order ++ [k])) := by
  obtain ⟨t, held⟩ := n
  simp only at hheld hst
  subst hheld
  have hnd' : k ∉ order → (order ++ [k]).Nodup := fun hnot => by
    rw [List.nodup_append]
    refine ⟨hnd, (by simp), fun a hm b hb => ?_⟩
    rw [List.mem_singleton.mp hb]
    rintro rfl
    exact hnot hm
  have others : ∀ (p : Prog Node Reply) (j : ι), j ≠ k → Elsewhere E s call order j (Function.update threads k p j) :=
    fun p j hj => by rw [Function.update_of_ne hj]; exact hother j hj
  have others' : ∀ (p : Prog Node Reply) (j : ι), KeepsBelow (afterCalls E call s order) (afterCalls E call s (order ++ [k])) →
      j ≠ k → Elsewhere E s call (order ++ [k]) j (Function.update threads k p j) :=
    fun p j hke hj => by rw [Function.update_of_ne hj]; exact (hother j hj).append hj hke
  generalize hp : Prog.step next rest = p at hst
  cases hst with
  | enter hnot =>
    cases hp
    cases hn
    by_cases hb : b.info.height = (afterCalls E call s order).main.chain.height
    · refine ⟨order, ⟨hnd, hch, .inr ⟨rfl, k, b, hk, ?_, others _⟩⟩, .inl rfl⟩
      simp only [Function.update_self]
      have e : afterRead E b (afterCalls E call s order).main.chain.height =
          Node.write (storeBlock b (afterCalls E call s order).main.chain.height) >>= fun _ =>
            afterStore E b (afterCalls E call s order).main.chain.height := by
        unfold afterRead; rw [if_neg (by simp [hb])]
      change Adding E s call order k b _ (afterRead E b (afterCalls E call s order).main.chain.height >>= fin)
      rw [e]
      exact .right _ hnot rfl hb
    · have hal : (call k).alone E (afterCalls E call s order) = (.err .chainAddingBlock, afterCalls E call s order) := by
        rw [hk]
        simp only [Call.alone]
        have : Chain.addBlock E b.info.height b.dump (afterCalls E call s order).main.chain =
            ⟨.err .chainAddingBlock, (afterCalls E call s order).main.chain, []⟩ := by
          unfold Chain.addBlock
          simp only [Act.get_bind, if_pos (show b.info.height ≠ (afterCalls E call s order).main.chain.height from hb)]
          rfl
        unfold Tree.onMain MainChain.addBlock MainChain.onChain Act.zoom
        simp only [this]
        rfl
      have hS : afterCalls E call s (order ++ [k]) = afterCalls E call s order := by rw [afterCalls_last, hal]
      refine ⟨order ++ [k], ⟨hnd' hnot, by rw [hS]; exact hch, .inr ⟨rfl, k, b, hk, ?_, fun j hj => others' _ j (by
        rw [hS]; exact keepsBelow_refl _) hj⟩⟩, .inr ⟨hnot, rfl⟩⟩
      simp only [Function.update_self]
      have e : afterRead E b (afterCalls E call s order).main.chain.height = Node.unlock >>= fun _ =>
          Prog.lift (.err .chainAddingBlock) := by
        unfold afterRead; rw [if_pos hb]
      change Adding E s call (order ++ [k]) k b _ (afterRead E b (afterCalls E call s order).main.chain.height >>= fin)
      rw [e, ← hS]
      refine .leave (.err .chainAddingBlock) ?_
      have := answerIn_last E s call order k
      rw [hal] at this
      exact this
  | right h hnot hh hb =>
    cases hp
    cases hn
    subst hh
    have hadd : Chain.addBlock E b.info.height b.dump (afterCalls E call s order).main.chain = _ :=
      (congrArg (fun x => Chain.addBlock E x b.dump (afterCalls E call s order).main.chain) hb).trans
        (Chain.addBlock_right (E := E) (dump := b.dump) hm)
    have hal : (call k).alone E (afterCalls E call s order) = (.ok .nothing,
        Node.setChain (fun c => c.put3 E b.dump ⟨(afterCalls E call s order).main.chain.height.val + 1, hm⟩)
          (afterCalls E call s order)) := by
      rw [hk]
      simp only [Call.alone]
      unfold Tree.onMain MainChain.addBlock MainChain.onChain Act.zoom
      simp only [hadd]
      rfl
    have hS : afterCalls E call s (order ++ [k]) = Node.setChain (fun c => c.put3 E b.dump
        ⟨(afterCalls E call s order).main.chain.height.val + 1, hm⟩) (afterCalls E call s order) := by
      rw [afterCalls_last, hal]
    have hc3 : (afterCalls E call s (order ++ [k])).main.chain = (afterCalls E call s order).main.chain.put3 E b.dump
        ⟨(afterCalls E call s order).main.chain.height.val + 1, hm⟩ := by rw [hS]; rfl
    obtain ⟨bs, hH⟩ := hch
    have hH' := hH.addBlock hb hm
    rw [hadd] at hH'
    refine ⟨order ++ [k], ⟨hnd' hnot, ⟨bs ++ [b], by rw [hc3]; exact hH'⟩, .inr ⟨rfl, k, b, hk, ?_, fun j hj =>
      others' _ j (keeps_put3 rfl hc3) hj⟩⟩, .inr ⟨hnot, rfl⟩⟩
    simp only [Function.update_self]
    have ht : storeBlock b (afterCalls E call s order).main.chain.height (afterCalls E call s order) =
        Node.setChain (fun c => { c with
          heightReference := (afterCalls E call s order).main.chain.heightReference,
          height := (afterCalls E call s order).main.chain.height }) (afterCalls E call s (order ++ [k])) := by
      rw [hS]; rfl
    rw [ht]
    refine .stored order [] _ hm rfl rfl hb ⟨bs, hH⟩ (by simp) hc3 ?_
    have := answerIn_last E s call order k
    rw [hal] at this
    exact this
  | stored pre post c0 hm0 ho hc hb hH hpost hc3 ha =>
    cases hp
    cases hn
    refine ⟨order, ⟨hnd, hch, .inr ⟨rfl, k, b, hk, ?_, others _⟩⟩, .inl rfl⟩
    simp only [Function.update_self]
    have ht : storeRef E b c0.height (Node.setChain (fun c => { c with
        heightReference := c0.heightReference, height := c0.height }) (afterCalls E call s order)) =
        Node.setChain (fun c => { c with height := c0.height }) (afterCalls E call s order) := by
      simp only [storeRef, Node.setChain]
      rw [hc3]
      rfl
    rw [ht]
    exact .referred c0.height hm0 (by rw [hc3]; rfl) ha
  | referred h hm0 hh ha =>
    have hadd : h.add U256.one = .ok ⟨h.val + 1, hm0⟩ := by
      unfold U256.add
      rw [dif_pos (by simpa [U256.one] using hm0)]
      rfl
    unfold afterRef at hp
    rw [hadd] at hp
    cases hp
    cases hn
    refine ⟨order, ⟨hnd, hch, .inr ⟨rfl, k, b, hk, ?_, others _⟩⟩, .inl rfl⟩
    simp only [Function.update_self]
    have ht : Node.setChain (fun c => { c with height := ⟨h.val + 1, hm0⟩ })
        (Node.setChain (fun c => { c with height := h }) (afterCalls E call s order)) = afterCalls E call s order := by
      rw [← hh]
      rfl
    rw [ht]
    exact .leave (.ok .nothing) ha
  | leave o ha =>
    cases hp
    cases hn
    refine ⟨order, ⟨hnd, hch, .inl ⟨rfl, rfl, fun j => ?_⟩⟩, .inl rfl⟩
    by_cases e : j = k
    · subst e
      simp only [Function.update_self]
      exact .inr ⟨o, ha, .ended o⟩
    · exact others _ j e

theorem not_block_of_adds {k : Call} (h : k.adds) {E : Env} {t : Tree} {v : Option Bytes} :
    (k.alone E t).1 ≠ .ok (.block v) := by
  cases k with
  | add b =>
    simp only [Call.alone]
    cases (Tree.onMain (MainChain.addBlock E b) t).out with
    | ok a => intro e; cases e
    | err e => intro e; cases e
    | panic e => intro e; cases e
    | ub => intro e; cases e
  | lookup l => exact h.elim
  | brief x => exact h.elim

/-- Whatever thread makes a step, the calls that have taken effect can be put in order. -/
theorem Serial.step [DecidableEq ι] {E : Env} {s : Tree} {call : ι → Call} {order : List ι} {c : Config ι Node Reply}
    (h : Serial E s call order c) {i : ι} {next : Node → Option Node} {rest : Node → Prog Node Reply} {n' : Node}
    (hi : c.threads i = .step next rest) (hn : next c.shared = some n')
    (hm : (afterCalls E call s order).main.chain.height.val + 1 < U256.size) :
    ∃ order', Serial E s call order' ⟨n', Function.update c.threads i (rest c.shared)⟩ ∧ Moved call c i order order' := by
  by_cases hhold : ∃ b, call i = .add b ∧ c.shared.held = true ∧ Adding E s call order i b c.shared.data (c.threads i) ∧
      ∀ j, j ≠ i → Elsewhere E s call order j (c.threads j)
  · obtain ⟨b, h1, h2, h3, h4⟩ := hhold
    rw [hi] at h3
    obtain ⟨order', h5, h6⟩ := Serial.holder h.nodup h.chain h2 h1 h3 h4 hn hm
    exact ⟨order', h5, h6.imp_right .inl⟩
  have hel : Elsewhere E s call order i (c.threads i) := by
    rcases h.threads with ⟨_, _, h3⟩ | ⟨h1, k, b, h2, h3, h4⟩
    · exact h3 i
    · by_cases e : i = k
      · subst e; exact absurd ⟨b, h2, h1, h3, h4⟩ hhold
      · exact h4 i e
  rw [hi] at hel
  obtain ⟨g, hg, hgb⟩ := h.tree
  rcases hel with ⟨hnot, hw⟩ | ⟨o, ha, hw⟩
  · rcases hw with hw | ⟨k, hk, hw, hle⟩
    · cases hc : call i with
      | add b =>
        rw [hc] at hw
        cases hw
        simp only [Option.ite_none_left_eq_some] at hn
        obtain ⟨hfree, hn⟩ := hn
        cases hn
        have hfree : c.shared.held = false := by simpa using hfree
        refine ⟨order, ⟨h.nodup, h.chain, .inr ⟨rfl, i, b, hc, ?_, fun j hj => ?_⟩⟩, .inl rfl⟩
        · simp only [Function.update_self]
          rw [h.free hfree]
          exact .enter hnot
        · simp only [Function.update_of_ne hj]
          rcases h.threads with ⟨_, _, h3⟩ | ⟨h1, _⟩
          · exact h3 j
          · rw [hfree] at h1; cases h1
      | brief x =>
        have hna : ¬ (call i).adds := by rw [hc]; exact id
        rw [hc] at hw
        obtain ⟨next', rest', h1, h2, h3⟩ := x.step E
        change _ = x.prog E at hw
        rw [h1] at hw
        cases hw
        rw [h2] at hn
        cases hn
        refine ⟨order ++ [i], ?_, .inr (.inl ⟨hnot, rfl⟩)⟩
        have := h.commit (p := rest c.shared) hnot hna (fun hb => by rw [hc] at hb; exact hb.elim) (by
          rw [h3, hc]
          simp only [Call.alone]
          rw [hg, (x.blind E g _).1]
          exact .ended _)
        rw [hc] at this
        exact this
      | lookup l =>
        have hna : ¬ (call i).adds := by rw [hc]; exact id
        rw [hc] at hw
        have hS : afterCalls E call s (order ++ [i]) = afterCalls E call s order := by rw [afterCalls_last, lookup_state hc]
        cases l with
        | byHash q =>
          cases hw
          cases hn
          exact h.hash hnot hc rfl
        | byHeight k =>
          cases hw
          simp only [Option.ite_none_left_eq_some] at hn
          obtain ⟨hfree, hn⟩ := hn
          cases hn
          have hfree : c.shared.held = false := by simpa using hfree
          have hd := h.free hfree
          by_cases hlt : c.shared.data.main.chain.height.val < k.val
          · refine ⟨order ++ [i], ?_, .inr (.inl ⟨hnot, rfl⟩)⟩
            have := h.commit (p := .done (.ok (.block none))) hnot hna (fun hb => by rw [hc] at hb; exact hb.elim) (by
              rw [hc, ← hd]
              simp only [Call.alone, lookAlone, MainChain.findRawByHeight, Chain.findRawByHeight, if_pos hlt]
              exact .ended _)
            rw [lookup_state hc] at this
            have e : ((if c.shared.data.main.chain.height.val < k.val then (pure none : Prog Node (Option Bytes))
                else Node.read (fun t => .ok (t.main.chain.blocks.get k.toBE.val))) >>= wrap) = .done (.ok (.block none)) := by
              rw [if_pos hlt]; rfl
            rw [← e] at this
            exact this
          · refine ⟨order, ?_, .inl rfl⟩
            have := h.local (i := i) (p := fetch k) hna (.inl ⟨hnot, .inr ⟨k, hc, rfl, by rw [← hd]; omega⟩⟩)
            have e : ((if c.shared.data.main.chain.height.val < k.val then (pure none : Prog Node (Option Bytes))
                else Node.read (fun t => .ok (t.main.chain.blocks.get k.toBE.val))) >>= wrap) = fetch k := by
              rw [if_neg hlt]; rfl
            rw [← e] at this
            exact this
        | last =>
          cases hw
          simp only [Option.ite_none_left_eq_some] at hn
          obtain ⟨hfree, hn⟩ := hn
          cases hn
          have hfree : c.shared.held = false := by simpa using hfree
          have hd := h.free hfree
          refine ⟨order ++ [i], ?_, .inr (.inl ⟨hnot, rfl⟩)⟩
          have := h.commit (p := (Prog.lift (c.shared.data.main.chain.height.sub U256.one) >>= Node.findRawByHeight) >>= wrap)
            hnot hna (fun hb => by rw [hc] at hb; exact hb.elim) (by
              rw [hS, hc, ← hd]
              simp only [Call.alone, lookAlone, MainChain.getLastRawBlock]
              by_cases h1 : 1 ≤ c.shared.data.main.chain.height.val
              · rw [lastIndex h1]
                have hlt : c.shared.data.main.chain.height.val - 1 < c.shared.data.main.chain.height.val := by omega
                have hf : c.shared.data.main.findRawByHeight ⟨c.shared.data.main.chain.height.val - 1, by
                    have := c.shared.data.main.chain.height.lt; omega⟩ = c.shared.data.main.chain.blocks.get (U256.toBE
                      ⟨c.shared.data.main.chain.height.val - 1, by have := c.shared.data.main.chain.height.lt; omega⟩).val := by
                  unfold MainChain.findRawByHeight Chain.findRawByHeight
                  rw [if_neg (by simp only; omega)]
                simp only [Outcome.ok_bind, hf]
                exact .find ⟨c.shared.data.main.chain.height.val - 1, by
                  have := c.shared.data.main.chain.height.lt; omega⟩ hlt
              · have : c.shared.data.main.chain.height.sub U256.one = .panic .overflow := by
                  unfold U256.sub
                  rw [if_neg (by exact h1)]
                rw [this]
                exact .ended _)
          rw [lookup_state hc] at this
          exact this
    · cases hw
      cases hn
      have hna : ¬ (call i).adds := by rw [hk]; exact id
      have hS : afterCalls E call s (order ++ [i]) = afterCalls E call s order := by rw [afterCalls_last, lookup_state hk]
      refine ⟨order ++ [i], ?_, .inr (.inl ⟨hnot, rfl⟩)⟩
      have := h.commit (p := .done (.ok (.block (c.shared.data.main.chain.blocks.get k.toBE.val)))) hnot hna
        (fun hb => by rw [hk] at hb; exact hb.elim) (by
          rw [hk, hg]
          have e : (Node.setChain g (afterCalls E call s order)).main.chain.blocks =
            (afterCalls E call s order).main.chain.blocks := hgb _
          rw [e]
          simp only [Call.alone, lookAlone, MainChain.findRawByHeight, Chain.findRawByHeight,
            if_neg (show ¬ (afterCalls E call s order).main.chain.height.val < k.val by omega)]
          exact .ended _)
      rw [lookup_state hk] at this
      exact this
  · have hna : ∀ v, o = .ok (.block v) → ¬ (call i).adds := by
      rintro v rfl hadds
      obtain ⟨pre, post, _, e⟩ := ha
      exact not_block_of_adds hadds e.symm
    generalize hp : Prog.step next rest = p at hw
    cases hw with
    | ended o => cases hp
    | find k hlt =>
      cases hp
      simp only [Option.ite_none_left_eq_some] at hn
      obtain ⟨hfree, hn⟩ := hn
      cases hn
      have hfree : c.shared.held = false := by simpa using hfree
      have hd := h.free hfree
      refine ⟨order, ?_, .inl rfl⟩
      have := h.local (i := i) (p := fetch k) (hna _ rfl) (.inr ⟨_, ha, .fetch k hlt⟩)
      have e : ((if c.shared.data.main.chain.height.val < k.val then (pure none : Prog Node (Option Bytes))
          else Node.read (fun t => .ok (t.main.chain.blocks.get k.toBE.val))) >>= wrap) = fetch k := by
        rw [if_neg (by rw [hd]; omega)]; rfl
      rw [← e] at this
      exact this
    | fetch k hlt =>
      cases hp
      cases hn
      refine ⟨order, ?_, .inl rfl⟩
      refine h.local (i := i) (hna _ rfl) (.inr ⟨_, ha, ?_⟩)
      have e : (Node.setChain g (afterCalls E call s order)).main.chain.blocks =
        (afterCalls E call s order).main.chain.blocks := hgb _
      change Will _ (.done (.ok (.block (c.shared.data.main.chain.blocks.get k.toBE.val)))) _
      rw [hg, e]
      exact .ended _

/-! ## All schedules -/

theorem add_height (E : Env) (b : Block) (t : Tree) :
    ((Call.add b).alone E t).2.main.chain.height.val ≤ t.main.chain.height.val + 1 := by
  change (Chain.addBlock E b.info.height b.dump t.main.chain).final.height.val ≤ _
  unfold Chain.addBlock
  simp only [Act.get_bind]
  split
  · exact Nat.le_succ _
  · simp only [Act.step_bind]
    by_cases h : t.main.chain.height.val + 1 < U256.size
    · have hadd : t.main.chain.height.add U256.one = .ok ⟨t.main.chain.height.val + 1, h⟩ := by
        unfold U256.add
        rw [dif_pos (by simpa [U256.one] using h)]
        rfl
      simp only [hadd]
      exact Nat.le_refl _
    · exact (Nat.le_of_lt_succ (lt_of_lt_of_le (U256.lt _) (Nat.le_of_not_lt h))).trans (Nat.le_succ _)

theorem afterCalls_height (E : Env) (call : ι → Call) (order : List ι) : ∀ s,
    (afterCalls E call s order).main.chain.height.val ≤ s.main.chain.height.val + order.length := by
  induction order with
  | nil => intro s; exact Nat.le_refl _
  | cons i l ih =>
    intro s
    have h1 := ih ((call i).alone E s).2
    have h2 : ((call i).alone E s).2.main.chain.height.val ≤ s.main.chain.height.val + 1 := by
      cases hc : call i with
      | add b => exact add_height E b s
      | lookup l => exact Nat.le_succ _
      | brief x => rw [(Call.quiet (k := .brief x) id E id s).2]; exact Nat.le_succ _
    simp only [afterCalls, List.length_cons]
    omega

/-- `j` may be put before `i` although `i` had ended when `j` began: `j` looks a block up by its hash, and `i` does
something other than that or adding a block. -/
def MayPass (call : ι → Call) (i j : ι) : Prop := (call j).byHash ∧ ¬ (call i).byHash ∧ ¬ (call i).adds

/-- The order respects which call ended before which began. -/
def InTime (call : ι → Call) (log : List (Event ι Node)) (c : Config ι Node Reply) (order : List ι) : Prop :=
  ∀ i j, EndedFirst log i j → hasEnded (c.threads i) → i ∈ order → j ∈ order → ¬ MayPass call i j →
    Locked.Before order i j

theorem before_insert {pre rest : List ι} {i a b : ι} (h : Locked.Before (pre ++ rest) a b) :
    Locked.Before (pre ++ i :: rest) a b := by
  obtain ⟨l1, l2, l3, e⟩ := h
  rcases List.append_eq_append_iff.mp e with ⟨x, rfl, rfl⟩ | ⟨x, rfl, hr⟩
  · exact ⟨pre ++ i :: x, l2, l3, by simp⟩
  · cases x with
    | nil => exact ⟨l1 ++ [i], l2, l3, by simp at hr; simp [hr]⟩
    | cons y x =>
      simp only [List.cons_append, List.cons.injEq] at hr
      obtain ⟨rfl, hr⟩ := hr
      rcases List.append_eq_append_iff.mp hr with ⟨z, rfl, hz⟩ | ⟨z, rfl, rfl⟩
      · cases z with
        | nil =>
          simp only [List.nil_append] at hz
          exact ⟨l1, l2 ++ [i], l3, by simp [hz]⟩
        | cons w z =>
          simp only [List.cons_append, List.cons.injEq] at hz
          obtain ⟨rfl, rfl⟩ := hz
          exact ⟨l1, l2, z ++ i :: rest, by simp⟩
      · exact ⟨l1, x ++ i :: z, l3, by simp⟩

theorem endedFirst_snoc {log : List (Event ι Node)} {e : Event ι Node} {a b : ι} (h : EndedFirst (log ++ [e]) a b)
    (hb : ∃ x ∈ log ++ [e], x.thread = b) : a ≠ e.thread ∧ ((∃ x ∈ log, x.thread = b) → EndedFirst log a b) := by
  obtain ⟨log1, log2, h1, h2, h3⟩ := h
  rcases List.eq_nil_or_concat log2 with rfl | ⟨log2', e', rfl⟩
  · rw [List.append_nil] at h1
    obtain ⟨x, hx, rfl⟩ := hb
    exact absurd rfl (h3 x (h1 ▸ hx))
  · rw [List.concat_eq_append, ← List.append_assoc] at h1
    obtain ⟨h4, h5⟩ := List.append_inj' h1 rfl
    cases h5
    refine ⟨fun hae => h2 e (by simp) hae.symm, fun _ => ⟨log1, log2', h4, fun x hx => h2 x (by simp [hx]), h3⟩⟩

theorem prog_not_done (E : Env) (k : Call) (o : Outcome Reply) : k.prog E ≠ .done o := by
  cases k with
  | add b => intro h; cases h
  | lookup l => cases l <;> (intro h; cases h)
  | brief x =>
    obtain ⟨next, rest, h, _⟩ := x.step E
    change x.prog E ≠ _
    rw [h]
    intro h; cases h

theorem exec_serial [DecidableEq ι] [Fintype ι] {E : Env} {s : Tree} {bs : List Block} (hb : s.main.chain.Holds E bs)
    {call : ι → Call}
    {log : List (Event ι Node)} {c : Config ι Node Reply} (h : Exec ⟨⟨s, false⟩, fun i => (call i).prog E⟩ log c)
    (hm : s.main.getHeight.val + Fintype.card ι + 1 < U256.size) :
    ∃ order, Serial E s call order c ∧ (∀ i ∈ order, ∃ e ∈ log, e.thread = i) ∧ InTime call log c order := by
  induction h with
  | refl =>
    exact ⟨[], ⟨List.nodup_nil, ⟨_, hb⟩, .inl ⟨rfl, rfl, fun j => .inl ⟨by simp, .inl rfl⟩⟩⟩, by simp,
      fun i j _ _ hi => by simp at hi⟩
  | @step log c i next rest s' _ hi hn ih =>
    obtain ⟨order, hs, hev, hrt⟩ := ih
    have hlen := hs.nodup.length_le_card
    have hhe := afterCalls_height E call order s
    have hh : s.main.getHeight.val = s.main.chain.height.val := rfl
    obtain ⟨order', hs', hmove⟩ := hs.step hi hn (by omega)
    refine ⟨order', hs', ?_⟩
    have hev' : ∀ j ∈ order, ∃ e ∈ log ++ [⟨i, c.shared, s'⟩], e.thread = j := fun j hj => by
      obtain ⟨e, he, ht⟩ := hev j hj
      exact ⟨e, by simp [he], ht⟩
    have hevi : ∃ e ∈ log ++ [⟨i, c.shared, s'⟩], e.thread = i := ⟨⟨i, c.shared, s'⟩, by simp, rfl⟩
    have hend : ∀ a, a ≠ i → hasEnded (Function.update c.threads i (rest c.shared) a) → hasEnded (c.threads a) :=
      fun a ha h => by rw [Function.update_of_ne ha] at h; exact h
    rcases hmove with rfl | ⟨hnot, rfl⟩ | ⟨hnot, hbh, pre, k, post, rfl, rfl, hki, hpost, hk⟩
    · refine ⟨hev', fun a b hab hea ha hb hp => ?_⟩
      obtain ⟨h1, h2⟩ := endedFirst_snoc hab (hev' b hb)
      exact hrt a b (h2 (hev b hb)) (hend a h1 hea) ha hb hp
    · refine ⟨fun j hj => ?_, fun a b hab hea ha hb hp => ?_⟩
      · rcases List.mem_append.mp hj with hj | hj
        · exact hev' j hj
        · rw [List.mem_singleton.mp hj]; exact hevi
      · have hbe : ∃ e ∈ log ++ [⟨i, c.shared, s'⟩], e.thread = b := by
          rcases List.mem_append.mp hb with hb | hb
          · exact hev' b hb
          · rw [List.mem_singleton.mp hb]; exact hevi
        obtain ⟨h1, h2⟩ := endedFirst_snoc hab hbe
        have h1 : a ≠ i := h1
        have ha' : a ∈ order := by simpa [h1] using ha
        rcases List.mem_append.mp hb with hb | hb
        · exact (hrt a b (h2 (hev b hb)) (hend a h1 hea) ha' hb hp).append i
        · rw [List.mem_singleton.mp hb]
          exact Locked.before_last ha' i
    · refine ⟨fun j hj => ?_, fun a b hab hea ha hb hp => ?_⟩
      · by_cases e : j = i
        · rw [e]; exact hevi
        · refine hev' j ?_
          simp only [List.mem_append, List.mem_cons] at hj ⊢
          tauto
      · have hmem : ∀ j, j ≠ i → j ∈ pre ++ i :: k :: post → j ∈ pre ++ k :: post := fun j e hj => by
          simp only [List.mem_append, List.mem_cons] at hj ⊢
          tauto
        by_cases hbi : b = i
        · subst hbi
          obtain ⟨h1, h2⟩ := endedFirst_snoc hab hevi
          have h1 : a ≠ b := h1
          have ha' := hmem a h1 ha
          have hea' := hend a h1 hea
          have hak : a ≠ k := by
            rintro rfl
            obtain ⟨o, ho⟩ := hea'
            exact hk o ho
          have hapost : a ∉ post := fun hap => hp ⟨hbh, hpost a hap⟩
          have hapre : a ∈ pre := by
            simp only [List.mem_append, List.mem_cons] at ha'
            tauto
          obtain ⟨l1, l2, rfl⟩ := List.append_of_mem hapre
          exact ⟨l1, l2, k :: post, by simp⟩
        · have hb' := hmem b hbi hb
          obtain ⟨h1, h2⟩ := endedFirst_snoc hab (hev' b hb')
          exact before_insert (hrt a b (h2 (hev b hb')) (hend a h1 hea) (hmem a h1 ha) hb' hp)

theorem serial_all [DecidableEq ι] [Fintype ι] {E : Env} {s : Tree} {bs : List Block} (hb : s.main.chain.Holds E bs)
    {call : ι → Call} {log : List (Event ι Node)} {c : Config ι Node Reply}
    (h : Exec ⟨⟨s, false⟩, fun i => (call i).prog E⟩ log c)
    (hm : s.main.getHeight.val + Fintype.card ι + 1 < U256.size) (hall : ∀ i, hasEnded (c.threads i)) :
    c.shared.held = false ∧ ∃ order, Explains E s call c order ∧
      ∀ i j, EndedFirst log i j → ¬ MayPass call i j → Locked.Before order i j := by
  obtain ⟨order, hs, hev, hrt⟩ := exec_serial hb h hm
  have hfree : c.shared.held = false ∧ c.shared.data = afterCalls E call s order ∧
      ∀ j, Elsewhere E s call order j (c.threads j) := by
    rcases hs.threads with h1 | ⟨_, k, b, _, h3, _⟩
    · exact h1
    · obtain ⟨o, ho⟩ := hall k
      exact absurd ho (h3.mem_or o)
  have hin : ∀ i, ∃ o, AnswerIn E s call order i o ∧ c.threads i = .done o := by
    intro i
    obtain ⟨o, ho⟩ := hall i
    rcases hfree.2.2 i with ⟨_, hw | ⟨k, _, hw, _⟩⟩ | ⟨o', ha, hw⟩
    · rw [ho] at hw
      exact absurd hw.symm (prog_not_done E _ o)
    · rw [ho] at hw; cases hw
    · rw [ho] at hw
      cases hw
      exact ⟨o, ha, ho⟩
  refine ⟨hfree.1, order, ⟨hs.nodup, fun i => (hin i).choose_spec.1.mem, fun before i after e => ?_, hfree.2.1⟩,
    fun i j hij hp => hrt i j hij (hall i) (hin i).choose_spec.1.mem (hin j).choose_spec.1.mem hp⟩
  obtain ⟨o, ⟨pre, post, e', rfl⟩, ho⟩ := hin i
  have hn := hs.nodup
  rw [ho]
  suffices hpre : before = pre by rw [hpre]
  rw [e'] at e hn
  have h1 : i ∉ pre := by
    rw [List.nodup_append] at hn
    exact fun hi => hn.2.2 i hi i (by simp) rfl
  rcases List.append_eq_append_iff.mp e with ⟨a, h2, h3⟩ | ⟨a, h2, h3⟩
  · cases a with
    | nil => simpa using h2
    | cons x a =>
      simp only [List.cons_append, List.cons.injEq] at h3
      exfalso
      rw [List.nodup_append] at hn
      have := (List.nodup_cons.mp hn.2.1).1
      rw [h3.2] at this
      simp at this
  · cases a with
    | nil => simpa using h2.symm
    | cons x a =>
      simp only [List.cons_append, List.cons.injEq] at h3
      rw [h2, ← h3.1] at h1
      simp at h1

/-! ## C130 -/

/-- C130, what holds. Any number of threads add blocks and transactions, change and query balances and look blocks up, on
a node with any history. Under every schedule, when all calls have ended, there is an order of the calls that explains
what they returned and the state they left; and the order respects which call ended before which began, except that a
lookup by hash may come before calls that had ended when it began, if these are neither lookups by hash nor adding
blocks.
Missing: this exception (`C130_refuted`). -/
theorem C130_serializable_partial [DecidableEq ι] [Fintype ι] (E : Env) (s : Tree) (hr : Run E s) (call : ι → Call)
    (log : List (Event ι Node)) (c : Config ι Node Reply) (h : Exec ⟨⟨s, false⟩, fun i => (call i).prog E⟩ log c)
    (hm : s.main.getHeight.val + Fintype.card ι + 1 < U256.size) (hall : ∀ i, hasEnded (c.threads i)) :
    ∃ order, Explains E s call c order ∧
      ∀ i j, EndedFirst log i j → ¬ MayPass call i j → Locked.Before order i j := by
  obtain ⟨bs, hb⟩ := run_holds hr (by change s.main.getHeight.val + 1 < _; omega)
  exact (serial_all hb h hm hall).2

/-- C130 in full. -/
def C130_full : Prop := ∀ (ι : Type) [DecidableEq ι] [Fintype ι] (E : Env) (s : Tree) (call : ι → Call)
  (log : List (Event ι Node)) (c : Config ι Node Reply), Run E s →
  s.main.getHeight.val + Fintype.card ι + 1 < U256.size → Exec ⟨⟨s, false⟩, fun i => (call i).prog E⟩ log c →
  (∀ i, hasEnded (c.threads i)) →
  ∃ order, Explains E s call c order ∧ ∀ i j, EndedFirst log i j → Locked.Before order i j

theorem Exec.goBy {σ α : Type} [DecidableEq ι] {start : Config ι σ α} {s : σ} {th : ι → Prog σ α} {log : List (Event ι σ)}
    (h : Exec start log ⟨s, th⟩) (i : ι) {p q : Prog σ α} {t : σ} (hp : th i = p) (hr : Prog.Runs p s q t) :
    ∃ log', (∀ e ∈ log', e.thread = i) ∧ Exec start (log ++ log') ⟨t, Function.update th i q⟩ := by
  induction hr generalizing th log with
  | refl =>
    refine ⟨[], by simp, ?_⟩
    rw [← hp, Function.update_eq_self, List.append_nil]
    exact h
  | @step next rest s s' q t hn _ ih =>
    obtain ⟨log', hl, hl'⟩ := ih (Exec.step i h hp hn) (by simp)
    refine ⟨⟨i, s, s'⟩ :: log', fun e he => ?_, ?_⟩
    · rcases List.mem_cons.mp he with rfl | he
      · rfl
      · exact hl e he
    · rw [Function.update_idem] at hl'
      simpa using hl'

/-- Thread 0 adds the block, thread 1 looks it up by its height, thread 2 by its hash. -/
def threeCalls (E : Env) (b : Block) (i : Fin 3) : Call :=
  if i = 0 then .add b else if i = 1 then .lookup (.byHeight b.info.height) else .lookup (.byHash (E.sha256 b.dump))

theorem threeCalls_after (E : Env) (b : Block) (s : Tree) : ∀ l : List (Fin 3), l.Nodup →
    afterCalls E (threeCalls E b) s l = if 0 ∈ l then ((Call.add b).alone E s).2 else s := by
  intro l
  induction l generalizing s with
  | nil => intro _; rfl
  | cons i l ih =>
    intro hn
    obtain ⟨hi, hn⟩ := List.nodup_cons.mp hn
    simp only [afterCalls]
    rw [ih _ hn]
    by_cases h0 : i = 0
    · subst h0
      rw [if_neg hi, if_pos (by simp)]
      rfl
    · have : ((threeCalls E b i).alone E s).2 = s := by
        unfold threeCalls
        rw [if_neg h0]
        split <;> rfl
      rw [this]
      have h0' : ¬ (0 : Fin 3) = i := fun e => h0 e.symm
      simp only [List.mem_cons, h0', false_or]

/-- For every block that can be added: no order of the three calls in which the lookup by height comes first makes it find
the block and the lookup by hash not. -/
theorem no_answers {E : Env} {s : Tree} {b : Block} {bs : List Block} (hH : s.main.chain.Holds E bs)
    (hm : s.main.getHeight.val + 1 < U256.size) (hb : b.info.height = s.main.getHeight) {x y z : List (Fin 3)}
    (hn : (x ++ 1 :: (y ++ 2 :: z)).Nodup)
    (e1 : (afterCalls E (threeCalls E b) s x).main.findRawByHeight b.info.height = some b.dump)
    (e2 : (afterCalls E (threeCalls E b) s (x ++ 1 :: y)).main.chain.findRawByHash (E.sha256 b.dump) = .ok none) : False := by
  have hadd : (Chain.addBlock E b.info.height b.dump s.main.chain) = _ :=
    (congrArg (fun x => Chain.addBlock E x b.dump s.main.chain) hb).trans (Chain.addBlock_right (E := E) (dump := b.dump) hm)
  have hnx : x.Nodup := (List.nodup_append.mp hn).1
  have hnxy : (x ++ 1 :: y).Nodup := by
    have e : x ++ 1 :: (y ++ 2 :: z) = (x ++ 1 :: y) ++ 2 :: z := by simp
    rw [e] at hn
    exact (List.nodup_append.mp hn).1
  rw [threeCalls_after E b s x hnx] at e1
  rw [threeCalls_after E b s _ hnxy] at e2
  by_cases h0 : (0 : Fin 3) ∈ x
  · rw [if_pos (by simp [h0])] at e2
    have hc : (((Call.add b).alone E s).2).main.chain = s.main.chain.put3 E b.dump ⟨s.main.chain.height.val + 1, hm⟩ := by
      change (Chain.addBlock E b.info.height b.dump s.main.chain).final = _
      rw [hadd]
    have hfind : (s.main.chain.put3 E b.dump ⟨s.main.chain.height.val + 1, hm⟩).findRawByHash (E.sha256 b.dump) =
        .ok (some b.dump) := by
      unfold Chain.findRawByHash Chain.put3
      simp only [Db.get_insert, if_true, fromBE_toBE, Outcome.ok_bind, Chain.findRawByHeight,
        if_neg (show ¬ s.main.chain.height.val + 1 < s.main.chain.height.val by omega)]
    rw [hc, hfind] at e2
    cases e2
  · rw [if_neg h0] at e1
    have hfr := free_slot hH
    have : s.main.findRawByHeight b.info.height = none := by
      rw [hb]
      unfold MainChain.findRawByHeight Chain.findRawByHeight
      split
      · rfl
      · exact hfr
    rw [this] at e1
    cases e1

/-- For every block that can be added and whose hash is new, the lookup by height can find the block and end before the lookup
by hash begins, which does not find it. -/
theorem height_first (E : Env) (s : Tree) (b : Block) (hm : s.main.getHeight.val + 1 < U256.size)
    (hb : b.info.height = s.main.getHeight) (hnew : s.main.chain.heightReference.get (E.sha256 b.dump).val = none) :
    ∃ log c, Exec ⟨⟨s, false⟩, fun i => (threeCalls E b i).prog E⟩ log c ∧ (∀ i, hasEnded (c.threads i)) ∧
      EndedFirst log 1 2 ∧ c.threads 1 = .done (.ok (.block (some b.dump))) ∧ c.threads 2 = .done (.ok (.block none)) := by
  obtain ⟨s1, hs1⟩ : ∃ s1, s1 = storeBlock b s.main.getHeight s := ⟨_, rfl⟩
  have r1 : Prog.Runs ((threeCalls E b 1).prog E) ⟨s, false⟩ (fetch s.main.getHeight) ⟨s, false⟩ := by
    refine .step (s' := ⟨s, false⟩) rfl ?_
    have : ∀ p q : Prog Node Reply, p = q → Prog.Runs p ⟨s, false⟩ q ⟨s, false⟩ := fun _ _ e => e ▸ .refl
    refine this _ _ ?_
    change (if s.main.chain.height.val < b.info.height.val then (pure none : Prog Node (Option Bytes)) else
      Node.read (fun t => .ok (t.main.chain.blocks.get b.info.height.toBE.val))) >>= wrap = _
    rw [hb, if_neg (show ¬ s.main.chain.height.val < s.main.getHeight.val from Nat.lt_irrefl _)]
    rfl
  have r2 : Prog.Runs ((threeCalls E b 0).prog E) ⟨s, false⟩ (afterStore E b s.main.getHeight >>= fin) ⟨s1, true⟩ := by
    refine .step (s' := ⟨s, true⟩) rfl (.step (s' := ⟨s, true⟩) rfl ?_)
    have : afterRead E b s.main.getHeight = Node.write (storeBlock b s.main.getHeight) >>= fun _ =>
        afterStore E b s.main.getHeight := by
      unfold afterRead; rw [if_neg (by simp [hb])]
    change Prog.Runs (afterRead E b s.main.getHeight >>= fin) _ _ _
    rw [this]
    exact .step (s' := ⟨s1, true⟩) (by rw [hs1]) .refl
  have r3 : Prog.Runs (fetch s.main.getHeight) ⟨s1, true⟩ (.done (.ok (.block (some b.dump)))) ⟨s1, true⟩ := by
    refine .step (s' := ⟨s1, true⟩) rfl ?_
    have hget : s1.main.chain.blocks.get s.main.getHeight.toBE.val = some b.dump := by
      rw [hs1]
      change (s.main.chain.blocks.insert _ _).get _ = _
      rw [Db.get_insert, if_pos rfl]
    change Prog.Runs (wrap (s1.main.chain.blocks.get s.main.getHeight.toBE.val)) _ _ _
    rw [hget]
    exact .refl
  have r4 : Prog.Runs ((threeCalls E b 2).prog E) ⟨s1, true⟩ (.done (.ok (.block none))) ⟨s1, true⟩ := by
    refine .step (s' := ⟨s1, true⟩) rfl ?_
    have href : s1.main.chain.heightReference.get (E.sha256 b.dump).val = none := by rw [hs1]; exact hnew
    change Prog.Runs ((match s1.main.chain.heightReference.get (E.sha256 b.dump).val with
      | none => pure none
      | some h => _) >>= wrap) _ _ _
    rw [href]
    exact .refl
  have r5 : ∃ s2, Prog.Runs (afterStore E b s.main.getHeight >>= fin) ⟨s1, true⟩ (.done (.ok .nothing)) ⟨s2, false⟩ := by
    have ha : s.main.getHeight.add U256.one = .ok ⟨s.main.getHeight.val + 1, hm⟩ := by
      unfold U256.add
      rw [dif_pos (by simpa [U256.one] using hm)]
      rfl
    refine ⟨Node.setChain (fun c => { c with height := ⟨s.main.getHeight.val + 1, hm⟩ }) (storeRef E b s.main.getHeight s1),
      .step (s' := ⟨storeRef E b s.main.getHeight s1, true⟩) rfl ?_⟩
    change Prog.Runs (afterRef s.main.getHeight >>= fin) _ _ _
    unfold afterRef
    rw [ha]
    exact .step (s' := ⟨Node.setChain (fun c => { c with height := ⟨s.main.getHeight.val + 1, hm⟩ })
      (storeRef E b s.main.getHeight s1), true⟩) rfl (.step rfl .refl)
  obtain ⟨s2, r5⟩ := r5
  obtain ⟨l1, t1, h1⟩ := Exec.goBy (Exec.refl (start := ⟨⟨s, false⟩, fun i => (threeCalls E b i).prog E⟩)) 1 rfl r1
  obtain ⟨l2, t2, h2⟩ := Exec.goBy h1 0 rfl r2
  obtain ⟨l3, t3, h3⟩ := Exec.goBy h2 1 rfl r3
  obtain ⟨l4, t4, h4⟩ := Exec.goBy h3 2 rfl r4
  obtain ⟨l5, t5, h5⟩ := Exec.goBy h4 0 rfl r5
  refine ⟨_, _, h5, fun i => ?_, ⟨l1 ++ l2 ++ l3, l4 ++ l5, by simp, fun e he => ?_, fun e he => ?_⟩, rfl, rfl⟩
  · match i with
    | 0 => exact ⟨_, rfl⟩
    | 1 => exact ⟨_, rfl⟩
    | 2 => exact ⟨_, rfl⟩
  · rcases List.mem_append.mp he with he | he
    · rw [t4 e he]; decide
    · rw [t5 e he]; decide
  · rcases List.mem_append.mp he with he | he
    · rcases List.mem_append.mp he with he | he
      · rw [t1 e he]; decide
      · rw [t2 e he]; decide
    · rw [t3 e he]; decide

/-- In every state, for every block that can be added and whose hash is new, some schedule of the three calls is explained
by no order that respects time. -/
theorem no_order (E : Env) (s : Tree) (b : Block) (hr : Run E s) (hm : s.main.getHeight.val + 1 < U256.size)
    (hb : b.info.height = s.main.getHeight) (hnew : s.main.chain.heightReference.get (E.sha256 b.dump).val = none) :
    ∃ log c, Exec ⟨⟨s, false⟩, fun i => (threeCalls E b i).prog E⟩ log c ∧ (∀ i, hasEnded (c.threads i)) ∧
      EndedFirst log 1 2 ∧ ¬ ∃ order, Explains E s (threeCalls E b) c order ∧ Locked.Before order 1 2 := by
  obtain ⟨bs, hH⟩ := run_holds hr hm
  obtain ⟨log, c, h1, h2, h3, k1, k2⟩ := height_first E s b hm hb hnew
  refine ⟨log, c, h1, h2, h3, ?_⟩
  rintro ⟨order, hex, x, y, z, ho⟩
  have hn := hex.nodup
  have a1 := hex.answers x 1 (y ++ 2 :: z) ho
  have a2 := hex.answers (x ++ 1 :: y) 2 z (by rw [ho]; simp)
  rw [ho] at hn
  rw [k1] at a1
  rw [k2] at a2
  refine no_answers hH hm hb hn ?_ ?_
  · have e1 : (Prog.done (.ok (.block (some b.dump))) : Prog Node Reply) =
        .done (.ok (.block ((afterCalls E (threeCalls E b) s x).main.findRawByHeight b.info.height))) := a1
    simp only [Prog.done.injEq, Outcome.ok.injEq, Reply.block.injEq] at e1
    exact e1.symm
  · have e2 : (Prog.done (.ok (.block none)) : Prog Node Reply) =
        .done (((afterCalls E (threeCalls E b) s (x ++ 1 :: y)).main.chain.findRawByHash (E.sha256 b.dump)) >>=
          fun r => .ok (.block r)) := a2
    cases hx : (afterCalls E (threeCalls E b) s (x ++ 1 :: y)).main.chain.findRawByHash (E.sha256 b.dump) with
    | ok r => rw [hx] at e2; cases e2; rfl
    | err e => rw [hx] at e2; cases e2
    | panic e => rw [hx] at e2; cases e2
    | ub => rw [hx] at e2; cases e2

/-- C130 is false of the code: in every state, for every block that can be added and whose hash is new, some schedule of
three calls is explained by no order that respects time. A lookup by height has found the block and ended before the
lookup by hash begins, which does not find it. -/
theorem C130_refuted :
    (∀ (E : Env) (s : Tree) (b : Block), Run E s → s.main.getHeight.val + 1 < U256.size →
      b.info.height = s.main.getHeight → s.main.chain.heightReference.get (E.sha256 b.dump).val = none →
      ∃ log c, Exec ⟨⟨s, false⟩, fun i => (threeCalls E b i).prog E⟩ log c ∧ (∀ i, hasEnded (c.threads i)) ∧
        EndedFirst log 1 2 ∧ ¬ ∃ order, Explains E s (threeCalls E b) c order ∧ Locked.Before order 1 2) ∧
    ¬ C130_full := by
  refine ⟨no_order, fun hfull => ?_⟩
  obtain ⟨log, c, h1, h2, h3, h4⟩ := no_order (shaEnv true) (openTree (shaEnv true) Disk.empty).final
    (.summarize ⟨⟨0, BytesN.fill 32 0, BytesN.fill 32 0, U256.one, BytesN.fill 32 0, ROOT_PUBLIC_ADDRESS⟩, BytesN.fill 32 0⟩)
    .fresh (by decide +kernel) (by decide +kernel) (by decide +kernel)
  obtain ⟨order, h5, h6⟩ := hfull (Fin 3) _ _ _ log c .fresh (by decide +kernel) h1 h2
  exact h4 ⟨order, h5, h6 1 2 h3⟩

/-- `C130_serializable_partial` is about something: on a new node, with SHA-256, the three calls can all end, interleaved. -/
example : ∃ (b : Block) (log : List (Event (Fin 3) Node)) (c : Config (Fin 3) Node Reply),
    Run (shaEnv true) (openTree (shaEnv true) Disk.empty).final ∧
    Exec ⟨⟨(openTree (shaEnv true) Disk.empty).final, false⟩, fun i => (threeCalls (shaEnv true) b i).prog (shaEnv true)⟩ log c ∧
    (openTree (shaEnv true) Disk.empty).final.main.getHeight.val + Fintype.card (Fin 3) + 1 < U256.size ∧
    (∀ i, hasEnded (c.threads i)) ∧
    ∃ order, Explains (shaEnv true) (openTree (shaEnv true) Disk.empty).final (threeCalls (shaEnv true) b) c order := by
  obtain ⟨log, c, h1, h2, _, _⟩ := no_order (shaEnv true) (openTree (shaEnv true) Disk.empty).final
    (.summarize ⟨⟨0, BytesN.fill 32 0, BytesN.fill 32 0, U256.one, BytesN.fill 32 0, ROOT_PUBLIC_ADDRESS⟩, BytesN.fill 32 0⟩)
    .fresh (by decide +kernel) (by decide +kernel) (by decide +kernel)
  have hm : (openTree (shaEnv true) Disk.empty).final.main.getHeight.val + Fintype.card (Fin 3) + 1 < U256.size := by
    decide +kernel
  obtain ⟨order, ho, _⟩ := C130_serializable_partial _ _ .fresh _ log c h1 hm h2
  exact ⟨_, log, c, .fresh, h1, hm, h2, order, ho⟩

end BCT.Props
