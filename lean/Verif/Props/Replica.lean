import Verif.Lemmas.Replica
import Verif.Props.Send
import Verif.Props.Validate
import Verif.Props.Crash
/-!
# C112-C114: replicas, what the tip commits to, and what `add_block` accepts
-/

namespace BCT.Props
open BCT

/-! ## C112 -/

/-- `s` is handed the blocks of `feed` in order, each with its transactions, every call succeeds, and `t` is the
result. -/
def Fed (E : Env) : Tree → List (Block × List Transaction) → Tree → Prop
  | s, [], t => t = s
  | s, p :: feed, t => ((Op.addNewBlock p.1 p.2).run E s).out = .ok () ∧ Fed E ((Op.addNewBlock p.1 p.2).run E s).final feed t

/-- The blocks of `feed` are those `s` stores above its genesis block. -/
structure Copies (s : Tree) (feed : List (Block × List Transaction)) : Prop where
  len : feed.length + 1 = s.main.getHeight.val
  blocks : ∀ (i : Nat) (hi : i < feed.length) (q : U256), q.val = i + 1 → s.main.findRawByHeight q = some feed[i].1.dump

/-- Every block comes with the transactions it lists. -/
def WithTransactions (E : Env) (feed : List (Block × List Transaction)) : Prop :=
  ∀ p ∈ feed, p.2.map (fun t => E.sha256 t.dump) = p.1.transactions.getD []

/-- The two nodes answer alike when asked for blocks. -/
structure SameChain (s t : Tree) : Prop where
  height : t.main.getHeight = s.main.getHeight
  last : t.main.getLastBlock = s.main.getLastBlock
  rawByHeight : ∀ q, t.main.findRawByHeight q = s.main.findRawByHeight q
  byHeight : ∀ q, t.main.findByHeight q = s.main.findByHeight q
  rawByHash : ∀ h, t.main.findRawByHash h = s.main.findRawByHash h
  byHash : ∀ h, t.main.findByHash h = s.main.findByHash h

theorem sameChain_of {s t : Tree} (h : Chain.Same s.main.chain t.main.chain) : SameChain s t := by
  obtain ⟨h1, h2, h3⟩ := h
  have rh : ∀ q, t.main.findRawByHeight q = s.main.findRawByHeight q := fun q => by
    unfold MainChain.findRawByHeight Chain.findRawByHeight Db.get; rw [h1, h3]
  have rr : ∀ h, t.main.findRawByHash h = s.main.findRawByHash h := fun h => by
    unfold MainChain.findRawByHash Chain.findRawByHash Chain.findRawByHeight Db.get; rw [h1, h2, h3]
  refine ⟨h3, ?_, rh, fun q => ?_, rr, fun h => ?_⟩
  · unfold MainChain.getLastBlock MainChain.getLastRawBlock; rw [h3]; simp only [rh]
  · unfold MainChain.findByHeight; rw [rh]
  · unfold MainChain.findByHash; rw [rr]

/-- C112 at full strength: a fresh node handed all blocks of another node with their transactions has the same
blocks and the same balances. -/
def C112_full : Prop := ∀ (E : Env) (s r : Tree) (feed : List (Block × List Transaction)), Run E s →
  s.main.getHeight.val + 1 < U256.size → Copies s feed → WithTransactions E feed → Fed E (openTree E Disk.empty).final feed r →
  SameChain s r ∧ (∀ o, r.getAmount o = s.getAmount o) ∧ (∀ o, r.getGas o = s.getGas o)

theorem fed_run {E : Env} : ∀ {feed : List (Block × List Transaction)} {s t : Tree}, Run E s → Fed E s feed t → Run E t
  | [], _, _, hr, h => by rw [h]; exact hr
  | _ :: _, _, _, hr, h => fed_run (.call _ _ hr trivial) h.2

theorem fed_of_adds {E : Env} : ∀ {feed : List (Block × List Transaction)} {s : Tree} {c t : Chain},
    Chain.Same c s.main.chain → Chain.Adds E c (feed.map (·.1)) t → ∃ r, Fed E s feed r ∧ Chain.Same t r.main.chain
  | [], s, c, t, hs, ha => ⟨s, rfl, Chain.same_preord.trans (Chain.Same.symm ha) hs⟩
  | (b, txs) :: feed, s, c, t, hs, ⟨h1, h2, h3⟩ => by
    obtain ⟨g1, g2⟩ := addNewBlock_right E s b txs (h1.trans hs.2.2.symm) (by rw [hs.2.2]; exact h2)
    obtain ⟨r, hr, hc⟩ := fed_of_adds (Chain.same_preord.trans (Chain.addBlock_congr hs h1 h2) g2) h3
    exact ⟨r, ⟨g1, hr⟩, hc⟩

theorem fed_stores {E : Env} : ∀ {feed : List (Block × List Transaction)} {s t : Tree}, Run E s → Fed E s feed t →
    Later E s t ∧ ∀ p ∈ feed, ∀ tx ∈ p.2, t.main.transactionExists (E.sha256 tx.dump) = true := by
  intro feed
  induction feed with
  | nil => intro s t _ h; rw [h]; exact ⟨.refl, by simp⟩
  | cons p feed ih =>
    intro s t hr h
    obtain ⟨h1, h2⟩ := ih (.call _ _ hr trivial) h.2
    refine ⟨?_, fun q hq tx htx => ?_⟩
    · clear h2 ih h
      induction h1 with
      | refl => exact .call _ _ .refl
      | call s' op _ ih => exact .call _ _ ih
    · rcases List.mem_cons.mp hq with rfl | hq
      · have := stores_ok (op := .addNewBlock q.1 q.2) hr htx h.1
        exact later_txsGrow h1 _ this
      · exact h2 q hq tx htx


/-- C112, what holds: the blocks to hand over exist and are determined by the node; a fresh node that is handed them,
with any transactions, accepts every one, answers as the first node when asked for blocks, and has the transactions.
Missing: the balances. -/
theorem C112_same_chain_partial (E : Env) (s : Tree) (hr : Run E s) (hm : s.main.getHeight.val + 1 < U256.size) :
    (∃ feed, Copies s feed) ∧
    (∀ f g, Copies s f → Copies s g → f.map (·.1) = g.map (·.1)) ∧
    ∀ feed, Copies s feed → ∃ r, Fed E (openTree E Disk.empty).final feed r ∧ Run E r ∧ SameChain s r ∧
      ∀ p ∈ feed, ∀ t ∈ p.2, r.main.transactionExists (E.sha256 t.dump) = true := by
  obtain ⟨bs, ha⟩ := (run_built hr).2 hm
  have h0 : Chain.Holds E (openTree E Disk.empty).final.main.chain [genesis E] := by
    rw [(openTree_fresh E).2]; exact bootChain_holds E _ _
  have hh := ha.holds h0
  have hlen : bs.length + 1 = s.main.getHeight.val := by
    have := hh.len
    show _ = s.main.chain.height.val
    simpa [Nat.add_comm] using this
  have hraw : ∀ (i : Nat) (hi : i < bs.length) (q : U256), q.val = i + 1 → s.main.findRawByHeight q = some bs[i].dump := by
    intro i hi q hq
    unfold MainChain.findRawByHeight
    rw [hh.findRaw, hq]
    simp [List.getElem?_eq_getElem hi]
  have huniq : ∀ feed, Copies s feed → feed.map (·.1) = bs := by
    intro feed hf
    have hl : feed.length = bs.length := by have := hf.len; omega
    refine List.ext_getElem (by simpa using hl) fun i h1 h2 => ?_
    have hi : i < feed.length := by simpa using h1
    have hlt : i + 1 < U256.size := by omega
    have e1 := hf.blocks i hi ⟨i + 1, hlt⟩ rfl
    rw [hraw i h2 ⟨i + 1, hlt⟩ rfl] at e1
    rw [List.getElem_map]
    exact (Block.dump_inj (Option.some.inj e1)).symm
  refine ⟨⟨bs.map (fun b => (b, [])), by simpa using hlen, fun i hi q hq => ?_⟩, fun f g hf hg => ?_, fun feed hf => ?_⟩
  · have hi' : i < bs.length := by simpa using hi
    rw [hraw i hi' q hq]; simp
  · rw [huniq f hf, huniq g hg]
  · rw [← huniq feed hf] at ha
    obtain ⟨r, h1, h2⟩ := fed_of_adds (Chain.same_preord.refl _) ha
    exact ⟨r, h1, fed_run .fresh h1, sameChain_of h2, (fed_stores .fresh h1).2⟩

theorem fed_ledgers {E : Env} : ∀ {feed : List (Block × List Transaction)} {s t : Tree}, Fed E s feed t →
    t.summary = s.summary ∧ t.gas = s.gas
  | [], _, _, h => by rw [h]; exact ⟨rfl, rfl⟩
  | p :: feed, s, t, h => by
    obtain ⟨h1, h2⟩ := fed_ledgers h.2
    have key : Act.Rel (fun a b : Tree => b.summary = a.summary ∧ b.gas = a.gas) (Tree.addNewBlock E p.1 p.2) := by
      have C := Act.rel_closed (R := fun a b : Tree => b.summary = a.summary ∧ b.gas = a.gas)
        ⟨fun _ => ⟨rfl, rfl⟩, fun h g => ⟨g.1.trans h.1, g.2.trans h.2⟩⟩
      exact C.bind (Act.rel_zoom (Act.rel_true _) fun _ _ _ => ⟨rfl, rfl⟩) fun _ =>
        Act.rel_zoom (Act.rel_true _) fun _ _ _ => ⟨rfl, rfl⟩
    obtain ⟨h3, h4⟩ := (key s).1
    exact ⟨h1.trans h3, h2.trans h4⟩

/-- The root account sends 1000 coins. -/
def rootTx : Transaction := { exTx with sender := ROOT_PUBLIC_ADDRESS }

/-- The block that lists this transaction. -/
def rootTxBlock (E : Env) : Block :=
  .transaction { exTxBlock with defaultInfo := { exInfo with height := U256.one }, transactions := [E.sha256 rootTx.dump] }

/-- A node whose root account has sent 1000 coins by `send_transaction`, in the block of height 1. -/
theorem rootSent (E : Env) : ∃ s, Run E s ∧ s.main.getHeight.val = 2 ∧ Copies s [(rootTxBlock E, [rootTx])] ∧
    (∃ a, s.getAmount rootTx.receiver = .ok a ∧ a.val = 1000) := by
  obtain ⟨hc, hg0⟩ := C47_start E
  obtain ⟨r1, c1, g1, m1⟩ := C47_history E _ _ _ [.addGas ROOT_PUBLIC_ADDRESS.val (U256.ofNat 1000000000000000000)] .fresh hc hg0
    (by simp [gasCall])
  obtain ⟨s1, hs1⟩ : ∃ s1, s1 = runAll E (openTree E Disk.empty).final
    [.addGas ROOT_PUBLIC_ADDRESS.val (U256.ofNat 1000000000000000000)] := ⟨_, rfl⟩
  rw [← hs1] at r1 c1 g1 m1
  obtain ⟨t, _, h6, hh, ⟨b, _, h7, h8⟩, _⟩ := C37_fresh_node E
  rw [h6] at m1
  have hlast : s1.main.getLastBlock = .ok (some (.summarize b)) := by rw [m1]; exact h7
  have hfee : recalculateFee (Block.summarize b).info.difficulty = .ok (U256.ofNat 62500) := by
    show recalculateFee b.defaultInfo.difficulty = _
    rw [h8]; decide +kernel
  have hne : rootTx.receiver.val ≠ ROOT_PUBLIC_ADDRESS.val := by decide +kernel
  have ok : ((Op.sendTransaction rootTx).run E s1).out = .ok () := by
    refine (C53_admission E s1 rootTx _ _ r1 c1 g1).mpr ⟨⟨_, _, hlast, hfee, ?_, ?_⟩, .inr ?_⟩
    all_goals decide +kernel
  obtain ⟨s2, e2, _, _, c2, _, _, _, m2, _⟩ := (C52_effect E s1 rootTx _ _ r1 c1 g1).1 ok
  have r2 : Run E s2 := by rw [← e2]; exact .call _ _ r1 trivial
  have hh2 : s2.main.chain.height = U256.one := by
    rw [m2, m1]; exact U256.ext hh
  have hm2 : s2.main.chain.height.val + 1 < U256.size := by rw [hh2]; decide
  obtain ⟨k1, k2⟩ := addNewBlock_right E s2 (rootTxBlock E) [rootTx] hh2.symm hm2
  have k3 : (Chain.addBlock E (rootTxBlock E).info.height (rootTxBlock E).dump s2.main.chain).final =
      s2.main.chain.put3 E (rootTxBlock E).dump ⟨s2.main.chain.height.val + 1, hm2⟩ := by
    rw [show (rootTxBlock E).info.height = s2.main.chain.height from hh2.symm, Chain.addBlock_right hm2]
  rw [k3] at k2
  have hl := (fed_ledgers (E := E) (feed := [(rootTxBlock E, [rootTx])]) (s := s2) ⟨k1, rfl⟩).1
  refine ⟨_, .call s2 (.addNewBlock (rootTxBlock E) [rootTx]) r2 trivial, ?_, ⟨?_, ?_⟩, ?_⟩
  · show (Chain.height _).val = _
    rw [k2.2.2]; simp only [Chain.put3, hh2]; rfl
  · show 1 + 1 = (Chain.height _).val
    rw [k2.2.2]; simp only [Chain.put3, hh2]; rfl
  · intro i hi q hq
    have hi0 : i = 0 := by simpa using hi
    subst hi0
    have hq' : q = U256.one := U256.ext hq
    unfold MainChain.findRawByHeight Chain.findRawByHeight Db.get
    rw [k2.1, k2.2.2, hq', if_neg (by simp only [Chain.put3, hh2]; decide)]
    show (Db.insert _ _ _).get _ = _
    rw [Db.get_insert, if_pos (by rw [hh2])]
    rfl
  · obtain ⟨a, h1, h2⟩ := c2 rootTx.receiver.val
    refine ⟨a, ?_, ?_⟩
    · unfold Tree.getAmount; rw [hl]; exact h1
    · rw [h2]; decide +kernel

/-- A replica has the balances of a fresh node, whatever it was handed. -/
theorem C112_refuted :
    (∀ (E : Env) (feed : List (Block × List Transaction)) (r : Tree), Fed E (openTree E Disk.empty).final feed r →
      (∀ o, r.getAmount o = (openTree E Disk.empty).final.getAmount o) ∧ ∀ o, r.getGas o = .ok U256.zero) ∧
    (∀ (E : Env), ∃ s feed, Run E s ∧ s.main.getHeight.val + 1 < U256.size ∧ Copies s feed ∧ WithTransactions E feed ∧
      ∀ r, Fed E (openTree E Disk.empty).final feed r → ∃ o, r.getAmount o ≠ s.getAmount o) ∧ ¬ C112_full := by
  have key : ∀ (E : Env) (feed : List (Block × List Transaction)) (r : Tree), Fed E (openTree E Disk.empty).final feed r →
      (∀ o, r.getAmount o = (openTree E Disk.empty).final.getAmount o) ∧ ∀ o, r.getGas o = .ok U256.zero := by
    intro E feed r h
    obtain ⟨h1, h2⟩ := fed_ledgers h
    refine ⟨fun o => by unfold Tree.getAmount; rw [h1], fun o => ?_⟩
    obtain ⟨t, _, rfl, _, _, _, _, _, _, h3⟩ := C37_fresh_node E
    rw [← h3 o]; unfold Tree.getGas; rw [h2]
  have wit : ∀ (E : Env), ∃ s feed, Run E s ∧ s.main.getHeight.val + 1 < U256.size ∧ Copies s feed ∧ WithTransactions E feed ∧
      ∀ r, Fed E (openTree E Disk.empty).final feed r → ∃ o, r.getAmount o ≠ s.getAmount o := by
    intro E
    obtain ⟨s, h1, h2, h3, a, h4, h5⟩ := rootSent E
    refine ⟨s, _, h1, by rw [h2]; decide, h3, ?_, fun r hr => ⟨rootTx.receiver, ?_⟩⟩
    · intro p hp
      rw [List.mem_singleton.mp hp]; rfl
    · obtain ⟨t, _, ht, _, _, _, _, _, h6, _⟩ := C37_fresh_node E
      rw [(key E _ r hr).1, ht, h6 _ (by decide), h4]
      intro e
      cases e
      exact absurd h5 (by decide)
  refine ⟨key, wit, fun hf => ?_⟩
  obtain ⟨s, feed, h1, h2, h3, h4, h5⟩ := wit zeroEnv
  obtain ⟨r, hr, _⟩ := (C112_same_chain_partial zeroEnv s h1 h2).2.2 feed h3
  obtain ⟨o, ho⟩ := h5 r hr
  exact ho ((hf _ _ _ _ h1 h2 h3 h4 hr).2.1 o)

/-! ## C113 -/

/-- Histories in which every block handed to the node is first validated against the node's last block. -/
inductive Careful (E : Env) : Tree → Prop where
  | fresh : Careful E (openTree E Disk.empty).final
  | call (s : Tree) (op : Op) : Careful E s → EmitOnly op → Careful E (op.run E s).final
  | add (s : Tree) (b last : Block) : Careful E s → s.main.getLastBlock = .ok (some last) → b.IsMain →
      b.validate E (some last) = .ok true → Careful E ((Op.addBlock b).run E s).final
  | addNew (s : Tree) (b last : Block) (txs : List Transaction) : Careful E s → s.main.getLastBlock = .ok (some last) →
      b.IsMain → b.validate E (some last) = .ok true → Careful E ((Op.addNewBlock b txs).run E s).final

/-- Every block but the first has the header the block before asks for. -/
def HeaderLinked (E : Env) : List Block → Prop
  | [] => True
  | [_] => True
  | a :: b :: l => NextInfo E a b.info ∧ HeaderLinked E (b :: l)

theorem HeaderLinked.snoc {E : Env} : ∀ {l : List Block} {a b : Block}, HeaderLinked E l → l.getLast? = some a →
    NextInfo E a b.info → HeaderLinked E (l ++ [b])
  | [], _, _, _, h, _ => by simp at h
  | [x], a, b, _, h, hn => by
    simp at h; subst h; exact ⟨hn, trivial⟩
  | x :: y :: l, a, b, hl, h, hn => by
    refine ⟨hl.1, HeaderLinked.snoc hl.2 ?_ hn⟩
    rw [List.getLast?_cons_cons] at h; exact h

theorem HeaderLinked.get {E : Env} : ∀ {l : List Block} (_ : HeaderLinked E l) (i : Nat) (h : i + 1 < l.length),
    NextInfo E l[i] l[i + 1].info
  | [], _, i, h => by simp at h
  | [_], _, i, h => by simp at h
  | a :: b :: l, hl, 0, h => hl.1
  | a :: b :: l, hl, i + 1, h => HeaderLinked.get hl.2 i (by simpa using h)

theorem validate_header {E : Env} {b prev : Block} (hb : b.IsMain) (h : b.validate E (some prev) = .ok true) :
    b.info.previousHash = prev.hash E ∧
    recalculateDifficulty E prev.info.timestamp b.info.timestamp prev.info.difficulty = .ok b.info.difficulty := by
  cases b with
  | transaction b => exact ⟨((C27_txblock_validate E b prev).mp h).1, ((C27_txblock_validate E b prev).mp h).2.2.1⟩
  | summarize b => exact ⟨((C27_sumblock_validate E b prev).mp h).1, ((C27_sumblock_validate E b prev).mp h).2.1⟩
  | derivative b => exact absurd hb id

theorem Careful.run {E : Env} {s : Tree} (h : Careful E s) : Run E s := by
  induction h with
  | fresh => exact .fresh
  | call s op _ _ ih => exact .call _ _ ih trivial
  | add s b _ _ _ _ _ ih => exact .call _ _ ih trivial
  | addNew s b _ txs _ _ _ _ ih => exact .call _ _ ih trivial

theorem addNewBlock_wrong (E : Env) (s : Tree) (b : Block) (txs : List Transaction)
    (hb : b.info.height ≠ s.main.chain.height) : ((Op.addNewBlock b txs).run E s).final = s := by
  change (Tree.addNewBlock E b txs s).final = s
  unfold Tree.addNewBlock
  have h : Tree.onMain (MainChain.addBlock E b) s = ⟨.err .chainAddingBlock, s, []⟩ := by
    unfold Tree.onMain MainChain.addBlock MainChain.onChain
    rw [Act.zoom_run, Act.zoom_run, Chain.addBlock_wrong hb]
    rfl
  rw [Act.bind_err h]

/-- What one checked block does. -/
theorem checked_step {E : Env} {s t : Tree} {bs : List Block} {b last : Block}
    (h : Chain.Holds E s.main.chain (genesis E :: bs)) (hl : HeaderLinked E (genesis E :: bs)) (hb : ∀ b ∈ bs, b.IsMain)
    (hlast : s.main.getLastBlock = .ok (some last)) (hmain : b.IsMain) (hv : b.validate E (some last) = .ok true)
    (hm : s.main.chain.height.val + 1 < U256.size)
    (hw : b.info.height ≠ s.main.chain.height → t = s)
    (hr : b.info.height = s.main.chain.height →
      Chain.Same (Chain.addBlock E b.info.height b.dump s.main.chain).final t.main.chain) :
    ∃ bs, Chain.Holds E t.main.chain (genesis E :: bs) ∧ HeaderLinked E (genesis E :: bs) ∧ ∀ b ∈ bs, b.IsMain := by
  by_cases he : b.info.height = s.main.chain.height
  · obtain ⟨l, h1, h2, _, h3, h4⟩ := h.last
    have hlm : l.IsMain := by
      refine Classical.byContradiction fun hc => ?_
      obtain ⟨e, he⟩ := h4 hc
      rw [he] at hlast; cases hlast
    have : l = last := by have := h3 hlm; rw [this] at hlast; cases hlast; rfl
    subst this
    obtain ⟨v1, v2⟩ := validate_header hmain hv
    refine ⟨bs ++ [b], (h.addBlock he hm).same (hr he), hl.snoc h1 ⟨v1, by rw [he]; exact h2.symm, v2⟩, fun x hx => ?_⟩
    rcases List.mem_append.mp hx with hx | hx
    · exact hb x hx
    · rw [List.mem_singleton.mp hx]; exact hmain
  · rw [hw he]; exact ⟨bs, h, hl, hb⟩

theorem careful_linked {E : Env} {s : Tree} (hc : Careful E s) (hm : s.main.chain.height.val + 1 < U256.size) :
    ∃ bs, Chain.Holds E s.main.chain (genesis E :: bs) ∧ HeaderLinked E (genesis E :: bs) ∧ ∀ b ∈ bs, b.IsMain := by
  have grows : ∀ (op : Op) (s : Tree), s.main.chain.height.val ≤ (op.run E s).final.main.chain.height.val := fun op s =>
    (Op.sat (mainGrows_prims E (fun _ => True)) (Act.relF_closed (mainGrows_preord E _)) op op.adds_true s).1
  induction hc with
  | fresh =>
    refine ⟨[], ?_, trivial, by simp⟩
    rw [(openTree_fresh E).2]; exact bootChain_holds E _ _
  | call s op _ ho ih =>
    have hgr := grows op s
    have hms : s.main.chain.height.val + 1 < U256.size := by omega
    obtain ⟨bs, h1, h2, h3⟩ := ih hms
    rcases ho.adds with ⟨p, f, txs, ts, rfl⟩ | ha
    · rw [emitMain_op]
      cases hout : (Tree.emitMain E p f txs ts s).out with
      | ok b =>
        obtain ⟨last, _, g2, g3, g4, _, g5, _⟩ := emitted_next h1 hms hout
        refine ⟨bs ++ [b], g4, h2.snoc g2 g3.info, fun x hx => ?_⟩
        rcases List.mem_append.mp hx with hx | hx
        · exact h3 x hx
        · rw [List.mem_singleton.mp hx]; exact g5
      | _ =>
        rcases emitMain_cases h1 hms p f txs ts with ⟨out, _, e, _⟩ | ⟨_, _, _, _, _, _, _, _, _, _, _, _, e, _⟩
        · rw [e]; exact ⟨bs, h1, h2, h3⟩
        · rw [e] at hout; cases hout
    · obtain ⟨new, g1, g2⟩ := (Op.sat (mainGrows_prims E (fun _ => False)) (Act.relF_closed (mainGrows_preord E _)) op ha s).2
        hm _ h1
      cases new with
      | nil => exact ⟨bs, by simpa using g1, h2, h3⟩
      | cons b l => exact absurd (g2 b List.mem_cons_self) id
  | add s b last _ hlast hb hv ih =>
    have hgr := grows (.addBlock b) s
    have hms : s.main.chain.height.val + 1 < U256.size := by omega
    obtain ⟨bs, h1, h2, h3⟩ := ih hms
    refine checked_step h1 h2 h3 hlast hb hv hms (fun hw => ?_) (fun _ => Chain.same_preord.refl _)
    show (Tree.onMain (MainChain.addBlock E b) s).final = s
    unfold Tree.onMain MainChain.addBlock MainChain.onChain
    rw [Act.zoom_run, Act.zoom_run, Chain.addBlock_wrong hw]
  | addNew s b last txs _ hlast hb hv ih =>
    have hgr := grows (.addNewBlock b txs) s
    have hms : s.main.chain.height.val + 1 < U256.size := by omega
    obtain ⟨bs, h1, h2, h3⟩ := ih hms
    exact checked_step h1 h2 h3 hlast hb hv hms (fun hw => addNewBlock_wrong E s b txs hw)
      (fun he => (addNewBlock_right E s b txs he hms).2)

/-- Two nodes store the same blocks, or store at some height two blocks that differ and have the same hash. -/
def SameOrCollision (E : Env) (s t : Tree) : Prop :=
  (∀ q, s.main.findRawByHeight q = t.main.findRawByHeight q) ∨
  ∃ q x y, s.main.findRawByHeight q = some x ∧ t.main.findRawByHeight q = some y ∧ x ≠ y ∧ E.sha256 x = E.sha256 y

/-- C113 at full strength: the last block determines the chain. -/
def C113_full : Prop := ∀ (E : Env) (s t : Tree) (b : Block), Run E s → Run E t → s.main.getHeight.val + 1 < U256.size →
  t.main.getHeight.val + 1 < U256.size → s.main.getLastBlock = .ok (some b) → t.main.getLastBlock = .ok (some b) →
  s.main.getHeight = t.main.getHeight ∧ SameOrCollision E s t

/-- C113, what holds: so it is of nodes that emit their blocks or validate those they are handed. Missing: nodes that
are handed blocks without validating them. -/
theorem C113_tip_commits_partial (E : Env) (s t : Tree) (b : Block) (hs : Careful E s) (ht : Careful E t)
    (hms : s.main.getHeight.val + 1 < U256.size) (hmt : t.main.getHeight.val + 1 < U256.size)
    (hls : s.main.getLastBlock = .ok (some b)) (hlt : t.main.getLastBlock = .ok (some b)) :
    s.main.getHeight = t.main.getHeight ∧ SameOrCollision E s t := by
  obtain ⟨bs, h1, h2, h3⟩ := careful_linked hs hms
  obtain ⟨cs, k1, k2, k3⟩ := careful_linked ht hmt
  have lastIs : ∀ {u : Tree} {l : List Block}, Chain.Holds E u.main.chain (genesis E :: l) →
      u.main.getLastBlock = .ok (some b) → (genesis E :: l).getLast? = some b ∧ b.info.height.val + 1 = u.main.chain.height.val := by
    intro u l h hl
    obtain ⟨x, g1, g2, _, g3, g4⟩ := h.last
    have hxm : x.IsMain := by
      refine Classical.byContradiction fun hc => ?_
      obtain ⟨e, he⟩ := g4 hc
      rw [he] at hl; cases hl
    have hx := g3 hxm
    rw [hx] at hl
    cases hl
    exact ⟨g1, g2⟩
  obtain ⟨a1, a2⟩ := lastIs h1 hls
  obtain ⟨b1, b2⟩ := lastIs k1 hlt
  have hh : s.main.chain.height = t.main.chain.height := U256.ext (by omega)
  refine ⟨hh, ?_⟩
  generalize genesis E :: bs = l at *
  generalize genesis E :: cs = r at *
  have hlen : l.length = r.length := by rw [h1.len, k1.len, hh]
  by_cases hsame : l = r
  · left
    intro q
    unfold MainChain.findRawByHeight
    rw [h1.findRaw, k1.findRaw, hsame]
  · right
    have hn : l.length ≠ 0 := by intro h0; rw [List.eq_nil_of_length_eq_zero h0] at a1; simp at a1
    have key : ∀ n, (hn : n < l.length) → (∀ i (hi : i < l.length), n ≤ i → l[i] = r[i]'(hlen ▸ hi)) ∨
        ∃ (i : Nat) (hi : i < l.length), l[i] ≠ r[i]'(hlen ▸ hi) ∧ l[i].hash E = (r[i]'(hlen ▸ hi)).hash E := by
      intro n
      obtain ⟨m, hm⟩ : ∃ m, m = l.length - 1 - n := ⟨_, rfl⟩
      induction m generalizing n with
      | zero =>
        intro hn
        left
        intro i hi hni
        have : i = l.length - 1 := by omega
        subst this
        have e1 : l[l.length - 1] = b := by
          rw [List.getLast?_eq_getElem?, List.getElem?_eq_getElem (by omega)] at a1
          exact Option.some.inj a1
        have e2 : r[l.length - 1]'(by omega) = b := by
          rw [List.getLast?_eq_getElem?, ← hlen, List.getElem?_eq_getElem (by omega)] at b1
          exact Option.some.inj b1
        rw [e1, e2]
      | succ m ih =>
        intro hn
        rcases ih (n + 1) (by omega) (by omega) with h | h
        · by_cases he : l[n] = r[n]'(by omega)
          · left
            intro i hi hni
            by_cases hin : i = n
            · subst hin; exact he
            · exact h i hi (by omega)
          · right
            refine ⟨n, hn, he, ?_⟩
            have e1 := (h2.get n (by omega)).link
            have e2 := (k2.get n (by omega)).link
            rw [← e1, ← e2, h (n + 1) (by omega) (Nat.le_refl _)]
        · exact .inr h
    rcases key 0 (by omega) with h | ⟨i, hi, hne, hc⟩
    · exact absurd (List.ext_getElem hlen fun i hi _ => h i hi (Nat.zero_le _)) hsame
    · have hil : i < U256.size := by
        have := h1.len; have := s.main.chain.height.lt; omega
      refine ⟨⟨i, hil⟩, l[i].dump, (r[i]'(by omega)).dump, ?_, ?_, fun e => hne (Block.dump_inj e), hc⟩
      · unfold MainChain.findRawByHeight; rw [h1.findRaw, List.getElem?_eq_getElem hi]; rfl
      · unfold MainChain.findRawByHeight; rw [k1.findRaw, List.getElem?_eq_getElem (hlen ▸ hi)]; rfl

theorem addBlock_grown {E : Env} {s : Tree} {l : List Block} {b : Block} (h : Chain.Holds E s.main.chain l)
    (hb : b.info.height = s.main.chain.height) (hm : s.main.chain.height.val + 1 < U256.size) :
    ((Op.addBlock b).run E s).out = .ok () ∧ Chain.Holds E ((Op.addBlock b).run E s).final.main.chain (l ++ [b]) := by
  refine ⟨?_, h.addBlock hb hm⟩
  show (Chain.addBlock E b.info.height b.dump s.main.chain).out = _
  rw [hb, Chain.addBlock_right hm]

/-- Two nodes with the same tip and different blocks below. -/
theorem C113_refuted :
    (∀ (E : Env) (a b c : Block), a.info.height = U256.one → b.info.height = U256.one → c.info.height = U256.ofNat 2 →
      c.IsMain → a.hash E ≠ b.hash E →
      ∃ s t, Run E s ∧ Run E t ∧ s.main.getHeight.val = 3 ∧ t.main.getHeight.val = 3 ∧
        s.main.getLastBlock = .ok (some c) ∧ t.main.getLastBlock = .ok (some c) ∧ ¬ SameOrCollision E s t) ∧
    ¬ C113_full := by
  have one : ∀ (E : Env) (a c : Block), a.info.height = U256.one → c.info.height = U256.ofNat 2 → c.IsMain →
      ∃ s, Run E s ∧ s.main.getHeight.val = 3 ∧ s.main.getLastBlock = .ok (some c) ∧
        ∀ q, s.main.findRawByHeight q = [genesis E, a, c][q.val]?.map Block.dump := by
    intro E a c ha hc hcm
    have h0 : Chain.Holds E (openTree E Disk.empty).final.main.chain [genesis E] := by
      rw [(openTree_fresh E).2]; exact bootChain_holds E _ _
    have hz : (openTree E Disk.empty).final.main.chain.height = U256.one := U256.ext h0.len.symm
    have h1 := (addBlock_grown h0 (ha.trans hz.symm) (by rw [hz]; decide)).2
    have hz1 : ((Op.addBlock a).run E (openTree E Disk.empty).final).final.main.chain.height = U256.ofNat 2 :=
      U256.ext (h1.len.symm)
    have h2 := (addBlock_grown h1 (hc.trans hz1.symm) (by rw [hz1]; decide)).2
    refine ⟨_, .call _ _ (.call _ _ .fresh trivial) trivial, h2.len.symm, ?_, fun q => h2.findRaw q⟩
    obtain ⟨x, g1, _, _, g3, _⟩ := Chain.Holds.last (bs := [a, c]) h2
    have : c = x := by simpa using g1
    subst this
    exact g3 hcm
  have key : ∀ (E : Env) (a b c : Block), a.info.height = U256.one → b.info.height = U256.one →
      c.info.height = U256.ofNat 2 → c.IsMain → a.hash E ≠ b.hash E →
      ∃ s t, Run E s ∧ Run E t ∧ s.main.getHeight.val = 3 ∧ t.main.getHeight.val = 3 ∧
        s.main.getLastBlock = .ok (some c) ∧ t.main.getLastBlock = .ok (some c) ∧ ¬ SameOrCollision E s t := by
    intro E a b c ha hb hc hcm hab
    obtain ⟨s, s1, s2, s3, s4⟩ := one E a c ha hc hcm
    obtain ⟨t, t1, t2, t3, t4⟩ := one E b c hb hc hcm
    refine ⟨s, t, s1, t1, s2, t2, s3, t3, fun h => ?_⟩
    rcases h with h | ⟨q, x, y, h1, h2, h3, h4⟩
    · have := h U256.one
      rw [s4, t4] at this
      have e : a.dump = b.dump := by simpa [U256.one] using this
      exact hab (congrArg E.sha256 e)
    · rw [s4] at h1
      rw [t4] at h2
      obtain ⟨n, hn⟩ : ∃ n, n = q.val := ⟨_, rfl⟩
      rw [← hn] at h1 h2
      match n, h1, h2 with
      | 0, h1, h2 => simp at h1 h2; exact h3 (h1.symm.trans h2)
      | 1, h1, h2 =>
        simp at h1 h2
        apply hab
        show E.sha256 a.dump = E.sha256 b.dump
        rw [h1, h2]; exact h4
      | 2, h1, h2 => simp at h1 h2; exact h3 (h1.symm.trans h2)
      | n + 3, h1, _ => simp at h1
  refine ⟨key, fun hf => ?_⟩
  have g : nextBlock'.dump ≠ nextBlock.dump := fun e => by
    have := congrArg (fun b : Block => b.info.timestamp) (Block.dump_inj e)
    revert this
    decide
  obtain ⟨s, t, s1, t1, s2, t2, s3, t3, h⟩ := key threeEnv nextBlock nextBlock' thirdBlock rfl rfl rfl trivial (by
    simp only [Block.hash, threeEnv]; rw [if_pos trivial, if_neg g, if_pos trivial]; decide)
  exact h (hf _ s t _ s1 t1 (by rw [s2]; decide) (by rw [t2]; decide) s3 t3).2

/-- A block that validates against the genesis block under `zeroEnv`. -/
def checkedBlock : SummarizeBlock :=
  { defaultInfo := { exInfo with previousHash := BytesN.fill 32 0, height := U256.one, timestamp := 1597925400 },
    merkleTreeRoot := BytesN.fill 32 0 }

/-- The hypotheses of C113, C114: a node that validated the block it was handed and one that was handed the same block
with a transaction, both with two blocks. -/
example : ∃ s t b, Careful zeroEnv s ∧ Careful zeroEnv t ∧ s.main.getHeight.val = 2 ∧ t.main.getHeight.val = 2 ∧
    s.main.getLastBlock = .ok (some b) ∧ t.main.getLastBlock = .ok (some b) ∧
    t.main.getTransactionRaw (zeroEnv.sha256 exTx.dump) ≠ s.main.getTransactionRaw (zeroEnv.sha256 exTx.dump) := by
  obtain ⟨t, _, ht, hh, ⟨g, _, hl, hg⟩, _, hn, _⟩ := C37_fresh_node zeroEnv
  have hc : Careful zeroEnv t := ht ▸ .fresh
  have hm : t.main.getHeight.val + 1 < U256.size := by rw [hh]; decide
  have hv : (Block.summarize checkedBlock).validate zeroEnv (some (.summarize g)) = .ok true := by
    refine (C27_sumblock_validate zeroEnv checkedBlock (.summarize g)).mpr ⟨rfl, ?_, (checkPow_iff ..).mp (checkPow_zero ..)⟩
    show recalculateDifficulty _ g.defaultInfo.timestamp _ g.defaultInfo.difficulty = _
    rw [hg]; decide +kernel
  have hb : (Block.summarize checkedBlock).info.height = t.main.chain.height := (U256.ext hh).symm
  have o1 : ((Op.addBlock (.summarize checkedBlock)).run zeroEnv t).out = .ok () := by
    rw [addBlock_op]; exact (C31_add_block zeroEnv t.main _ hm).1.mpr hb
  have f1 := (C31_add_block zeroEnv t.main (.summarize checkedBlock) hm).2.1 hb
  obtain ⟨m', e1, e2, _, _, e3, _⟩ := f1
  obtain ⟨k1, k2⟩ := addNewBlock_right zeroEnv t (.summarize checkedBlock) [exTx] hb hm
  have k3 := (sameChain_of (s := ((Op.addBlock (.summarize checkedBlock)).run zeroEnv t).final) k2)
  have l1 := (C35_last_is_newest zeroEnv t _ hc.run hm o1).2 trivial
  refine ⟨_, _, _, .add t (.summarize checkedBlock) _ hc hl trivial hv,
    .addNew t (.summarize checkedBlock) _ [exTx] hc hl trivial hv, ?_, ?_, l1, k3.last.trans l1, ?_⟩
  · rw [addBlock_op, e1]; show m'.chain.height.val = 2; rw [e2]; exact congrArg (· + 1) hh
  · rw [k3.height, addBlock_op, e1]; show m'.chain.height.val = 2; rw [e2]; exact congrArg (· + 1) hh
  · have h1 : ((Op.addNewBlock (.summarize checkedBlock) [exTx]).run zeroEnv t).final.main.transactions.get
        (zeroEnv.sha256 exTx.dump).val |>.isSome :=
      stores_ok (op := .addNewBlock _ [exTx]) hc.run (List.mem_singleton.mpr rfl) k1
    have h2 : ((Op.addBlock (.summarize checkedBlock)).run zeroEnv t).final.main.getTransactionRaw
        (zeroEnv.sha256 exTx.dump) = none := by
      rw [addBlock_op, e1]
      show m'.transactions.get _ = none
      rw [e3]; exact hn _
    rw [h2]
    intro h
    change Db.get _ _ = none at h
    rw [h] at h1
    cases h1

/-! ## C114 -/

/-- C114 at full strength: `add_block` accepts valid blocks only. -/
def C114_full : Prop := ∀ (E : Env) (s : Tree) (b last : Block), Run E s → s.main.getHeight.val + 1 < U256.size →
  s.main.getLastBlock = .ok (some last) → ((Op.addBlock b).run E s).out = .ok () → b.validate E (some last) = .ok true

/-- A block that does not point at `last`. -/
def strayBlock (E : Env) (last : Block) (h : U256) : Block :=
  .transaction { exTxBlock with
    defaultInfo := { exInfo with
      height := h, previousHash := if last.hash E = BytesN.fill 32 0 then BytesN.fill 32 1 else BytesN.fill 32 0 } }

/-- Every node accepts, as its new last block, a block that does not pass validation. -/
theorem C114_refuted :
    (∀ (E : Env) (s : Tree) (last : Block), Run E s → s.main.getHeight.val + 1 < U256.size →
      s.main.getLastBlock = .ok (some last) →
      ∃ b, b.IsMain ∧ b.validate E (some last) ≠ .ok true ∧ b.info.previousHash ≠ E.sha256 last.dump ∧
        ((Op.addBlock b).run E s).out = .ok () ∧
        ((Op.addBlock b).run E s).final.main.getLastBlock = .ok (some b)) ∧ ¬ C114_full := by
  have key : ∀ (E : Env) (s : Tree) (last : Block), Run E s → s.main.getHeight.val + 1 < U256.size →
      s.main.getLastBlock = .ok (some last) →
      ∃ b, b.IsMain ∧ b.validate E (some last) ≠ .ok true ∧ b.info.previousHash ≠ E.sha256 last.dump ∧
        ((Op.addBlock b).run E s).out = .ok () ∧
        ((Op.addBlock b).run E s).final.main.getLastBlock = .ok (some b) := by
    intro E s last hr hm _
    have hne : (strayBlock E last s.main.getHeight).info.previousHash ≠ E.sha256 last.dump := by
      show (if last.hash E = BytesN.fill 32 0 then BytesN.fill 32 1 else BytesN.fill 32 0) ≠ last.hash E
      split
      · rename_i h; rw [h]; decide
      · rename_i h; exact fun e => h e.symm
    have hok : ((Op.addBlock (strayBlock E last s.main.getHeight)).run E s).out = .ok () := by
      rw [addBlock_op]
      exact (C31_add_block E s.main _ hm).1.mpr rfl
    refine ⟨strayBlock E last s.main.getHeight, trivial, fun h => hne (validate_header (b := strayBlock E last s.main.getHeight) trivial h).1, hne, hok, ?_⟩
    exact (C35_last_is_newest E s _ hr hm hok).2 trivial
  refine ⟨key, fun hf => ?_⟩
  obtain ⟨t, _, ht, hh, ⟨b, _, hl, _⟩, _⟩ := C37_fresh_node zeroEnv
  have hr : Run zeroEnv t := ht ▸ .fresh
  have hm : t.main.getHeight.val + 1 < U256.size := by rw [hh]; decide
  obtain ⟨x, _, h2, _, h4, _⟩ := key zeroEnv t _ hr hm hl
  exact h2 (hf _ t x _ hr hm hl h4)

/-- C114, what holds: only the height is looked at; and callers that validate every block before they hand it over
keep a hash-linked chain with the right heights and difficulties, whatever other calls are made. Missing: that the
node validates. -/
theorem C114_callers_validate_partial (E : Env) (s : Tree) :
    (∀ b, s.main.getHeight.val + 1 < U256.size →
      (((Op.addBlock b).run E s).out = .ok () ↔ b.info.height = s.main.getHeight)) ∧
    (Careful E s → s.main.getHeight.val + 1 < U256.size → ∀ q q' : U256, q'.val = q.val + 1 →
      q'.val < s.main.getHeight.val →
      ∃ a b : Block, s.main.findByHeight q = .ok (some a) ∧ s.main.findByHeight q' = .ok (some b) ∧
        b.info.previousHash = E.sha256 a.dump ∧ a.info.height = q ∧ b.info.height = q' ∧
        recalculateDifficulty E a.info.timestamp b.info.timestamp a.info.difficulty = .ok b.info.difficulty) := by
  refine ⟨fun b hm => ?_, fun hc hm q q' hq hl => ?_⟩
  · rw [addBlock_op]; exact (C31_add_block E s.main b hm).1
  · obtain ⟨bs, h, hk, hb⟩ := careful_linked hc hm
    have hlen : (genesis E :: bs).length = s.main.getHeight.val := h.len
    have hi : q.val + 1 < (genesis E :: bs).length := by omega
    have hn := hk.get q.val hi
    have find : ∀ (x : U256) (hx : x.val < (genesis E :: bs).length),
        s.main.findByHeight x = .ok (some (genesis E :: bs)[x.val]) := by
      intro x hx
      unfold MainChain.findByHeight MainChain.findRawByHeight
      rw [h.findRaw, List.getElem?_eq_getElem hx]
      exact mainOnly_decode h hb _ hx
    refine ⟨_, _, find q (by omega), find q' (by omega), ?_, ?_, ?_, ?_⟩
    · simp only [hq]; exact hn.link
    · exact U256.ext (h.heights q.val (by omega))
    · exact U256.ext (h.heights q'.val (by omega))
    · simp only [hq]; exact hn.difficulty

/-! ## C31 for `add_new_block` -/

/-- C31. `add_new_block` accepts exactly the blocks `add_block` accepts, changes the chain in the same way, and stores
the transactions; a refused block has no effect, its transactions are not stored. -/
theorem C31_add_new_block (E : Env) (s : Tree) (b : Block) (txs : List Transaction)
    (hm : s.main.getHeight.val + 1 < U256.size) :
    (((Op.addNewBlock b txs).run E s).out = .ok () ↔ b.info.height = s.main.getHeight) ∧
    (b.info.height = s.main.getHeight →
      SameChain ((Op.addBlock b).run E s).final ((Op.addNewBlock b txs).run E s).final ∧
      ∀ h, ((Op.addNewBlock b txs).run E s).final.main.transactionExists h = true ↔
        s.main.transactionExists h = true ∨ ∃ t ∈ txs, h = E.sha256 t.dump) ∧
    (b.info.height ≠ s.main.getHeight →
      (Op.addNewBlock b txs).run E s = ⟨.err .chainAddingBlock, s, []⟩) := by
  have wrong : b.info.height ≠ s.main.getHeight → (Op.addNewBlock b txs).run E s = ⟨.err .chainAddingBlock, s, []⟩ := by
    intro hb
    change Tree.addNewBlock E b txs s = _
    unfold Tree.addNewBlock
    have h : Tree.onMain (MainChain.addBlock E b) s = ⟨.err .chainAddingBlock, s, []⟩ := by
      unfold Tree.onMain MainChain.addBlock MainChain.onChain
      rw [Act.zoom_run, Act.zoom_run, Chain.addBlock_wrong hb]
      rfl
    rw [Act.bind_err h]
  refine ⟨⟨fun h => ?_, fun hb => (addNewBlock_right E s b txs hb hm).1⟩, fun hb => ⟨?_, fun h => ?_⟩, wrong⟩
  · refine Classical.byContradiction fun hb => ?_
    rw [wrong hb] at h; cases h
  · exact sameChain_of (addNewBlock_right E s b txs hb hm).2
  · have h1 : (Tree.onMain (MainChain.addBlock E b) s).out = .ok () := by
      show (Chain.addBlock E b.info.height b.dump s.main.chain).out = _
      rw [show b.info.height = s.main.chain.height from hb, Chain.addBlock_right hm]
    have e : ((Op.addNewBlock b txs).run E s).final =
        (Tree.onMain (MainChain.addTransactions E txs) (Tree.onMain (MainChain.addBlock E b) s).final).final := by
      change (Tree.addNewBlock E b txs s).final = _
      unfold Tree.addNewBlock
      rw [Act.bind_ok (x := Tree.onMain (MainChain.addBlock E b)) (s := s)
        (s' := (Tree.onMain (MainChain.addBlock E b) s).final)
        (t := (Tree.onMain (MainChain.addBlock E b) s).trace) (a := ()) (by rw [← h1])]
    have key : ∀ (ts : List Transaction) (m : MainChain),
        (MainChain.addTransactions E ts m).final.transactionExists h = true ↔
          m.transactionExists h = true ∨ ∃ t ∈ ts, h = E.sha256 t.dump := by
      intro ts
      induction ts with
      | nil => intro m; show m.transactionExists h = true ↔ _; simp
      | cons t ts ih =>
        intro m
        have h2 : (MainChain.addTransactions E (t :: ts) m).final =
            (MainChain.addTransactions E ts (MainChain.addTransaction E t m).final).final := rfl
        rw [h2, ih]
        have h3 : (MainChain.addTransaction E t m).final.transactionExists h = true ↔
            m.transactionExists h = true ∨ h = E.sha256 t.dump := by
          show ((Db.insert _ _ _).get _).isSome = true ↔ _
          rw [Db.get_insert]
          by_cases hh : h = E.sha256 t.dump
          · rw [if_pos (by rw [hh])]; simp [hh]
          · rw [if_neg (fun e => hh (Subtype.ext e.symm))]
            simp [hh, MainChain.transactionExists]
        rw [h3]
        simp only [List.mem_cons, exists_eq_or_imp, or_assoc]
    rw [e]
    exact key txs _

example (E : Env) : nextBlock.info.height = (openTree E Disk.empty).final.main.getHeight ∧
    nextBlock'.info.height ≠ U256.ofNat 2 := by
  refine ⟨?_, by decide⟩
  rw [(openTree_fresh E).2]; rfl

end BCT.Props
