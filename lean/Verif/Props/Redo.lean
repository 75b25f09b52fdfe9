import Verif.Props.Repeats
import Verif.Props.Emit
import Verif.Props.Life
/-!
# C175: a call cut short by a crash and repeated after the restart
-/

namespace BCT.Props
open BCT

/-- The calls that may be repeated after a crash. -/
def Op.Redoable : Op → Prop
  | .addBlock _ | .addNewBlock .. | .addTransaction _ | .addTransactions _ | .setAmount .. => True
  | .emitMain _ _ txs _ => txs ≠ []
  | _ => False

/-- The calls on balances that start from the balance there is. -/
def Op.Moves : Op → Prop
  | .addAmount .. | .subAmount .. | .sendAmount .. | .addGas .. | .subGas .. | .sendGas .. | .sendTransaction _ => True
  | _ => False

/-- The main chain and the ledgers: everything but the derivative chains. -/
def Part.Core : Part → Prop
  | .derivBlocks _ | .derivConfig _ | .derivState _ => False
  | _ => True

/-- What may differ from `s` in a database while a call is under way: the block `ob` at the height, transactions under
the keys `K`, the coins of the accounts `O`. -/
structure Touch where
  block : Option Block
  txs : Bytes → Prop
  coins : Bytes → Prop

/-- The blocks of `s`, with or without the one under way. -/
def BlocksOf (ob : Option Block) (s : Tree) (m : KV) : Prop :=
  m = s.main.chain.blocks.cur ∨ ∃ b, ob = some b ∧ b.info.height = s.main.chain.height ∧
    m = s.main.chain.blocks.cur.insert s.main.chain.height.toBE.val b.dump

/-- The references of `s`, with or without the one under way. -/
def RefsOf (E : Env) (ob : Option Block) (s : Tree) (m : KV) : Prop :=
  m = s.main.chain.heightReference.cur ∨ ∃ b, ob = some b ∧ b.info.height = s.main.chain.height ∧
    m = s.main.chain.heightReference.cur.insert (E.sha256 b.dump).val s.main.chain.height.toBE.val

/-- A moment during a call on `s`: what a crash can leave. -/
structure Amid (E : Env) (c : Touch) (s t : Tree) : Prop where
  blocks : ∀ m ∈ t.main.chain.blocks.recov, BlocksOf c.block s m
  refs : ∀ m ∈ t.main.chain.heightReference.recov, RefsOf E c.block s m
  txs : t.main.transactions.All fun m => ∀ k, ¬ c.txs k → m.get k = s.main.transactions.cur.get k
  coins : t.summary.All fun m => ∀ k, ¬ c.coins k → m.get k = s.summary.cur.get k
  oldCoins : ∀ m ∈ t.oldSummary.recov, m = s.oldSummary.cur
  gas : ∀ m ∈ t.gas.recov, m = s.gas.cur
  oldGas : ∀ m ∈ t.oldGas.recov, m = s.oldGas.cur
  config : t.main.chain.config = s.main.chain.config

/-- A node that differs from `s` in what is under way. -/
structure LeftOver (E : Env) (c : Touch) (s u : Tree) : Prop where
  blocks : BlocksOf c.block s u.main.chain.blocks.cur
  refs : RefsOf E c.block s u.main.chain.heightReference.cur
  txs : ∀ k, ¬ c.txs k → u.main.transactions.cur.get k = s.main.transactions.cur.get k
  coins : ∀ k, ¬ c.coins k → u.summary.cur.get k = s.summary.cur.get k
  oldCoins : u.oldSummary.cur = s.oldSummary.cur
  gas : u.gas.cur = s.gas.cur
  oldGas : u.oldGas.cur = s.oldGas.cur
  height : u.main.chain.height = s.main.chain.height
  difficulty : u.main.chain.difficulty = s.main.chain.difficulty
  config : u.main.chain.config = s.main.chain.config

theorem seed_tall {h : U256} (hh : 2 ≤ h.val) (d : Db) : seedSummary h d = d := by
  unfold seedSummary
  rw [if_neg fun e => ?_]
  have := congrArg U256.val e
  have h1 : U256.one.val = 1 := rfl
  omega

/-- Reopening what a crash left. -/
theorem beside_of_crash {E : Env} {c : Touch} {s t : Tree} {d : Disk} (ha : Amid E c s t) (hd : Crash t d)
    (hc : s.main.chain.config = some s.main.chain.saved) (hh : 2 ≤ s.main.chain.height.val) :
    (openTree E d).out = .ok () ∧ LeftOver E c s (openTree E d).final ∧ Amid E c s (openTree E d).final := by
  have hr : MainChain.readConfig d.config = .ok (s.main.chain.height, s.main.chain.difficulty) := by
    rw [hd.config, ha.config, hc]; exact MainChain.readConfig_written _ _
  obtain ⟨ho, hf⟩ := openTree_pos (E := E) hr (by omega)
  refine ⟨ho, ?_⟩
  rw [hf, seed_tall hh]
  have one : ∀ {m n : KV}, m ∈ (Db.open' n).recov → m = n := fun h => List.mem_singleton.mp h
  have h1 := ha.blocks _ hd.blocks
  have h2 := ha.refs _ hd.heightReference
  have h3 := ha.txs.2 _ hd.transactions
  have h4 := ha.coins.2 _ hd.summary
  have h5 := ha.oldCoins _ hd.oldSummary
  have h6 := ha.gas _ hd.gas
  have h7 := ha.oldGas _ hd.oldGas
  refine ⟨⟨h1, h2, h3, h4, h5, h6, h7, rfl, rfl, hd.config.trans ha.config⟩, ?_⟩
  exact ⟨fun m h => by rw [one h]; exact h1, fun m h => by rw [one h]; exact h2, ⟨h3, fun m h => by rw [one h]; exact h3⟩,
    ⟨h4, fun m h => by rw [one h]; exact h4⟩, fun m h => by rw [one h]; exact h5, fun m h => by rw [one h]; exact h6,
    fun m h => by rw [one h]; exact h7, hd.config.trans ha.config⟩

theorem leftOver_refl (E : Env) (c : Touch) (s : Tree) : LeftOver E c s s :=
  ⟨.inl rfl, .inl rfl, fun _ _ => rfl, fun _ _ => rfl, rfl, rfl, rfl, rfl, rfl, rfl⟩

/-- A flushed node has nothing under way. -/
theorem amid_flushed (E : Env) (c : Touch) (s : Tree) : Amid E c s.flushed s.flushed := by
  have one : ∀ {d : Db} {m : KV}, m ∈ d.flush.recov → m = d.flush.cur := fun {d m} h => List.mem_singleton.mp h
  exact ⟨fun m h => .inl (one h), fun m h => .inl (one h), ⟨fun _ _ => rfl, fun m h k _ => by rw [one h]; rfl⟩,
    ⟨fun _ _ => rfl, fun m h k _ => by rw [one h]; rfl⟩, fun m h => one h, fun m h => one h, fun m h => one h, rfl⟩

/-- Nothing under way: the same main chain and ledgers. -/
theorem core_of_beside {E : Env} {c : Touch} {s u : Tree} (h : LeftOver E c s u) (h1 : c.block = none)
    (h2 : ∀ k, ¬ c.txs k) (h3 : ∀ k, ¬ c.coins k) : Agree Part.Core s u := by
  intro p hp
  cases p with
  | blocks => exact h.blocks.resolve_right fun ⟨b, e, _⟩ => by rw [h1] at e; cases e
  | references => exact h.refs.resolve_right fun ⟨b, e, _⟩ => by rw [h1] at e; cases e
  | transactions => exact KV.ext_get fun k => h.txs k (h2 k)
  | coins => exact KV.ext_get fun k => h.coins k (h3 k)
  | oldCoins => exact h.oldCoins
  | gas => exact h.gas
  | oldGas => exact h.oldGas
  | height => exact h.height
  | difficulty => exact h.difficulty
  | config => exact h.config
  | derivBlocks _ => exact hp.elim
  | derivConfig _ => exact hp.elim
  | derivState _ => exact hp.elim

/-! ## Appending a block -/

theorem mainAdd_run (E : Env) (b : Block) (t : Tree) : Tree.onMain (MainChain.addBlock E b) t =
    ⟨(Chain.addBlock E b.info.height b.dump t.main.chain).out,
      { t with main := { t.main with chain := (Chain.addBlock E b.info.height b.dump t.main.chain).final } },
      (Chain.addBlock E b.info.height b.dump t.main.chain).trace.map fun c => { t with main := { t.main with chain := c } }⟩ := by
  unfold Tree.onMain MainChain.addBlock MainChain.onChain
  rw [Act.zoom_run, Act.zoom_run]
  simp [List.map_map, Function.comp_def]

/-- The block under way comes to the same on both nodes. -/
theorem leftOver_insert {E : Env} {c : Touch} {s u : Tree} {b : Block} (h : LeftOver E c s u) (hb : c.block = some b) :
    u.main.chain.blocks.cur.insert u.main.chain.height.toBE.val b.dump =
      s.main.chain.blocks.cur.insert s.main.chain.height.toBE.val b.dump ∧
    u.main.chain.heightReference.cur.insert (E.sha256 b.dump).val u.main.chain.height.toBE.val =
      s.main.chain.heightReference.cur.insert (E.sha256 b.dump).val s.main.chain.height.toBE.val := by
  rw [h.height]
  constructor
  · rcases h.blocks with e | ⟨b', e', _, e⟩
    · rw [e]
    · rw [hb] at e'; cases e'; rw [e, insert_again]
  · rcases h.refs with e | ⟨b', e', _, e⟩
    · rw [e]
    · rw [hb] at e'; cases e'; rw [e, insert_again]

/-- The moments of appending a block. -/
theorem amid_addBlock {E : Env} {c : Touch} {s u : Tree} {b : Block} (hl : LeftOver E c s u) (hu : Amid E c s u)
    (hb : c.block = some b) :
    Amid E c s (Tree.onMain (MainChain.addBlock E b) u).final ∧
    ∀ t ∈ (Tree.onMain (MainChain.addBlock E b) u).trace, Amid E c s t := by
  rw [mainAdd_run]
  obtain ⟨i1, i2⟩ := leftOver_insert hl hb
  by_cases hh : b.info.height = u.main.chain.height
  · have hs : b.info.height = s.main.chain.height := hh.trans hl.height
    have bl : ∀ m ∈ (u.main.chain.blocks.insert u.main.chain.height.toBE.val b.dump).recov, BlocksOf c.block s m := by
      intro m hm
      rcases List.mem_cons.mp hm with rfl | hm
      · exact .inr ⟨b, hb, hs, i1⟩
      · exact hu.blocks m hm
    have rf : ∀ m ∈ (u.main.chain.heightReference.insert (E.sha256 b.dump).val u.main.chain.height.toBE.val).recov,
        RefsOf E c.block s m := by
      intro m hm
      rcases List.mem_cons.mp hm with rfl | hm
      · exact .inr ⟨b, hb, hs, i2⟩
      · exact hu.refs m hm
    have a1 : Amid E c s { u with main := { u.main with chain := u.main.chain.put1 b.dump } } := { hu with blocks := bl }
    have a2 : Amid E c s { u with main := { u.main with chain := u.main.chain.put2 E b.dump } } :=
      { hu with blocks := bl, refs := rf }
    rw [hh]
    by_cases hm : u.main.chain.height.val + 1 < U256.size
    · have a3 : Amid E c s { u with main := { u.main with chain := u.main.chain.put3 E b.dump ⟨_, hm⟩ } } :=
        { hu with blocks := bl, refs := rf }
      rw [Chain.addBlock_right hm]
      refine ⟨a3, fun t ht => ?_⟩
      simp only [List.map_cons, List.map_nil, List.mem_cons, List.not_mem_nil, or_false] at ht
      rcases ht with rfl | rfl | rfl
      · exact a1
      · exact a2
      · exact a3
    · rw [Chain.addBlock_max hm]
      refine ⟨a2, fun t ht => ?_⟩
      simp only [List.map_cons, List.map_nil, List.mem_cons, List.not_mem_nil, or_false] at ht
      rcases ht with rfl | rfl
      · exact a1
      · exact a2
  · rw [Chain.addBlock_wrong hh]
    exact ⟨hu, fun t ht => by cases ht⟩

/-- Appending the block that was under way brings the two nodes together. -/
theorem beside_addBlock {E : Env} {c : Touch} {s u : Tree} {b : Block} (h : LeftOver E c s u) (hb : c.block = some b) :
    (Tree.onMain (MainChain.addBlock E b) u).out = (Tree.onMain (MainChain.addBlock E b) s).out ∧
    LeftOver E { c with block := none } (Tree.onMain (MainChain.addBlock E b) s).final
      (Tree.onMain (MainChain.addBlock E b) u).final := by
  rw [mainAdd_run, mainAdd_run]
  by_cases hh : b.info.height = s.main.chain.height
  · have hu : b.info.height = u.main.chain.height := hh.trans h.height.symm
    obtain ⟨bl, rf⟩ := leftOver_insert h hb
    by_cases hm : s.main.chain.height.val + 1 < U256.size
    · have hm' : u.main.chain.height.val + 1 < U256.size := by rw [h.height]; exact hm
      have e1 : Chain.addBlock E b.info.height b.dump s.main.chain = _ :=
        (congrArg (fun x => Chain.addBlock E x b.dump s.main.chain) hh).trans (Chain.addBlock_right hm)
      have e2 : Chain.addBlock E b.info.height b.dump u.main.chain = _ :=
        (congrArg (fun x => Chain.addBlock E x b.dump u.main.chain) hu).trans (Chain.addBlock_right hm')
      rw [e1, e2]
      refine ⟨rfl, ⟨.inl bl, .inl rf, h.txs, h.coins, h.oldCoins, h.gas, h.oldGas, ?_, h.difficulty, h.config⟩⟩
      show (⟨_, _⟩ : U256) = ⟨_, _⟩
      congr 1
      rw [h.height]
    · have hm' : ¬ u.main.chain.height.val + 1 < U256.size := by rw [h.height]; exact hm
      have e1 : Chain.addBlock E b.info.height b.dump s.main.chain = _ :=
        (congrArg (fun x => Chain.addBlock E x b.dump s.main.chain) hh).trans (Chain.addBlock_max hm)
      have e2 : Chain.addBlock E b.info.height b.dump u.main.chain = _ :=
        (congrArg (fun x => Chain.addBlock E x b.dump u.main.chain) hu).trans (Chain.addBlock_max hm')
      rw [e1, e2]
      exact ⟨rfl, ⟨.inl bl, .inl rf, h.txs, h.coins, h.oldCoins, h.gas, h.oldGas, h.height, h.difficulty, h.config⟩⟩
  · have hu : b.info.height ≠ u.main.chain.height := fun e => hh (e.trans h.height)
    rw [Chain.addBlock_wrong hh, Chain.addBlock_wrong hu]
    refine ⟨rfl, { h with blocks := .inl ?_, refs := .inl ?_ }⟩
    · exact h.blocks.resolve_right fun ⟨b', e, e', _⟩ => by rw [hb] at e; cases e; exact hh e'
    · exact h.refs.resolve_right fun ⟨b', e, e', _⟩ => by rw [hb] at e; cases e; exact hh e'

/-! ## Storing transactions -/

theorem part_symm {p : Part} {s t : Tree} (h : p.Same s t) : p.Same t s := by
  cases p with
  | derivBlocks o => exact ⟨h.1.symm, h.2.symm⟩
  | _ => exact Eq.symm h

/-- The keys a list of transactions is stored under. -/
def keysOf (E : Env) (ts : List Transaction) (k : Bytes) : Prop := ∃ t ∈ ts, k = (E.sha256 t.dump).val

theorem amid_addTransactions {E : Env} {c : Touch} {s : Tree} {ts : List Transaction} (hc : ∀ k, keysOf E ts k → c.txs k) :
    Act.Rel (fun x y => Amid E c s x → Amid E c s y) (Tree.onMain (MainChain.addTransactions E ts)) := by
  have C := Act.rel_closed (σ := Tree) (R := fun x y => Amid E c s x → Amid E c s y) ⟨fun _ h => h, fun f g h => g (f h)⟩
  unfold Tree.onMain MainChain.addTransactions
  rw [Act.zoom_forEach onMain_lens]
  induction ts with
  | nil => exact C.pure _
  | cons t ts ih =>
    refine C.bind ?_ fun _ => ih fun k ⟨u, hu, e⟩ => hc k ⟨u, List.mem_cons_of_mem _ hu, e⟩
    refine Act.rel_zoom (R := fun x y => y = { x with transactions := x.transactions.insert (E.sha256 t.dump).val t.dump })
      (Act.rel_step fun _ => rfl) ?_
    rintro x _ rfl hx
    refine { hx with txs := hx.txs.commit fun k hk => ?_ }
    rw [KV.get_insert, if_neg fun e => hk (hc k ⟨t, List.mem_cons_self, e.symm⟩)]
    exact hx.txs.1 k hk

theorem beside_addTransactions {E : Env} {c : Touch} {s u : Tree} {ts : List Transaction} (h : LeftOver E c s u)
    (hb : c.block = none) (hc : ∀ k, c.txs k → keysOf E ts k) :
    LeftOver E { c with txs := fun _ => False } (Tree.onMain (MainChain.addTransactions E ts) s).final
      (Tree.onMain (MainChain.addTransactions E ts) u).final := by
  have fr := fun p (hp : p ≠ Part.transactions) x => (addTransactions_same E ts p hp x).1
  have go : ∀ p : Part, p ≠ .transactions → p.Same s u → p.Same (Tree.onMain (MainChain.addTransactions E ts) s).final
      (Tree.onMain (MainChain.addTransactions E ts) u).final := fun p hp hs =>
    (same_preord p).trans ((same_preord p).trans (part_symm (fr p hp s)) hs) (fr p hp u)
  refine ⟨.inl (go .blocks (by simp) ?_), .inl (go .references (by simp) ?_), fun k _ => ?_, fun k hk => ?_,
    go .oldCoins (by simp) h.oldCoins, go .gas (by simp) h.gas, go .oldGas (by simp) h.oldGas,
    go .height (by simp) h.height, go .difficulty (by simp) h.difficulty, go .config (by simp) h.config⟩
  · exact h.blocks.resolve_right fun ⟨b, e, _⟩ => by rw [hb] at e; cases e
  · exact h.refs.resolve_right fun ⟨b, e, _⟩ => by rw [hb] at e; cases e
  · by_cases hk : keysOf E ts k
    · exact addTransactions_fixed E k ts hk s u
    · have f := fun x => (addTransactions_cell E k ts (fun v hv e => hk ⟨v, hv, e⟩) x).1
      exact (cell_preord _).trans ((cell_preord _).trans (cell_symm (f s))
        (show (Cell.stored k).Same s u from h.txs k fun x => hk (hc k x))) (f u)
  · rw [show _ = _ from fr .coins (by simp) s, show _ = _ from fr .coins (by simp) u]
    exact h.coins k hk

theorem newBlock_good {E : Env} {b : Block} {txs : List Transaction} {x : Tree}
    (h : (Tree.onMain (MainChain.addBlock E b) x).out = .ok ()) :
    ((Op.addNewBlock b txs).run E x).out = .ok () ∧
    ((Op.addNewBlock b txs).run E x).final =
      (Tree.onMain (MainChain.addTransactions E txs) (Tree.onMain (MainChain.addBlock E b) x).final).final ∧
    ((Op.addNewBlock b txs).run E x).trace = (Tree.onMain (MainChain.addBlock E b) x).trace ++
      (Tree.onMain (MainChain.addTransactions E txs) (Tree.onMain (MainChain.addBlock E b) x).final).trace := by
  show (Tree.addNewBlock E b txs x).out = _ ∧ (Tree.addNewBlock E b txs x).final = _ ∧ (Tree.addNewBlock E b txs x).trace = _
  unfold Tree.addNewBlock
  simp only [Act.bind_def, Act.bind, h, addTransactions_ok, and_self]

theorem newBlock_bad {E : Env} {b : Block} {txs : List Transaction} {x : Tree}
    (h : (Tree.onMain (MainChain.addBlock E b) x).out ≠ .ok ()) :
    (Op.addNewBlock b txs).run E x = Tree.onMain (MainChain.addBlock E b) x := by
  show Tree.addNewBlock E b txs x = _
  unfold Tree.addNewBlock
  generalize Tree.onMain (MainChain.addBlock E b) = y at *
  simp only [Act.bind_def, Act.bind]
  rcases e : y x with ⟨out, fin, tr⟩
  rw [e] at h
  cases out with
  | ok u => exact absurd rfl h
  | err e => rfl
  | panic e => rfl
  | ub => rfl

/-! ## Emitting a main block -/

/-- Emitting a block with transactions looks at the last block only, and then appends the new one. -/
theorem emitMain_shape (E : Env) (pow : BytesN 32) (f : Address) (txs : List Hash) (ts : UInt64) (htx : txs ≠ []) :
    ∃ F : Outcome (Option Block) → Outcome Block, ∀ s : Tree, Tree.emitMain E pow f txs ts s =
      (Act.lift (F s.main.getLastBlock) >>= fun nb => Tree.onMain (MainChain.addBlock E nb) >>= fun _ => Pure.pure nb : Act Tree Block) s := by
  have hne : txs.isEmpty = false := by cases txs <;> simp_all
  refine ⟨fun l => l >>= fun last => Outcome.ofOption last >>= fun lb =>
    checkPow E (lb.hash E) lb.info.difficulty txs pow.val >>= fun good =>
    if !good then .err .treeWrongPow else
    recalculateDifficulty E lb.info.timestamp ts lb.info.difficulty >>= fun difficulty =>
    recalculateFee difficulty >>= fun fee => lb.info.height.add U256.one >>= fun height =>
    if height.val % BLOCKS_PER_EPOCH = 0 then .err .treeSummarizeBlockWrongTransactionsAmount else
    merkleRoot E txs >>= fun root => .ok (Block.transaction ⟨fee, root,
      { timestamp := ts, pow, previousHash := lb.hash E, height, difficulty, founder := f }, txs⟩), fun s => ?_⟩
  unfold Tree.emitMain
  rw [Act.get_bind]
  cases h1 : s.main.getLastBlock with
  | err e => simp
  | panic e => simp
  | ub => simp
  | ok last =>
  cases h2 : Outcome.ofOption last with
  | err e => simp [h2]
  | panic e => simp [h2]
  | ub => simp [h2]
  | ok lb =>
  cases h3 : checkPow E (lb.hash E) lb.info.difficulty txs pow.val with
  | err e => simp [h2, h3]
  | panic e => simp [h2, h3]
  | ub => simp [h2, h3]
  | ok good =>
  cases good with
  | false => simp [h2, h3]
  | true =>
  cases h4 : recalculateDifficulty E lb.info.timestamp ts lb.info.difficulty with
  | err e => simp [h2, h3, h4]
  | panic e => simp [h2, h3, h4]
  | ub => simp [h2, h3, h4]
  | ok df =>
  cases h5 : recalculateFee df with
  | err e => simp [h2, h3, h4, h5]
  | panic e => simp [h2, h3, h4, h5]
  | ub => simp [h2, h3, h4, h5]
  | ok fee =>
  cases h6 : lb.info.height.add U256.one with
  | err e => simp [h2, h3, h4, h5, h6]
  | panic e => simp [h2, h3, h4, h5, h6]
  | ub => simp [h2, h3, h4, h5, h6]
  | ok hg =>
  by_cases h7 : hg.val % BLOCKS_PER_EPOCH = 0
  · simp [h2, h3, h4, h5, h6, h7, hne]
  · cases merkleRoot E txs with
    | err e => simp [h2, h3, h4, h5, h6, h7, hne]
    | panic e => simp [h2, h3, h4, h5, h6, h7, hne]
    | ub => simp [h2, h3, h4, h5, h6, h7, hne]
    | ok root => simp [h2, h3, h4, h5, h6, h7, hne]

/-- The block under way is not the last block. -/
theorem beside_last {E : Env} {c : Touch} {s u : Tree} (h : LeftOver E c s u) (hh : 2 ≤ s.main.chain.height.val) :
    u.main.getLastBlock = s.main.getLastBlock := by
  have h1 : U256.one.val = 1 := rfl
  have hs : s.main.chain.height.sub U256.one = .ok ⟨s.main.chain.height.val - 1,
      Nat.lt_of_le_of_lt (Nat.sub_le _ _) s.main.chain.height.lt⟩ := by
    unfold U256.sub
    rw [if_pos (by omega)]
    rfl
  unfold MainChain.getLastBlock MainChain.getLastRawBlock MainChain.findRawByHeight Chain.findRawByHeight
  rw [h.height, hs]
  simp only [Outcome.ok_bind]
  congr 2
  rcases h.blocks with e | ⟨b, _, _, e⟩
  · unfold Db.get; rw [e]
  · unfold Db.get
    rw [e, KV.get_insert, if_neg]
    intro e
    have : s.main.chain.height.val = s.main.chain.height.val - 1 := congrArg U256.val (toBE_inj e)
    omega

/-! ## Property -/

/-- The call ends the same way and leaves the same main chain and ledgers. -/
def EndsAlike (x : Act Tree Unit) (s u : Tree) : Prop :=
  (x u).out = (x s).out ∧ Agree Part.Core (x s).final (x u).final

/-- The node as it can be when a call was begun on `s` and cut short by a crash any number of times, each time followed by
a restart and the same call again. -/
inductive Attempted (E : Env) (op : Op) (s : Tree) : Tree → Prop where
  | first : Attempted E op s s
  | again (u t : Tree) (d : Disk) : Attempted E op s u → t = u ∨ t ∈ (op.run E u).trace → Crash t d →
      Attempted E op s (openTree E d).final

/-- What has to be shown of a call. -/
theorem redo_of {E : Env} {op : Op} {s : Tree} (c : Touch) (hc : s.main.chain.config = some s.main.chain.saved)
    (hh : 2 ≤ s.main.chain.height.val) (h0 : Amid E c s s)
    (ha : ∀ u, LeftOver E c s u → Amid E c s u → ∀ t ∈ (op.run E u).trace, Amid E c s t)
    (hb : ∀ u, LeftOver E c s u → EndsAlike (op.run E) s u) {u : Tree} (hu : Attempted E op s u) :
    EndsAlike (op.run E) s u ∧ ∀ t d, t = u ∨ t ∈ (op.run E u).trace → Crash t d → (openTree E d).out = .ok () := by
  have step : ∀ u, LeftOver E c s u → Amid E c s u → ∀ t, t = u ∨ t ∈ (op.run E u).trace → Amid E c s t := by
    rintro u h1 h2 t (rfl | ht)
    · exact h2
    · exact ha u h1 h2 t ht
  have inv : LeftOver E c s u ∧ Amid E c s u := by
    induction hu with
    | first => exact ⟨leftOver_refl _ _ _, h0⟩
    | again u t d _ ht hd ih => exact (beside_of_crash (step u ih.1 ih.2 t ht) hd hc hh).2
  exact ⟨hb u inv.1, fun t d ht hd => (beside_of_crash (step u inv.1 inv.2 t ht) hd hc hh).1⟩

/-- C175. A flushed node with at least two blocks is given a call that stores something, and dies at whatever moment of
it, having written whatever part of it; it is started again and given the same call, and so on, any number of times. Each
time the node opens again, and when the call at last gets through it ends as the first would have ended and leaves the
main chain and the ledgers as they would have been. -/
theorem C175_redo (E : Env) (s₀ : Tree) (op : Op) (hr : Op.Redoable op) (hh : 2 ≤ s₀.main.chain.height.val) (s : Tree)
    (hs : s = (Op.flush.run E s₀).final) (u : Tree) (hu : Attempted E op s u) :
    EndsAlike (op.run E) s u ∧ ∀ t d, t = u ∨ t ∈ (op.run E u).trace → Crash t d → (openTree E d).out = .ok () := by
  have e : s = s₀.flushed := by
    obtain ⟨tr, e, _⟩ := Tree.flush_run s₀
    rw [hs]
    show (Tree.flush s₀).final = _
    rw [e]
  have hc : s.main.chain.config = some s.main.chain.saved := by rw [e]; rfl
  have hh' : 2 ≤ s.main.chain.height.val := by rw [e]; exact hh
  have start : ∀ c, Amid E c s s := fun c => by rw [e]; exact amid_flushed E c s₀
  clear hs e
  cases op with
  | addBlock b =>
    refine redo_of (E := E) ⟨some b, fun _ => False, fun _ => False⟩ hc hh' (start _) ?_ ?_ hu
    · exact fun u h1 h2 => (amid_addBlock h1 h2 rfl).2
    · intro u hu
      obtain ⟨h1, h2⟩ := beside_addBlock hu rfl
      exact ⟨h1, core_of_beside h2 rfl (fun _ => id) fun _ => id⟩
  | addNewBlock b txs =>
    by_cases ho : (Tree.onMain (MainChain.addBlock E b) s).out = .ok ()
    · refine redo_of (E := E) ⟨some b, keysOf E txs, fun _ => False⟩ hc hh' (start _) ?_ ?_ hu
      · intro u h1 h2 t ht
        obtain ⟨a1, a2⟩ := amid_addBlock h1 h2 rfl
        rw [(newBlock_good (txs := txs) ((beside_addBlock h1 rfl).1.trans ho)).2.2] at ht
        rcases List.mem_append.mp ht with h | h
        · exact a2 t h
        · exact (amid_addTransactions (fun _ h => h) _).2 t h a1
      · intro u hu
        obtain ⟨h1, h2⟩ := beside_addBlock hu rfl
        obtain ⟨g1, g2, _⟩ := newBlock_good (txs := txs) ho
        obtain ⟨g1', g2', _⟩ := newBlock_good (txs := txs) (h1.trans ho)
        unfold EndsAlike
        rw [g1, g2, g1', g2']
        exact ⟨rfl, core_of_beside (beside_addTransactions h2 rfl fun _ h => h) rfl (fun _ => id) fun _ => id⟩
    · have bad : ∀ {u}, LeftOver E ⟨some b, fun _ => False, fun _ => False⟩ s u →
          (Op.addNewBlock b txs).run E u = Tree.onMain (MainChain.addBlock E b) u := fun h =>
        newBlock_bad fun e => ho ((beside_addBlock h rfl).1.symm.trans e)
      refine redo_of (E := E) ⟨some b, fun _ => False, fun _ => False⟩ hc hh' (start _) ?_ ?_ hu
      · intro u h1 h2 t ht
        rw [bad h1] at ht
        exact (amid_addBlock h1 h2 rfl).2 t ht
      · intro u hu
        obtain ⟨h1, h2⟩ := beside_addBlock hu rfl
        unfold EndsAlike
        rw [newBlock_bad ho, bad hu]
        exact ⟨h1, core_of_beside h2 rfl (fun _ => id) fun _ => id⟩
  | addTransaction tx =>
    have one : Tree.onMain (MainChain.addTransactions E [tx]) = Tree.onMain (MainChain.addTransaction E tx) := by
      unfold Tree.onMain MainChain.addTransactions
      rw [Act.zoom_forEach onMain_lens]
      rfl
    refine redo_of (E := E) ⟨none, keysOf E [tx], fun _ => False⟩ hc hh' (start _) ?_ ?_ hu
    · intro u _ h2 t ht
      have ht' : t ∈ (Tree.onMain (MainChain.addTransaction E tx) u).trace := ht
      rw [← one] at ht'
      exact (amid_addTransactions (fun _ h => h) _).2 t ht' h2
    · intro u hu
      refine ⟨rfl, ?_⟩
      show Agree Part.Core (Tree.onMain (MainChain.addTransaction E tx) s).final (Tree.onMain (MainChain.addTransaction E tx) u).final
      rw [← one]
      exact core_of_beside (beside_addTransactions hu rfl fun _ h => h) rfl (fun _ => id) fun _ => id
  | addTransactions txs =>
    refine redo_of (E := E) ⟨none, keysOf E txs, fun _ => False⟩ hc hh' (start _) ?_ ?_ hu
    · exact fun u _ h2 t ht => (amid_addTransactions (fun _ h => h) _).2 t ht h2
    · intro u hu
      refine ⟨(addTransactions_ok E txs u).trans (addTransactions_ok E txs s).symm, ?_⟩
      exact core_of_beside (beside_addTransactions hu rfl fun _ h => h) rfl (fun _ => id) fun _ => id
  | setAmount o a =>
    have run : ∀ x : Tree, (Op.setAmount o a).run E x =
        ⟨.ok (), { x with summary := x.summary.insert o (Ledger.encode a) }, [{ x with summary := x.summary.insert o (Ledger.encode a) }]⟩ := by
      intro x
      show Tree.setAmount o a x = _
      unfold Tree.setAmount Tree.onSummary
      rw [Act.zoom_run, Ledger.set_run]
      rfl
    refine redo_of (E := E) ⟨none, fun _ => False, (· = o)⟩ hc hh' (start _) ?_ ?_ hu
    · intro u _ h2 t ht
      rw [run] at ht
      obtain rfl := List.mem_singleton.mp ht
      refine { h2 with coins := h2.coins.commit fun k hk => ?_ }
      rw [KV.get_insert, if_neg fun e => hk e.symm]
      exact h2.coins.1 k hk
    · intro u hu
      unfold EndsAlike
      rw [run, run]
      refine ⟨rfl, core_of_beside (E := E) (c := ⟨none, fun _ => False, fun _ => False⟩) { hu with coins := fun k _ => ?_ }
        rfl (fun _ => id) fun _ => id⟩
      show (KV.insert _ _ _).get k = (KV.insert _ _ _).get k
      rw [KV.get_insert, KV.get_insert]
      split
      · rfl
      · next hk => exact hu.coins k fun e => hk e.symm
  | emitMain p f txs ts =>
    obtain ⟨F, hF⟩ := emitMain_shape E p f txs ts hr
    have run : ∀ x : Tree, (Op.emitMain p f txs ts).run E x = ⟨(Tree.emitMain E p f txs ts x).out >>= fun _ => .ok (),
      (Tree.emitMain E p f txs ts x).final, (Tree.emitMain E p f txs ts x).trace⟩ := fun _ => rfl
    cases hl : F s.main.getLastBlock with
    | ok nb =>
      have two : ∀ x : Tree, x.main.getLastBlock = s.main.getLastBlock → (Op.emitMain p f txs ts).run E x =
          Tree.onMain (MainChain.addBlock E nb) x := by
        intro x hx
        rw [run, hF, hx, hl, Act.lift_ok_bind]
        generalize Tree.onMain (MainChain.addBlock E nb) = y
        simp only [Act.bind_def, Act.bind]
        rcases y x with ⟨out, fin, tr⟩
        cases out with
        | ok u => simp
        | err e => rfl
        | panic e => rfl
        | ub => rfl
      refine redo_of (E := E) ⟨some nb, fun _ => False, fun _ => False⟩ hc hh' (start _) ?_ ?_ hu
      · intro u h1 h2 t ht
        rw [two u (beside_last h1 hh')] at ht
        exact (amid_addBlock h1 h2 rfl).2 t ht
      · intro u hu
        obtain ⟨h1, h2⟩ := beside_addBlock hu rfl
        unfold EndsAlike
        rw [two s rfl, two u (beside_last hu hh')]
        exact ⟨h1, core_of_beside h2 rfl (fun _ => id) fun _ => id⟩
    | err e =>
      have two : ∀ x : Tree, x.main.getLastBlock = s.main.getLastBlock → (Op.emitMain p f txs ts).run E x =
          ⟨.err e, x, []⟩ := by
        intro x hx
        rw [run, hF, hx, hl, Act.lift_err_bind]
        rfl
      refine redo_of (E := E) ⟨none, fun _ => False, fun _ => False⟩ hc hh' (start _) ?_ ?_ hu
      · intro u h1 _ t ht
        rw [two u (beside_last h1 hh')] at ht; cases ht
      · intro u hu
        unfold EndsAlike
        rw [two s rfl, two u (beside_last hu hh')]
        exact ⟨rfl, core_of_beside hu rfl (fun _ => id) fun _ => id⟩
    | panic e =>
      have two : ∀ x : Tree, x.main.getLastBlock = s.main.getLastBlock → (Op.emitMain p f txs ts).run E x =
          ⟨.panic e, x, []⟩ := by
        intro x hx
        rw [run, hF, hx, hl, Act.lift_panic_bind]
        rfl
      refine redo_of (E := E) ⟨none, fun _ => False, fun _ => False⟩ hc hh' (start _) ?_ ?_ hu
      · intro u h1 _ t ht
        rw [two u (beside_last h1 hh')] at ht; cases ht
      · intro u hu
        unfold EndsAlike
        rw [two s rfl, two u (beside_last hu hh')]
        exact ⟨rfl, core_of_beside hu rfl (fun _ => id) fun _ => id⟩
    | ub =>
      have two : ∀ x : Tree, x.main.getLastBlock = s.main.getLastBlock → (Op.emitMain p f txs ts).run E x =
          ⟨.ub, x, []⟩ := by
        intro x hx
        rw [run, hF, hx, hl, Act.lift_ub_bind]
        rfl
      refine redo_of (E := E) ⟨none, fun _ => False, fun _ => False⟩ hc hh' (start _) ?_ ?_ hu
      · intro u h1 _ t ht
        rw [two u (beside_last h1 hh')] at ht; cases ht
      · intro u hu
        unfold EndsAlike
        rw [two s rfl, two u (beside_last hu hh')]
        exact ⟨rfl, core_of_beside hu rfl (fun _ => id) fun _ => id⟩
  | _ => exact hr.elim

/-- A call on balances leaves the main chain as it is. -/
theorem moves_frame {op : Op} (h : Op.Moves op) :
    ¬ mayChange op .height ∧ ¬ mayChange op .difficulty ∧ ¬ mayChange op .config := by
  cases op <;> first | exact h.elim | simp [mayChange]

theorem moves_reads {op : Op} (h : Op.Moves op) (p : Part) (hp : mayRead op p) : p.Core := by
  cases op <;> first | exact h.elim | skip
  all_goals
    simp only [mayRead] at hp
    rcases hp with rfl | rfl | rfl | rfl <;> trivial

/-- Closing and opening a node whose configuration is up to date. -/
theorem core_of_close {E : Env} {f : Tree} (hc : f.main.chain.config = some f.main.chain.saved)
    (hh : 2 ≤ f.main.chain.height.val) : (openTree E f.close).out = .ok () ∧ Agree Part.Core f (openTree E f.close).final := by
  have hr : MainChain.readConfig f.close.config = .ok (f.main.chain.height, f.main.chain.difficulty) := by
    show MainChain.readConfig f.main.chain.config = _
    rw [hc]; exact MainChain.readConfig_written _ _
  obtain ⟨ho, hf⟩ := openTree_pos (E := E) hr (by omega)
  refine ⟨ho, ?_⟩
  rw [hf, seed_tall hh]
  intro p hp
  cases p <;> first | exact hp.elim | rfl

/-- C175. The calls on balances are another matter. Whatever such a call did, a crash right after it can keep all of it, and
then the repeated call is a second one: it ends as a second one would and leaves what two would. -/
theorem C175_twice (E : Env) (s₀ : Tree) (hl : Life E (.idle s₀)) (op : Op) (hr : Op.Moves op)
    (hh : 2 ≤ s₀.main.chain.height.val) (s : Tree) (hs : s = (Op.flush.run E s₀).final) :
    ∃ d, Crash (op.run E s).final d ∧ (openTree E d).out = .ok () ∧
      (op.run E (openTree E d).final).out = (op.run E (op.run E s).final).out ∧
      Agree Part.Core (op.run E (op.run E s).final).final (op.run E (openTree E d).final).final := by
  have hl' : Life E (.idle (op.run E s).final) := by rw [hs]; exact .call _ _ (.call _ _ hl)
  have e : s = s₀.flushed := by
    obtain ⟨tr, e, _⟩ := Tree.flush_run s₀
    rw [hs]
    show (Tree.flush s₀).final = _
    rw [e]
  obtain ⟨n1, n2, n3⟩ := moves_frame hr
  have f1 : (op.run E s).final.main.chain.height = s.main.chain.height := (frame_rel E op .height n1 s).1
  have f2 : (op.run E s).final.main.chain.difficulty = s.main.chain.difficulty := (frame_rel E op .difficulty n2 s).1
  have f3 : (op.run E s).final.main.chain.config = s.main.chain.config := (frame_rel E op .config n3 s).1
  have hsv : (op.run E s).final.main.chain.saved = s.main.chain.saved := by
    unfold Chain.saved
    rw [f1, f2]
  have hc : (op.run E s).final.main.chain.config = some (op.run E s).final.main.chain.saved := by
    rw [f3, hsv, e]; rfl
  obtain ⟨h1, h2⟩ := core_of_close (E := E) hc (by rw [f1, e]; exact hh)
  obtain ⟨g1, g2, _⟩ := C115_depends E op Part.Core (moves_reads hr) _ _ h2
  exact ⟨_, (life_sound hl').close, h1, g1, g2⟩

theorem addAmount_amt {E : Env} {t : Tree} {o : Bytes} {a : U256} (hd : t.summary.cur.Dec)
    (h : (t.summary.cur.amt o).val + a.val < U256.size) :
    (((Op.addAmount o a).run E t).final.summary.cur.amt o).val = (t.summary.cur.amt o).val + a.val := by
  show ((Ledger.add o a t.summary).final.cur.amt o).val = _
  rcases Ledger.add_run hd o a with ⟨h', e⟩ | ⟨h', _⟩
  · rw [e]
    show ((KV.insert _ _ _).amt o).val = _
    rw [KV.amt_insert, if_pos rfl]
  · exact absurd h h'

/-- C175. One instance in figures: coins credited by a call that is repeated after such a crash are there twice. -/
theorem C175_credit (E : Env) (s₀ : Tree) (hl : Life E (.idle s₀)) (o : Bytes) (a : U256)
    (hh : 2 ≤ s₀.main.chain.height.val) (ha : (s₀.summary.cur.amt o).val + 2 * a.val < U256.size) :
    ∃ d, Crash ((Op.addAmount o a).run E (Op.flush.run E s₀).final).final d ∧
      (((Op.addAmount o a).run E (Op.flush.run E s₀).final).final.summary.cur.amt o).val =
        (s₀.summary.cur.amt o).val + a.val ∧
      (((Op.addAmount o a).run E (openTree E d).final).final.summary.cur.amt o).val =
        (s₀.summary.cur.amt o).val + 2 * a.val := by
  have hl1 : Life E (.idle (Op.flush.run E s₀).final) := .call _ _ hl
  have hl2 : Life E (.idle ((Op.addAmount o a).run E (Op.flush.run E s₀).final).final) := .call _ _ hl1
  have d1 := (life_storeInv hl1).summary.1
  have d2 := (life_storeInv hl2).summary.1
  have e0 : (Op.flush.run E s₀).final.summary.cur = s₀.summary.cur := (frame_rel E .flush .coins (by simp [mayChange]) s₀).1
  obtain ⟨d, h1, _, _, h4⟩ := C175_twice E s₀ hl (.addAmount o a) trivial hh _ rfl
  have e1 := addAmount_amt (E := E) (o := o) (a := a) d1 (by rw [e0]; omega)
  rw [e0] at e1
  refine ⟨d, h1, e1, ?_⟩
  rw [show _ = _ from h4 .coins trivial, addAmount_amt d2 (by rw [e1]; omega), e1]
  omega

/-- C175. With the first block alone it is not so: opening such a node sets the coins of the root account anew. -/
theorem C175_first (E : Env) : ∃ s₀ d, Life E (.idle s₀) ∧ s₀.main.chain.height = U256.one ∧
    Crash (Op.flush.run E s₀).final d ∧
    ¬ EndsAlike ((Op.addTransactions []).run E) (Op.flush.run E s₀).final (openTree E d).final := by
  have hl : Life E (.idle ((Op.setAmount ROOT_PUBLIC_ADDRESS.val U256.zero).run E (openTree E Disk.empty).final).final) :=
    .call _ _ (life_fresh E)
  have run : ∀ x : Tree, ((Op.setAmount ROOT_PUBLIC_ADDRESS.val U256.zero).run E x).final =
      { x with summary := x.summary.insert ROOT_PUBLIC_ADDRESS.val (Ledger.encode U256.zero) } := by
    intro x
    show (Tree.setAmount _ _ x).final = _
    unfold Tree.setAmount Tree.onSummary
    rw [Act.zoom_run, Ledger.set_run]
  refine ⟨_, (Op.flush.run E _).final.close, hl, ?_, (life_sound (.call _ .flush hl)).close, fun h => ?_⟩
  · rw [run, (openTree_fresh E).2]; rfl
  · generalize hs : ((Op.setAmount ROOT_PUBLIC_ADDRESS.val U256.zero).run E (openTree E Disk.empty).final).final = s at h
    have e : (Op.flush.run E s).final = s.flushed := by
      obtain ⟨tr, e, _⟩ := Tree.flush_run s
      show (Tree.flush s).final = _
      rw [e]
    have hone : s.main.chain.height = U256.one := by rw [← hs, run, (openTree_fresh E).2]; rfl
    have hc := h.2 .coins trivial
    rw [e] at hc
    have hr : MainChain.readConfig s.flushed.close.config = .ok (s.main.chain.height, s.main.chain.difficulty) :=
      MainChain.readConfig_written _ _
    obtain ⟨_, hf⟩ := openTree_pos (E := E) hr (by rw [hone]; decide)
    rw [hf] at hc
    have hc' : (seedSummary s.main.chain.height (Db.open' s.summary.cur)).cur = s.summary.cur := hc
    rw [hone] at hc'
    have h1 := congrArg (fun m => m.amt ROOT_PUBLIC_ADDRESS.val) hc'
    have h2 : s.summary.cur.amt ROOT_PUBLIC_ADDRESS.val = U256.zero := by
      rw [← hs, run]
      show (KV.insert _ _ _).amt _ = _
      rw [KV.amt_insert, if_pos rfl]
    have h3 : (KV.insert s.summary.cur ROOT_PUBLIC_ADDRESS.val (Ledger.encode COINS_PER_CYCLE)).amt ROOT_PUBLIC_ADDRESS.val =
        s.summary.cur.amt ROOT_PUBLIC_ADDRESS.val := h1
    rw [h2, KV.amt_insert, if_pos rfl] at h3
    exact absurd h3 (by decide)

/-- A block of some height. -/
def blockOf (h : U256) : Block :=
  .summarize ⟨⟨0, BytesN.fill 32 0, BytesN.fill 32 0, h, BytesN.fill 32 0, ROOT_PUBLIC_ADDRESS⟩, BytesN.fill 32 0⟩

/-- A node that has been given one block. -/
def twoBlocks (E : Env) : Tree := ((Op.addBlock (blockOf U256.one)).run E (openTree E Disk.empty).final).final

theorem two_lt : (2 : Nat) < U256.size := by decide

theorem twoBlocks_life (E : Env) : Life E (.idle (twoBlocks E)) := .call _ _ (life_fresh E)

theorem twoBlocks_is (E : Env) : (twoBlocks E).main.chain.height = ⟨2, two_lt⟩ ∧ (twoBlocks E).main.chain.config = none ∧
    (twoBlocks E).main.chain.blocks.cur.get (U256.toBE ⟨2, two_lt⟩).val = none := by
  have : (twoBlocks E).main.chain = (bootChain E (Db.open' KV.empty) (Db.open' KV.empty) BEGINNING_DIFFICULTY none).put3 E
      (blockOf U256.one).dump ⟨2, two_lt⟩ := by
    unfold twoBlocks
    rw [(openTree_fresh E).2]
    show (Tree.onMain (MainChain.addBlock E (blockOf U256.one)) _).final.main.chain = _
    rw [mainAdd_run]
    have r := fun bl rf df cfg => Chain.addBlock_right (E := E) (dump := (blockOf U256.one).dump) (s := bootChain E bl rf df cfg)
      (show (bootChain E bl rf df cfg).height.val + 1 < U256.size from two_lt)
    have e : ∀ bl rf df cfg, (bootChain E bl rf df cfg).height = (blockOf U256.one).info.height := fun _ _ _ _ => rfl
    simp only [← e (Db.open' KV.empty) (Db.open' KV.empty) BEGINNING_DIFFICULTY none]
    rw [r]
    rfl
  rw [this]
  refine ⟨rfl, rfl, ?_⟩
  show ((KV.empty.insert U256.zero.toBE.val _).insert U256.one.toBE.val _).get _ = none
  rw [KV.get_insert, if_neg, KV.get_insert, if_neg]
  · simp
  · intro e
    have : (0 : Nat) = 2 := congrArg U256.val (toBE_inj e)
    omega
  · intro e
    have : (1 : Nat) = 2 := congrArg U256.val (toBE_inj e)
    omega

/-- C175. Without the flush it is not so: a block that would have been accepted is refused after the restart. -/
theorem C175_unflushed (E : Env) : ∃ (s : Tree) (b : Block) (d : Disk), Life E (.idle s) ∧ 2 ≤ s.main.chain.height.val ∧
    Crash s d ∧ (openTree E d).out = .ok () ∧ ((Op.addBlock b).run E s).out = .ok () ∧
    ((Op.addBlock b).run E (openTree E d).final).out = .err .chainAddingBlock := by
  have hl := twoBlocks_life E
  obtain ⟨hh, hc, _⟩ := twoBlocks_is E
  generalize twoBlocks E = s at *
  have hr : MainChain.readConfig s.close.config = .ok (U256.zero, BEGINNING_DIFFICULTY) := by
    show MainChain.readConfig s.main.chain.config = _
    rw [hc]; rfl
  obtain ⟨h1, h2⟩ := openTree_zero (E := E) hr
  refine ⟨s, blockOf ⟨2, two_lt⟩, s.close, hl, by rw [hh]; exact Nat.le_refl 2, (life_sound hl).close, h1, ?_, ?_⟩
  · show (Chain.addBlock E ⟨2, two_lt⟩ _ s.main.chain).out = _
    rw [← hh, Chain.addBlock_right (by rw [hh]; show (3 : Nat) < U256.size; decide)]
  · show (Chain.addBlock E ⟨2, two_lt⟩ _ _).out = _
    rw [h2, Chain.addBlock_wrong]
    intro e
    have : (2 : Nat) = 1 := congrArg U256.val e
    omega

/-! ## The hypotheses can be met -/

example (b : Block) (h : Hash) (p : BytesN 32) (f : Address) (ts : UInt64) :
    Op.Redoable (.addBlock b) ∧ Op.Redoable (.emitMain p f [h] ts) := ⟨trivial, by simp [Op.Redoable]⟩

/-- A node to begin with, and a crash half-way through appending a block to it: the block is there, the reference is not. -/
example (E : Env) : ∃ (s₀ t : Tree) (b : Block) (d : Disk), Life E (.idle s₀) ∧ 2 ≤ s₀.main.chain.height.val ∧
    t ∈ ((Op.addBlock b).run E (Op.flush.run E s₀).final).trace ∧ Crash t d ∧
    d.blocks ≠ s₀.main.chain.blocks.cur ∧ d.heightReference = s₀.main.chain.heightReference.cur ∧
    Attempted E (.addBlock b) (Op.flush.run E s₀).final (openTree E d).final := by
  have hl := twoBlocks_life E
  obtain ⟨hh, _, hn⟩ := twoBlocks_is E
  generalize twoBlocks E = s at *
  have e : (Op.flush.run E s).final = s.flushed := by
    obtain ⟨tr, e, _⟩ := Tree.flush_run s
    show (Tree.flush s).final = _
    rw [e]
  have ht : { s.flushed with main := { s.flushed.main with chain := s.flushed.main.chain.put1 (blockOf ⟨2, two_lt⟩).dump } } ∈
      ((Op.addBlock (blockOf ⟨2, two_lt⟩)).run E (Op.flush.run E s).final).trace := by
    rw [e]
    show _ ∈ (Tree.onMain (MainChain.addBlock E (blockOf ⟨2, two_lt⟩)) s.flushed).trace
    rw [mainAdd_run]
    have h2 : (blockOf ⟨2, two_lt⟩).info.height = s.flushed.main.chain.height := hh.symm
    rw [h2, Chain.addBlock_right (show s.flushed.main.chain.height.val + 1 < U256.size by show s.main.chain.height.val + 1 < _; rw [hh]; show (3 : Nat) < U256.size; decide)]
    exact List.mem_cons_self
  have hd := (life_sound (.running _ _ _ (.call _ .flush hl) ht)).close
  refine ⟨s, _, _, _, hl, by rw [hh]; exact Nat.le_refl 2, ht, hd, ?_, rfl, .again _ _ _ .first (.inr ht) hd⟩
  intro h
  have h' := congrArg (fun m => m.get (U256.toBE ⟨2, two_lt⟩).val) h
  have h3 : (KV.insert s.main.chain.blocks.cur s.main.chain.height.toBE.val (blockOf ⟨2, two_lt⟩).dump).get
      (U256.toBE ⟨2, two_lt⟩).val = s.main.chain.blocks.cur.get (U256.toBE ⟨2, two_lt⟩).val := h'
  rw [hn, KV.get_insert, if_pos (by rw [hh])] at h3
  cases h3

end BCT.Props
