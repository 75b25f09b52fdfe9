import Verif.Lemmas.NodeRestart
/-!
# What would be left of a node
-/

namespace BCT
open BCT.Props

/-- A database after a call: nothing was written to it, or something once. -/
def Db.Next (d d' : Db) : Prop := d' = d ∨ d'.recov = d'.cur :: d.recov

theorem Db.next_refl (d : Db) : d.Next d := .inl rfl
theorem Db.next_commit (d : Db) (f : KV → KV) : d.Next (d.commit f) := .inr rfl
theorem Db.next_insert (d : Db) (k v : Bytes) : d.Next (d.insert k v) := .inr rfl

/-- A crash leaves the table with one of these values, and any of them can be. -/
structure TableLog (l : List Spec.Book) (d : Db) : Prop where
  sound : ∀ m ∈ d.recov, ∃ b ∈ l, Books b m
  full : ∀ b ∈ l, ∃ m ∈ d.recov, Books b m

theorem TableLog.next {l : List Spec.Book} {d d' : Db} {b : Spec.Book} (h : TableLog l d) (hn : d.Next d') (hs : d.Sound)
    (hb : Books b d'.cur) : TableLog (b :: l) d' := by
  rcases hn with rfl | hn
  · refine ⟨fun m hm => ?_, fun c hc => ?_⟩
    · obtain ⟨c, hc, hm⟩ := h.sound m hm
      exact ⟨c, List.mem_cons_of_mem _ hc, hm⟩
    · rcases List.mem_cons.mp hc with rfl | hc
      · exact ⟨_, hs, hb⟩
      · exact h.full c hc
  · refine ⟨fun m hm => ?_, fun c hc => ?_⟩
    · rw [hn] at hm
      rcases List.mem_cons.mp hm with rfl | hm
      · exact ⟨b, List.mem_cons_self, hb⟩
      · obtain ⟨c, hc, hm⟩ := h.sound m hm
        exact ⟨c, List.mem_cons_of_mem _ hc, hm⟩
    · rw [hn]
      rcases List.mem_cons.mp hc with rfl | hc
      · exact ⟨_, List.mem_cons_self, hb⟩
      · obtain ⟨m, hm, hb⟩ := h.full c hc
        exact ⟨m, List.mem_cons_of_mem _ hm, hb⟩

theorem TableLog.single {m : KV} {b : Spec.Book} {d : Db} (hd : d.recov = [m]) (hb : Books b m) : TableLog [b] d := by
  refine ⟨fun m' hm => ?_, fun c hc => ?_⟩
  · rw [hd] at hm
    rw [List.mem_singleton.mp hm]; exact ⟨b, List.mem_singleton.mpr rfl, hb⟩
  · rw [List.mem_singleton.mp hc, hd]; exact ⟨m, List.mem_singleton.mpr rfl, hb⟩

/-- A crash leaves the database with some number, `k` at least, of these things in it, and any such number can be. -/
structure Log {β : Type} (P : KV → List β → Prop) (d : Db) (l : List β) (k : Nat) : Prop where
  le : k ≤ l.length
  sound : ∀ m ∈ d.recov, ∃ j, (k ≤ j ∧ j ≤ l.length) ∧ P m (l.take j)
  full : ∀ j, k ≤ j ∧ j ≤ l.length → ∃ m ∈ d.recov, P m (l.take j)

namespace Log
variable {β : Type} {P : KV → List β → Prop} {d d' : Db} {l l' : List β} {k : Nat}

theorem next (h : Log P d l k) (hn : d.Next d') (hs : d.Sound) (hl : l' = l ∨ ∃ b, l' = l ++ [b]) (hp : P d'.cur l') :
    Log P d' l' k := by
  have hlen : l.length ≤ l'.length ∧ l'.length ≤ l.length + 1 := by
    rcases hl with rfl | ⟨b, rfl⟩ <;> simp
  have htake : ∀ j, j ≤ l.length → l'.take j = l.take j := by
    intro j hj
    rcases hl with rfl | ⟨b, rfl⟩
    · rfl
    · rw [List.take_append_of_le_length hj]
  have old : ∀ m ∈ d.recov, ∃ j, (k ≤ j ∧ j ≤ l'.length) ∧ P m (l'.take j) := by
    intro m hm
    obtain ⟨j, hj, hp⟩ := h.sound m hm
    exact ⟨j, ⟨hj.1, by omega⟩, by rw [htake j hj.2]; exact hp⟩
  have new : ∃ j, (k ≤ j ∧ j ≤ l'.length) ∧ P d'.cur (l'.take j) :=
    ⟨l'.length, ⟨by have := h.le; omega, Nat.le_refl _⟩, by rw [List.take_length]; exact hp⟩
  have back : ∀ j, k ≤ j ∧ j ≤ l'.length → (∃ m ∈ d.recov, P m (l'.take j)) ∨ P d'.cur (l'.take j) := by
    intro j hj
    by_cases hjl : j ≤ l.length
    · obtain ⟨m, hm, hp⟩ := h.full j ⟨hj.1, hjl⟩
      exact .inl ⟨m, hm, by rw [htake j hjl]; exact hp⟩
    · have : j = l'.length := by omega
      rw [this, List.take_length]
      exact .inr hp
  have hle : k ≤ l'.length := by have := h.le; omega
  rcases hn with rfl | hn
  · refine ⟨hle, old, fun j hj => ?_⟩
    rcases back j hj with hb | hb
    · exact hb
    · exact ⟨_, hs, hb⟩
  · refine ⟨hle, fun m hm => ?_, fun j hj => ?_⟩
    · rw [hn] at hm
      rcases List.mem_cons.mp hm with rfl | hm
      · exact new
      · exact old m hm
    · rw [hn]
      rcases back j hj with ⟨m, hm, hb⟩ | hb
      · exact ⟨m, List.mem_cons_of_mem _ hm, hb⟩
      · exact ⟨_, List.mem_cons_self, hb⟩

theorem single {m : KV} (hd : d.recov = [m]) (hp : P m l) : Log P d l l.length := by
  refine ⟨Nat.le_refl _, fun m' hm => ?_, fun j hj => ?_⟩
  · rw [hd] at hm
    rw [List.mem_singleton.mp hm]
    exact ⟨_, ⟨Nat.le_refl _, Nat.le_refl _⟩, by rw [List.take_length]; exact hp⟩
  · have : j = l.length := by omega
    rw [this, List.take_length, hd]
    exact ⟨m, List.mem_singleton.mpr rfl, hp⟩

end Log

/-- A crash leaves the files of a chain with some number of the blocks, and some number of the entries. -/
structure ChainLog (E : Env) (bl rf : Db) (bs : List Block) (x : Spec.Found Block) (k : Nat) : Prop where
  count : x.count ≤ k
  blocks : Log (fun m bs => Slots m (x.slot bs)) bl bs k
  refs : Log (fun m bs => Indexed m (x.indexed (Spec.mainKey E) bs)) rf bs k

/-- The transaction database holds these, newest first. -/
def Stores (m : KV) (l : List (Hash × Transaction)) : Prop :=
  ∀ h : Hash, m.get h.val = ((l.find? (fun e => e.1 = h)).map (·.2)).map Transaction.dump

/-- A crash leaves some number of the transactions. -/
abbrev TxLog (d : Db) (l : List (Hash × Transaction)) (k : Nat) : Prop :=
  Log (fun m l => Stores m l.reverse) d l.reverse k

/-- A configuration file of the main chain that counts `k` blocks. -/
def Counts (c : Option Bytes) (k : Nat) : Prop :=
  (k = 0 ∧ c = none) ∨ (0 < k ∧ ∃ d : Hash, c = some (beBytes 32 k ++ d.val))

/-- A configuration file of a derivative chain. -/
def Says (c : Option Bytes) : Option (Hash × Nat) → Prop
  | none => c = none
  | some g => ∃ d : Hash, c = some (beBytes 32 g.2 ++ d.val ++ g.1.val)

/-- The node is in a state of the abstract node that can die: but for the tables put aside. -/
structure Carries (E : Env) (t : Tree) (f : Spec.Frail) : Prop where
  mirrors : Mirrors E f.found t f.node
  sound : Sound t
  main : ChainLog E t.main.chain.blocks t.main.chain.heightReference f.node.blocks f.found.main f.kept
  config : Counts t.main.chain.config f.kept
  txs : TxLog t.main.transactions f.node.txs f.keptTxs
  coins : TableLog f.coins t.summary
  gas : TableLog f.gas t.gas
  deriv : ∀ o : Address, ChainLog E (t.derivFiles (hexEncode o.val)).blocks
    (t.derivFiles (hexEncode o.val)).heightReference ((f.node.blocksOf o).map Block.derivative)
    (Found.up (f.found.chains o)) (f.lengthKept o)
  says : ∀ o : Address, Says (t.derivFiles (hexEncode o.val)).config (f.keptOf o)

/-- The node is in a state of the abstract node that can die. -/
structure Bears (E : Env) (t : Tree) (f : Spec.Frail) : Prop extends Carries E t f where
  oldCoins : TableLog f.oldCoins t.oldSummary
  oldGas : TableLog f.oldGas t.oldGas

/-! ## Calls that flush nothing -/

/-- What such a call does to the files, but for the transactions and the tables put aside. -/
structure Calm (t t' : Tree) : Prop where
  config : t'.main.chain.config = t.main.chain.config
  blocks : Db.Next t.main.chain.blocks t'.main.chain.blocks
  refs : Db.Next t.main.chain.heightReference t'.main.chain.heightReference
  summary : Db.Next t.summary t'.summary
  gas : Db.Next t.gas t'.gas
  files : ∀ o, Db.Next (t.derivFiles o).blocks (t'.derivFiles o).blocks ∧
    Db.Next (t.derivFiles o).heightReference (t'.derivFiles o).heightReference ∧
    (t'.derivFiles o).config = (t.derivFiles o).config

/-- No chain grows by more than a block. -/
structure Grown (n n' : Spec.Node) : Prop where
  blocks : n'.blocks = n.blocks ∨ ∃ b, n'.blocks = n.blocks ++ [b]
  chains : ∀ o, n'.blocksOf o = n.blocksOf o ∨ ∃ d, n'.blocksOf o = n.blocksOf o ++ [d]

/-- Whatever the state of an owner's derivative chain, its files hold the blocks. -/
theorem Mirrors.owner {E : Env} {X : Spec.Leftovers} {t : Tree} {n : Spec.Node} (h : Mirrors E X t n) (o : Address) :
    ∃ c : Chain, c.blocks = (t.derivFiles (hexEncode o.val)).blocks ∧
      c.heightReference = (t.derivFiles (hexEncode o.val)).heightReference ∧
      Chain.Is E c ((n.blocksOf o).map Block.derivative) (Found.up (X.chains o)) := by
  unfold Spec.Node.blocksOf
  cases hc : n.chains o with
  | some c => exact ⟨_, rfl, rfl, (h.opened o c hc).2.2⟩
  | none =>
    obtain ⟨ch, hn, _, hi⟩ := (h.closed o hc).2.opens (BytesN.fill 32 0)
    unfold DerivativeChain.new at hn
    cases hr : DerivativeChain.readConfig (BytesN.fill 32 0) (t.derivFiles (hexEncode o.val)).config with
    | ok r =>
      rw [hr, Outcome.ok_bind] at hn
      have := Outcome.ok.inj hn
      refine ⟨ch.chain, by rw [← this], by rw [← this], ?_⟩
      cases hs : n.saved o with
      | none => rw [hs] at hi; exact hi
      | some s => rw [hs] at hi; exact hi
    | err x => rw [hr] at hn; cases hn
    | panic x => rw [hr] at hn; cases hn
    | ub => rw [hr] at hn; cases hn

theorem Carries.moved {E : Env} {t t' : Tree} {f : Spec.Frail} {n' : Spec.Node} (h : Carries E t f)
    (hm : Mirrors E f.found t' n') (hs : Sound t') (hc : Calm t t') (hg : Grown f.node n')
    (ht : TxLog t'.main.transactions n'.txs f.keptTxs) : Carries E t' (f.moved n') where
  mirrors := hm
  sound := hs
  main := ⟨h.main.count, h.main.blocks.next hc.blocks h.sound.blocks hg.blocks hm.main.slots,
    h.main.refs.next hc.refs h.sound.heightReference hg.blocks hm.main.refs⟩
  config := by rw [hc.config]; exact h.config
  txs := ht
  coins := h.coins.next hc.summary h.sound.summary hm.coins
  gas := h.gas.next hc.gas h.sound.gas hm.gas
  deriv := fun o => by
    obtain ⟨c, h1, h2, h3⟩ := hm.owner o
    obtain ⟨g1, g2, _⟩ := hc.files (hexEncode o.val)
    have hl : (n'.blocksOf o).map Block.derivative = (f.node.blocksOf o).map Block.derivative ∨
        ∃ b, (n'.blocksOf o).map Block.derivative = (f.node.blocksOf o).map Block.derivative ++ [b] := by
      rcases hg.chains o with e | ⟨d, e⟩
      · left; rw [e]
      · right; exact ⟨.derivative d, by rw [e, List.map_append]; rfl⟩
    obtain ⟨s1, s2⟩ := h.sound.deriv (hexEncode o.val)
    have h0 := h.deriv o
    exact ⟨h0.count, h0.blocks.next g1 s1 hl (by rw [← h1]; exact h3.slots),
      h0.refs.next g2 s2 hl (by rw [← h2]; exact h3.refs)⟩
  says := fun o => by rw [(hc.files _).2.2]; exact h.says o

theorem Bears.moved {E : Env} {t t' : Tree} {f : Spec.Frail} {n' : Spec.Node} (h : Bears E t f)
    (hm : Mirrors E f.found t' n') (hs : Sound t') (hc : Calm t t') (hg : Grown f.node n')
    (ht : TxLog t'.main.transactions n'.txs f.keptTxs) (h1 : t'.oldSummary = t.oldSummary) (h2 : t'.oldGas = t.oldGas) :
    Bears E t' (f.moved n') where
  toCarries := h.toCarries.moved hm hs hc hg ht
  oldCoins := h.oldCoins.next (.inl h1) h.sound.oldSummary hm.oldCoins
  oldGas := h.oldGas.next (.inl h2) h.sound.oldGas hm.oldGas

/-! ### What each such call does -/

/-- Nothing was written, but for transactions. -/
structure Still (t t' : Tree) : Prop where
  config : t'.main.chain.config = t.main.chain.config
  blocks : t'.main.chain.blocks = t.main.chain.blocks
  refs : t'.main.chain.heightReference = t.main.chain.heightReference
  summary : t'.summary = t.summary
  gas : t'.gas = t.gas
  oldSummary : t'.oldSummary = t.oldSummary
  oldGas : t'.oldGas = t.oldGas
  files : t'.derivFiles = t.derivFiles

/-- At most one thing was written to every database. -/
structure Slight (t t' : Tree) : Prop extends Calm t t' where
  txs : Db.Next t.main.transactions t'.main.transactions
  oldSummary : t'.oldSummary = t.oldSummary
  oldGas : t'.oldGas = t.oldGas

theorem Still.refl (t : Tree) : Still t t := ⟨rfl, rfl, rfl, rfl, rfl, rfl, rfl, rfl⟩

theorem Still.slight {t t' : Tree} (h : Still t t') (ht : t'.main.transactions = t.main.transactions) : Slight t t' :=
  ⟨⟨h.config, .inl h.blocks, .inl h.refs, .inl h.summary, .inl h.gas,
    fun o => by rw [h.files]; exact ⟨.inl rfl, .inl rfl, rfl⟩⟩, .inl ht, h.oldSummary, h.oldGas⟩

theorem Slight.refl (t : Tree) : Slight t t := (Still.refl t).slight rfl

theorem Slight.before {t u v : Tree} (h : Still t u) (ht : u.main.transactions = t.main.transactions) (h2 : Slight u v) :
    Slight t v :=
  ⟨⟨h2.config.trans h.config, h.blocks ▸ h2.blocks, h.refs ▸ h2.refs, h.summary ▸ h2.summary, h.gas ▸ h2.gas,
    fun o => by rw [← h.files]; exact h2.files o⟩, ht ▸ h2.txs, h2.oldSummary.trans h.oldSummary, h2.oldGas.trans h.oldGas⟩

theorem Calm.still {t u v : Tree} (h : Calm t u) (h2 : Still u v) : Calm t v :=
  ⟨h2.config.trans h.config, h2.blocks ▸ h.blocks, h2.refs ▸ h.refs, h2.summary ▸ h.summary, h2.gas ▸ h.gas,
    fun o => by rw [h2.files]; exact h.files o⟩

theorem transact_next (c : KV → Outcome KV) (d : Db) : d.Next (Ledger.transact c d).final :=
  (Ledger.transact_rel (R := Db.Next) Db.next_refl (fun d _ => d.next_commit _) c d).1

theorem slight_summary (c : KV → Outcome KV) (t : Tree) : Slight t (Tree.onSummary (Ledger.transact c) t).final := by
  unfold Tree.onSummary
  rw [Act.zoom_run]
  exact ⟨⟨rfl, .inl rfl, .inl rfl, transact_next c _, .inl rfl, fun _ => ⟨.inl rfl, .inl rfl, rfl⟩⟩, .inl rfl, rfl, rfl⟩

theorem slight_gas (c : KV → Outcome KV) (t : Tree) : Slight t (Tree.onGas (Ledger.transact c) t).final := by
  unfold Tree.onGas
  rw [Act.zoom_run]
  exact ⟨⟨rfl, .inl rfl, .inl rfl, .inl rfl, transact_next c _, fun _ => ⟨.inl rfl, .inl rfl, rfl⟩⟩, .inl rfl, rfl, rfl⟩

theorem slight_put3 (E : Env) (t : Tree) (b : Bytes) (k : U256) :
    Slight t { t with main := { t.main with chain := t.main.chain.put3 E b k } } :=
  ⟨⟨rfl, Db.next_insert _ _ _, Db.next_insert _ _ _, .inl rfl, .inl rfl, fun _ => ⟨.inl rfl, .inl rfl, rfl⟩⟩, .inl rfl, rfl,
    rfl⟩

theorem slight_addBlock (E : Env) {t : Tree} (hm : t.main.chain.height.val + 1 < U256.size) (b : Block) :
    Slight t (Tree.onMain (MainChain.addBlock E b) t).final := by
  by_cases hb : b.info.height = t.main.chain.height
  · obtain ⟨tr, e⟩ := addBlock_run_right (E := E) hb hm
    rw [e]; exact slight_put3 E t _ _
  · rw [addBlock_run_wrong hb]; exact Slight.refl t

theorem still_addTransactions (E : Env) : ∀ (ts : List Transaction) (t : Tree),
    Still t (Tree.onMain (MainChain.addTransactions E ts) t).final
  | [], t => Still.refl t
  | tx :: ts, t => by
    have := still_addTransactions E ts (t.withTx E tx)
    exact ⟨this.config, this.blocks, this.refs, this.summary, this.gas, this.oldSummary, this.oldGas, this.files⟩

theorem still_getDeriv (E : Env) (o : Address) (t : Tree) : Still t (Tree.getDerivativeChain E o t).final ∧
    (Tree.getDerivativeChain E o t).final.main.transactions = t.main.transactions := by
  refine (Tree.getDeriv_rel (R := fun t t' => Still t t' ∧ t'.main.transactions = t.main.transactions)
    (fun t => ⟨Still.refl t, rfl⟩) E o ?_ t).1
  intro t c _ h1 h2 h3
  refine ⟨⟨rfl, rfl, rfl, rfl, rfl, rfl, rfl, ?_⟩, rfl⟩
  funext q
  simp only [Tree.putHandle]
  split
  · rename_i e; subst e
    rw [h1, h2, h3]
  · rfl

theorem slight_put3Deriv (E : Env) (t : Tree) (o : Address) (b : Bytes) (k : U256) :
    Slight t (Tree.putHandle o ⟨(t.handle o).chain.put3 E b k, (t.handle o).genesisHash⟩ t) := by
  refine ⟨⟨rfl, .inl rfl, .inl rfl, .inl rfl, .inl rfl, fun q => ?_⟩, .inl rfl, rfl, rfl⟩
  simp only [Tree.putHandle]
  split
  · rename_i e; subst e
    exact ⟨Db.next_insert _ _ _, Db.next_insert _ _ _, rfl⟩
  · exact ⟨.inl rfl, .inl rfl, rfl⟩

theorem slight_putSame (t : Tree) (o : Address) : Slight t (Tree.putHandle o (t.handle o) t) := by
  refine ⟨⟨rfl, .inl rfl, .inl rfl, .inl rfl, .inl rfl, fun q => ?_⟩, .inl rfl, rfl, rfl⟩
  simp only [Tree.putHandle]
  split
  · rename_i e; subst e
    exact ⟨.inl rfl, .inl rfl, rfl⟩
  · exact ⟨.inl rfl, .inl rfl, rfl⟩

theorem slight_derivAdd (E : Env) {t : Tree} {o : Address} (hm : (t.handle o).chain.height.val + 1 < U256.size) (b : DerivativeBlock) :
    Slight t (Tree.onDeriv o (DerivativeChain.addBlock E b) t).final := by
  unfold Tree.onDeriv DerivativeChain.addBlock DerivativeChain.onChain
  rw [Act.zoom_run, Act.zoom_run]
  by_cases hb : b.defaultInfo.height = (t.handle o).chain.height
  · rw [hb, Chain.addBlock_right hm]
    exact slight_put3Deriv E t o _ _
  · rw [Chain.addBlock_wrong hb]
    exact slight_putSame t o

theorem slight_send (E : Env) {t : Tree} (hc : t.summary.cur.Dec) (hg : t.gas.cur.Dec) (tx : Transaction) :
    Slight t (Tree.sendTransaction E tx t).final := by
  have hw : Slight t (t.withTx E tx) :=
    ⟨⟨rfl, .inl rfl, .inl rfl, .inl rfl, .inl rfl, fun _ => ⟨.inl rfl, .inl rfl, rfl⟩⟩, Db.next_insert _ _ _, rfl, rfl⟩
  rcases sendTransaction_cases E t tx hc hg with ⟨_, _, h, _, _, e, _⟩ | ⟨_, _, _, _, _, e⟩ | ⟨_, out, _, e⟩
  · rw [e]
    refine ⟨⟨rfl, .inl rfl, .inl rfl, ?_, ?_, fun _ => ⟨.inl rfl, .inl rfl, rfl⟩⟩, Db.next_insert _ _ _, rfl, rfl⟩
    · show Db.Next t.summary (paid t.summary tx h)
      unfold paid
      split
      · exact .inl rfl
      · exact Db.next_commit _ _
    · show Db.Next t.gas (charged t.gas tx)
      unfold charged
      exact Db.next_commit _ _
  · rw [e]; exact hw
  · rw [e]; exact Slight.refl t

end BCT
