import Verif.Lemmas.Life
import Verif.Props.Emit
import Verif.Props.Send
/-!
# C58 – C60: restarts and crashes (chain.rs, blockchaintree.rs)

`Life E m`: the moment `m` can occur in the life of a node that may be stopped at any point of any call, or while
being opened, and opened again. `Crash t d`: being stopped in state `t` may leave the directory `d`; every database
may lose writes made since it was last flushed, independently of the others.
-/

namespace BCT.Props
open BCT

/-- A clean shutdown is covered by what is said about crashes: it is the crash that loses nothing. -/
theorem close_is_crash (E : Env) (s : Tree) (h : Life E (.idle s)) : Crash s s.close := (life_sound h).close

theorem life_fresh (E : Env) : Life E (.idle (openTree E Disk.empty).final) :=
  .opened _ .start (openTree_fresh E).1

theorem run_life {E : Env} {A : Op → Prop} {s : Tree} (h : RunWith E A s) : Life E (.idle s) := by
  induction h with
  | fresh => exact life_fresh E
  | call s op _ _ ih => exact .call s op ih

/-! ## C58 -/

/-- The same answers to every query about blocks, transactions and gas. -/
structure SameAnswers (E : Env) (s t : Tree) : Prop where
  height : t.main.getHeight = s.main.getHeight
  last : t.main.getLastBlock = s.main.getLastBlock
  lastRaw : t.main.getLastRawBlock = s.main.getLastRawBlock
  rawByHeight : ∀ q, t.main.findRawByHeight q = s.main.findRawByHeight q
  byHeight : ∀ q, t.main.findByHeight q = s.main.findByHeight q
  rawByHash : ∀ h, t.main.findRawByHash h = s.main.findRawByHash h
  byHash : ∀ h, t.main.findByHash h = s.main.findByHash h
  txExists : ∀ h, t.main.transactionExists h = s.main.transactionExists h
  txRaw : ∀ h, t.main.getTransactionRaw h = s.main.getTransactionRaw h
  tx : ∀ h, t.main.getTransaction E h = s.main.getTransaction E h
  gas : ∀ o, t.getGas o = s.getGas o

/-- The answers depend on the contents only. -/
theorem sameAnswers_of {E : Env} {s t : Tree} (h1 : t.main.chain.blocks.cur = s.main.chain.blocks.cur)
    (h2 : t.main.chain.heightReference.cur = s.main.chain.heightReference.cur)
    (h3 : t.main.transactions.cur = s.main.transactions.cur) (h4 : t.main.chain.height = s.main.chain.height)
    (h5 : t.gas.cur = s.gas.cur) : SameAnswers E s t := by
  have rh : ∀ q, t.main.findRawByHeight q = s.main.findRawByHeight q := fun q => by
    unfold MainChain.findRawByHeight Chain.findRawByHeight Db.get; rw [h1, h4]
  have rr : ∀ h, t.main.findRawByHash h = s.main.findRawByHash h := fun h => by
    unfold MainChain.findRawByHash Chain.findRawByHash Chain.findRawByHeight Db.get; rw [h1, h2, h4]
  have lr : t.main.getLastRawBlock = s.main.getLastRawBlock := by
    unfold MainChain.getLastRawBlock; rw [h4]; congr 1; funext i; rw [rh]
  have tr : ∀ h, t.main.getTransactionRaw h = s.main.getTransactionRaw h := fun h => by
    unfold MainChain.getTransactionRaw Db.get; rw [h3]
  refine ⟨h4, ?_, lr, rh, fun q => ?_, rr, fun h => ?_, fun h => ?_, tr, fun h => ?_, fun o => ?_⟩
  · unfold MainChain.getLastBlock; rw [lr]
  · unfold MainChain.findByHeight; rw [rh]
  · unfold MainChain.findByHash; rw [rr]
  · unfold MainChain.transactionExists Db.get; rw [h3]
  · unfold MainChain.getTransaction; rw [tr]
  · unfold Tree.getGas Db.get; rw [h5]

/-- Opening a directory whose config file gives the height `h ≥ 1`. -/
theorem reopen {E : Env} {s : Tree} {d : Disk} (hp : 1 ≤ s.main.chain.height.val)
    (hb : d.blocks = s.main.chain.blocks.cur) (hr : d.heightReference = s.main.chain.heightReference.cur)
    (ht : d.transactions = s.main.transactions.cur) (hc : d.config = some s.main.chain.saved)
    (hg : d.gas = s.gas.cur) :
    (openTree E d).out = .ok () ∧ SameAnswers E s (openTree E d).final ∧
    (openTree E d).final.summary = seedSummary s.main.chain.height (Db.open' d.summary) := by
  have hrc : MainChain.readConfig d.config = .ok (s.main.chain.height, s.main.chain.difficulty) := by
    rw [hc]; exact MainChain.readConfig_written _ _
  obtain ⟨ho, hf⟩ := openTree_pos (E := E) hrc (by omega)
  refine ⟨ho, ?_, by rw [hf]; rfl⟩
  apply sameAnswers_of <;> rw [hf]
  · exact hb
  · exact hr
  · exact ht
  · rfl
  · exact hg

theorem flush_op (E : Env) (s : Tree) : (Op.flush.run E s).out = .ok () ∧ (Op.flush.run E s).final = s.flushed := by
  obtain ⟨tr, h, _⟩ := s.flush_run
  rw [show Op.flush.run E s = Tree.flush s from rfl, h]
  exact ⟨rfl, rfl⟩

/-- C58 at full strength. -/
def C58_full : Prop := ∀ (E : Env) (s : Tree) (d : Disk), Life E (.idle s) → Crash (Op.flush.run E s).final d →
  (openTree E d).out = .ok () ∧ SameAnswers E s (openTree E d).final ∧
  ∀ o, (openTree E d).final.getAmount o = s.getAmount o

theorem seed_other {h : U256} {m : KV} {k : Bytes} (hk : h.val ≠ 1 ∨ k ≠ ROOT_PUBLIC_ADDRESS.val) :
    (seedSummary h (Db.open' m)).get k = m.get k := by
  unfold seedSummary
  split
  · rename_i he
    rcases hk with hk | hk
    · exact absurd (by rw [he]; rfl) hk
    · rw [Db.get_insert, if_neg (Ne.symm hk), Db.get_open]
  · exact Db.get_open _ _

theorem seed_root {h : U256} {m : KV} (hk : h.val = 1) :
    Ledger.balance ((seedSummary h (Db.open' m)).get ROOT_PUBLIC_ADDRESS.val) = .ok COINS_PER_CYCLE := by
  have : h = U256.one := by cases h; simp only at hk; subst hk; rfl
  unfold seedSummary
  rw [if_pos this, Db.get_insert, if_pos rfl]
  exact Ledger.balance_encode _

/-- C58 for every node ever open, whatever happened before, and for every way of stopping after the flush: a
flushed node opens again with the same height and the same answer to every query about blocks, transactions, gas
and, above height 1, balances. (Missing: at height 1 the root account's balance is set to `COINS_PER_CYCLE`.) -/
theorem C58_flushed_restart_partial (E : Env) (s : Tree) (d : Disk) (hl : Life E (.idle s))
    (hd : Crash (Op.flush.run E s).final d) :
    (Op.flush.run E s).out = .ok () ∧ (openTree E d).out = .ok () ∧ SameAnswers E s (openTree E d).final ∧
    (∀ o, s.main.getHeight.val ≠ 1 ∨ o ≠ ROOT_PUBLIC_ADDRESS → (openTree E d).final.getAmount o = s.getAmount o) ∧
    (s.main.getHeight.val = 1 → (openTree E d).final.getAmount ROOT_PUBLIC_ADDRESS = .ok COINS_PER_CYCLE) := by
  refine ⟨(flush_op E s).1, ?_⟩
  rw [(flush_op E s).2] at hd
  obtain ⟨ho, ha, hs⟩ := reopen (E := E) (s := s) (d := d) (life_height_pos hl) (Db.flush_recov hd.blocks)
    (Db.flush_recov hd.heightReference) (Db.flush_recov hd.transactions) hd.config (Db.flush_recov hd.gas)
  refine ⟨ho, ha, fun o hor => ?_, fun h1 => ?_⟩
  · unfold Tree.getAmount
    rw [hs, seed_other (h := s.main.chain.height) (hor.imp id fun h e => h (Subtype.ext e)), show d.summary = s.summary.cur from Db.flush_recov hd.summary]
    rfl
  · unfold Tree.getAmount
    rw [hs]; exact seed_root h1

/-- The same after a clean shutdown. -/
theorem C58_flushed_close_partial (E : Env) (s : Tree) (hl : Life E (.idle s)) :
    ∃ d, d = (Op.flush.run E s).final.close ∧ (openTree E d).out = .ok () ∧ SameAnswers E s (openTree E d).final ∧
    (∀ o, s.main.getHeight.val ≠ 1 ∨ o ≠ ROOT_PUBLIC_ADDRESS → (openTree E d).final.getAmount o = s.getAmount o) := by
  obtain ⟨_, h1, h2, h3, _⟩ := C58_flushed_restart_partial E s _ hl (close_is_crash E _ (.call s .flush hl))
  exact ⟨_, rfl, h1, h2, h3⟩

/-- A node that has only its genesis block forgets what the root account has spent. -/
theorem C58_refuted :
    (∀ (E : Env) (s : Tree) (d : Disk), Life E (.idle s) → Crash (Op.flush.run E s).final d → s.main.getHeight.val = 1 →
      s.getAmount ROOT_PUBLIC_ADDRESS ≠ .ok COINS_PER_CYCLE →
      (openTree E d).final.getAmount ROOT_PUBLIC_ADDRESS ≠ s.getAmount ROOT_PUBLIC_ADDRESS) ∧ ¬ C58_full := by
  have key : ∀ (E : Env) (s : Tree) (d : Disk), Life E (.idle s) → Crash (Op.flush.run E s).final d →
      s.main.getHeight.val = 1 → s.getAmount ROOT_PUBLIC_ADDRESS ≠ .ok COINS_PER_CYCLE →
      (openTree E d).final.getAmount ROOT_PUBLIC_ADDRESS ≠ s.getAmount ROOT_PUBLIC_ADDRESS := by
    intro E s d hl hd h1 hne e
    rw [(C58_flushed_restart_partial E s d hl hd).2.2.2.2 h1] at e
    exact hne e.symm
  refine ⟨key, fun hf => ?_⟩
  have hl := Life.call _ (Op.setAmount ROOT_PUBLIC_ADDRESS.val U256.zero) (life_fresh zeroEnv)
  have hc := close_is_crash zeroEnv _ (Life.call _ Op.flush hl)
  have hs : ((Op.setAmount ROOT_PUBLIC_ADDRESS.val U256.zero).run zeroEnv (openTree zeroEnv Disk.empty).final).final =
      { (openTree zeroEnv Disk.empty).final with
        summary := (openTree zeroEnv Disk.empty).final.summary.insert ROOT_PUBLIC_ADDRESS.val (Ledger.encode U256.zero) } := by
    change (Tree.onSummary (Ledger.set _ _) _).final = _
    unfold Tree.onSummary
    rw [Act.zoom_run, Ledger.set_run]
  refine key _ _ _ hl hc ?_ ?_ ((hf _ _ _ hl hc).2.2 _)
  · rw [hs, (openTree_fresh zeroEnv).2]; rfl
  · rw [hs]
    unfold Tree.getAmount
    simp only
    rw [Db.get_insert, if_pos rfl, Ledger.balance_encode]
    intro e
    have := Outcome.ok.inj e
    have := congrArg U256.val this
    revert this
    decide

/-- Nodes above height 1 exist. -/
example : ∃ s, Life zeroEnv (.idle s) ∧ s.main.getHeight.val = 6 := by
  obtain ⟨s, _, h1, h2, _⟩ := steady 5 (by omega)
  exact ⟨s, run_life h1, h2⟩

/-! ## C59 -/

/-- The same answers to every query about a derivative chain. -/
structure SameDeriv (c c' : DerivativeChain) : Prop where
  height : c'.chain.height = c.chain.height
  difficulty : c'.chain.difficulty = c.chain.difficulty
  genesisHash : c'.genesisHash = c.genesisHash
  last : c'.getLastBlock = c.getLastBlock
  rawByHeight : ∀ q, c'.chain.findRawByHeight q = c.chain.findRawByHeight q
  byHeight : ∀ q, c'.findByHeight q = c.findByHeight q
  rawByHash : ∀ h, c'.chain.findRawByHash h = c.chain.findRawByHash h
  byHash : ∀ h, c'.findByHash h = c.findByHash h

theorem sameDeriv_of {c c' : DerivativeChain} (h1 : c'.chain.blocks.cur = c.chain.blocks.cur)
    (h2 : c'.chain.heightReference.cur = c.chain.heightReference.cur) (h3 : c'.chain.height = c.chain.height)
    (h4 : c'.chain.difficulty = c.chain.difficulty) (h5 : c'.genesisHash = c.genesisHash) : SameDeriv c c' := by
  have rh : ∀ q, c'.chain.findRawByHeight q = c.chain.findRawByHeight q := fun q => by
    unfold Chain.findRawByHeight Db.get; rw [h1, h3]
  have rr : ∀ h, c'.chain.findRawByHash h = c.chain.findRawByHash h := fun h => by
    unfold Chain.findRawByHash Chain.findRawByHeight Db.get; rw [h1, h2, h3]
  refine ⟨h3, h4, h5, ?_, rh, fun q => ?_, rr, fun h => ?_⟩
  · unfold DerivativeChain.getLastBlock DerivativeChain.getLastRawBlock
    rw [h3]; simp only [rh]
  · unfold DerivativeChain.findByHeight; rw [rh]
  · unfold DerivativeChain.findByHash; rw [rr]

/-- C59 at full strength. -/
def C59_full : Prop := ∀ (E : Env) (s : Tree) (o : Address), Life E (.idle s) → (s.derivMem o).isSome →
  ((Op.getDerivativeChain o).run E (openTree E (Op.flush.run E s).final.close).final).out = .ok () →
  (((Op.getDerivativeChain o).run E (openTree E (Op.flush.run E s).final.close).final).final.handle o).chain.height =
    (s.handle o).chain.height

theorem derivFlush_run {E : Env} {s : Tree} {o : Address} (h : ((Op.derivFlush o).run E s).out = .ok ()) :
    ∃ s1, (Tree.getDerivativeChain E o s).out = .ok () ∧ (Tree.getDerivativeChain E o s).final = s1 ∧
      ((Op.derivFlush o).run E s).final = Tree.putHandle o (s1.handle o).flushed s1 := by
  have e : (Op.derivFlush o).run E s = (Tree.getDerivativeChain E o >>= fun _ => Tree.onDeriv o DerivativeChain.flush) s := rfl
  rw [e] at h ⊢
  rcases Act.bind_cases (Tree.getDerivativeChain E o) (fun _ => Tree.onDeriv o DerivativeChain.flush) s with
    ⟨a, h1, h2, _, _⟩ | ⟨h1, _, _, h4⟩
  · refine ⟨_, h1, rfl, ?_⟩
    rw [h2]
    unfold Tree.onDeriv
    rw [Act.zoom_run]
    simp only
    rw [(DerivativeChain.flush_run _).2]
  · exact absurd h (h4 ())

theorem getDeriv_new {E : Env} {v : Tree} {o : Address} {c : DerivativeChain} {b : Block} (hm : v.derivMem o = none)
    (hb : v.main.getLastBlock = .ok (some b))
    (hn : DerivativeChain.new (b.hash E) (v.derivFiles (hexEncode o.val)).blocks
      (v.derivFiles (hexEncode o.val)).heightReference (v.derivFiles (hexEncode o.val)).config = .ok c) :
    Tree.getDerivativeChain E o v = ⟨.ok (), Tree.putHandle o c v, [Tree.putHandle o c v]⟩ := by
  unfold Tree.getDerivativeChain
  rw [Act.get_bind, hm]
  simp only [Option.isSome_none, Bool.false_eq_true, if_false, hb, Outcome.ofOption_some, Act.lift_ok_bind, hn,
    Act.step_run]

/-- Opening a derivative chain whose directory holds the state `c` was flushed in. -/
theorem getDeriv_saved {E : Env} {v : Tree} {o : Address} {c : DerivativeChain} {b : Block} (hm : v.derivMem o = none)
    (hb : v.main.getLastBlock = .ok (some b))
    (h1 : (v.derivFiles (hexEncode o.val)).blocks.cur = c.chain.blocks.cur)
    (h2 : (v.derivFiles (hexEncode o.val)).heightReference.cur = c.chain.heightReference.cur)
    (h3 : (v.derivFiles (hexEncode o.val)).config = some c.saved) :
    ((Op.getDerivativeChain o).run E v).out = .ok () ∧
    SameDeriv c (((Op.getDerivativeChain o).run E v).final.handle o) := by
  change (Tree.getDerivativeChain E o v).out = _ ∧ SameDeriv c ((Tree.getDerivativeChain E o v).final.handle o)
  have hn : DerivativeChain.new (b.hash E) (v.derivFiles (hexEncode o.val)).blocks
      (v.derivFiles (hexEncode o.val)).heightReference (v.derivFiles (hexEncode o.val)).config =
      .ok ⟨⟨(v.derivFiles (hexEncode o.val)).blocks, (v.derivFiles (hexEncode o.val)).heightReference, c.chain.height,
        c.chain.difficulty, (v.derivFiles (hexEncode o.val)).config⟩, c.genesisHash⟩ := by
    unfold DerivativeChain.new
    rw [h3, DerivativeChain.saved, DerivativeChain.readConfig_written]
    rfl
  rw [getDeriv_new hm hb hn]
  refine ⟨rfl, ?_⟩
  simp only [Tree.handle_put_self]
  exact sameDeriv_of h1 h2 rfl rfl rfl

/-- C59 for a derivative chain flushed itself: flushed together with the tree it is found again as it was, whatever
way the node is stopped, as long as the main chain's last block can be read. (Missing: `BlockChainTree::flush` alone
does not flush derivative chains.) -/
theorem C59_flushed_derivative_partial (E : Env) (s t : Tree) (o : Address) (d : Disk) (b : Block) (hl : Life E (.idle s))
    (hok : ((Op.derivFlush o).run E s).out = .ok ()) (ht : t = ((Op.derivFlush o).run E s).final)
    (hd : Crash (Op.flush.run E t).final d) (hb : t.main.getLastBlock = .ok (some b)) :
    (openTree E d).out = .ok () ∧ ((Op.getDerivativeChain o).run E (openTree E d).final).out = .ok () ∧
    SameDeriv (t.handle o) (((Op.getDerivativeChain o).run E (openTree E d).final).final.handle o) := by
  have hlt : Life E (.idle t) := by rw [ht]; exact .call s _ hl
  obtain ⟨_, h1, h2, _⟩ := C58_flushed_restart_partial E t d hlt hd
  refine ⟨h1, ?_⟩
  rw [(flush_op E t).2] at hd
  obtain ⟨s1, _, _, hf⟩ := derivFlush_run hok
  rw [← ht] at hf
  obtain ⟨d1, d2, d3⟩ := hd.deriv (hexEncode o.val)
  have hth : t.handle o = (s1.handle o).flushed := by rw [hf]; exact Tree.handle_put_self o _ _
  have hfiles : t.flushed.derivFiles (hexEncode o.val) = ⟨(s1.handle o).flushed.chain.blocks,
      (s1.handle o).flushed.chain.heightReference, (s1.handle o).flushed.chain.config⟩ := by
    rw [hf]; unfold Tree.putHandle Tree.flushed; simp
  rw [hfiles] at d1 d2 d3
  have e1 := Db.flush_recov d1
  have e2 := Db.flush_recov d2
  have hboot : ∀ n, (openTree E d).final.derivFiles n = d.boot.derivFiles n ∧ (openTree E d).final.derivMem o = none := by
    intro n
    rcases openTree_ok h1 with ⟨_, _, hc, hp⟩ | ⟨_, hc⟩
    · rw [(openTree_pos (E := E) hc hp).2]; exact ⟨rfl, rfl⟩
    · rw [(openTree_zero (E := E) hc).2]; exact ⟨rfl, rfl⟩
  refine getDeriv_saved (hboot []).2 (h2.last.trans hb) ?_ ?_ ?_
  · rw [(hboot _).1, hth]; exact e1
  · rw [(hboot _).1, hth]; exact e2
  · rw [(hboot _).1, hth]; exact d3

/-- A derivative block of height zero. -/
def exDerivBlock : DerivativeBlock := ⟨{ exInfo with height := U256.zero }⟩

/-- A fresh node with one block on a derivative chain. -/
theorem grownDeriv (E : Env) (o : Address) : ∃ t, Life E (.idle t) ∧ (t.handle o).chain.height.val = 1 ∧
    (t.derivMem o).isSome ∧ ∃ b, t.main.getLastBlock = .ok (some b) ∧
      (t.derivFiles (hexEncode o.val)).config = none := by
  obtain ⟨s, _, hs, _, ⟨b, _, hb, _⟩, _⟩ := C37_fresh_node E
  have hm : s.derivMem o = none := by rw [← hs, (openTree_fresh E).2]; rfl
  have hfl : s.derivFiles (hexEncode o.val) = DerivFiles.fresh := by rw [← hs, (openTree_fresh E).2]; rfl
  have hl : Life E (.idle s) := by rw [← hs]; exact life_fresh E
  have hn := DerivativeChain.new_fresh ((Block.summarize b).hash E)
  rw [← hfl] at hn
  have hg := getDeriv_new (E := E) hm hb hn
  refine ⟨_, .call s (.derivAddBlock o exDerivBlock) hl, ?_⟩
  rw [show (Op.derivAddBlock o exDerivBlock).run E s = (Tree.getDerivativeChain E o >>= fun _ =>
    Tree.onDeriv o (DerivativeChain.addBlock E exDerivBlock)) s from rfl, Act.bind_ok hg]
  unfold Tree.onDeriv
  rw [Act.zoom_run, Tree.handle_put_self]
  unfold DerivativeChain.addBlock DerivativeChain.onChain
  rw [Act.zoom_run]
  have ha := Chain.addBlock_right (E := E) (dump := exDerivBlock.dump)
    (s := ⟨Db.open' KV.empty, Db.open' KV.empty, U256.zero, BEGINNING_DIFFICULTY, none⟩) zero_add_one_lt
  simp only at ha
  simp only [show exDerivBlock.defaultInfo.height = U256.zero from rfl, ha, Tree.handle_put_self]
  refine ⟨rfl, ?_, Block.summarize b, hb, ?_⟩
  · rw [Tree.putHandle_mem_self]; rfl
  · unfold Tree.putHandle; simp [Chain.put3]

/-- A derivative chain that has blocks but was never flushed itself is empty after the restart, although the tree
was flushed. -/
theorem C59_refuted :
    (∀ (E : Env) (s : Tree) (o : Address) (d : Disk), Crash (Op.flush.run E s).final d →
      (s.derivFiles (hexEncode o.val)).config = none → (openTree E d).out = .ok () →
      ((Op.getDerivativeChain o).run E (openTree E d).final).out = .ok () →
      (((Op.getDerivativeChain o).run E (openTree E d).final).final.handle o).chain.height.val = 0) ∧ ¬ C59_full := by
  have key : ∀ (E : Env) (s : Tree) (o : Address) (d : Disk), Crash (Op.flush.run E s).final d →
      (s.derivFiles (hexEncode o.val)).config = none → (openTree E d).out = .ok () →
      ((Op.getDerivativeChain o).run E (openTree E d).final).out = .ok () →
      (((Op.getDerivativeChain o).run E (openTree E d).final).final.handle o).chain.height.val = 0 := by
    intro E s o d hd hn ho hok
    rw [(flush_op E s).2] at hd
    obtain ⟨_, _, d3⟩ := hd.deriv (hexEncode o.val)
    have d3' : (d.deriv (hexEncode o.val)).config = none := d3.trans hn
    have hboot : (openTree E d).final.derivFiles (hexEncode o.val) = d.boot.derivFiles (hexEncode o.val) ∧
        (openTree E d).final.derivMem o = none := by
      rcases openTree_ok ho with ⟨_, _, hc, hp⟩ | ⟨_, hc⟩
      · rw [(openTree_pos (E := E) hc hp).2]; exact ⟨rfl, rfl⟩
      · rw [(openTree_zero (E := E) hc).2]; exact ⟨rfl, rfl⟩
    obtain ⟨hbf, hbm⟩ := hboot
    change (Tree.getDerivativeChain E o _).out = _ at hok
    change ((Tree.getDerivativeChain E o _).final.handle o).chain.height.val = 0
    rcases Tree.getDeriv_cases E o (openTree E d).final with ⟨h, _⟩ | ⟨_, ⟨out, hout, e⟩ | ⟨b', c', hb', hc', e⟩⟩
    · rw [hbm] at h; cases h
    · rw [e] at hok; exact absurd hok (hout ())
    · rw [e]
      simp only [Tree.handle_put_self]
      rw [hbf] at hc'
      simp only [Disk.boot, d3'] at hc'
      have := Outcome.ok.inj hc'
      rw [← this]; rfl
  refine ⟨key, fun hf => ?_⟩
  obtain ⟨t, ht, h1, h2⟩ := grownDeriv zeroEnv ROOT_PUBLIC_ADDRESS
  have hlt := Life.call _ Op.flush ht
  have hc := close_is_crash zeroEnv _ hlt
  obtain ⟨_, ho, ha, _⟩ := C58_flushed_restart_partial zeroEnv t _ ht hc
  obtain ⟨hm, b, hb, hcfg⟩ := h2
  have hg : ((Op.getDerivativeChain ROOT_PUBLIC_ADDRESS).run zeroEnv
      (openTree zeroEnv (Op.flush.run zeroEnv t).final.close).final).out = .ok () := by
    change (Tree.getDerivativeChain _ _ _).out = _
    have hfl : (Op.flush.run zeroEnv t).final = t.flushed := (flush_op _ _).2
    have hboot : (openTree zeroEnv (Op.flush.run zeroEnv t).final.close).final.derivFiles =
        (Op.flush.run zeroEnv t).final.close.boot.derivFiles ∧
        (openTree zeroEnv (Op.flush.run zeroEnv t).final.close).final.derivMem ROOT_PUBLIC_ADDRESS = none := by
      rcases openTree_ok ho with ⟨_, _, hc, hp⟩ | ⟨_, hc⟩
      · rw [(openTree_pos (E := zeroEnv) hc hp).2]; exact ⟨rfl, rfl⟩
      · rw [(openTree_zero (E := zeroEnv) hc).2]; exact ⟨rfl, rfl⟩
    have hcf : ((openTree zeroEnv (Op.flush.run zeroEnv t).final.close).final.derivFiles
        (hexEncode ROOT_PUBLIC_ADDRESS.val)).config = none := by
      rw [hboot.1, hfl]; exact hcfg
    rw [getDeriv_new (c := ⟨⟨_, _, U256.zero, BEGINNING_DIFFICULTY, _⟩, _⟩) hboot.2 (ha.last.trans hb)
      (by rw [hcf]; rfl)]
  have e1 := key zeroEnv t ROOT_PUBLIC_ADDRESS _ hc hcfg ho hg
  have e2 := hf zeroEnv t ROOT_PUBLIC_ADDRESS ht hm hg
  rw [e2, h1] at e1
  cases e1

/-! ## C60 -/

/-- C60 at full strength. -/
def C60_full : Prop := ∀ (E : Env) (s : Tree) (f f' : Spec.Accounts) (n : Nat), Life E (.idle s) →
  (openTree E s.close).out = .ok () → Shows s.summary f → Shows (openTree E s.close).final.summary f' →
  Spec.Total f n → Spec.Total f' n

theorem opened_ledgers {E : Env} {d : Disk} (ho : (openTree E d).out = .ok ()) :
    (openTree E d).final.summary = seedSummary (openTree E d).final.main.getHeight (Db.open' d.summary) ∧
    (openTree E d).final.gas = Db.open' d.gas := by
  rcases openTree_ok ho with ⟨_, _, hc, hp⟩ | ⟨_, hc⟩
  · rw [(openTree_pos (E := E) hc hp).2]; exact ⟨rfl, rfl⟩
  · rw [(openTree_zero (E := E) hc).2]; exact ⟨rfl, rfl⟩

theorem shows_open {d : Db} {f : Spec.Accounts} (h : Shows d f) : Shows (Db.open' d.cur) f := h

/-- C60, exactly: closing and opening again changes no gas balance and, unless the node comes up with height 1, no
coin balance; with height 1 the root account's balance becomes `COINS_PER_CYCLE` and the others are kept. (Missing:
at height 1 the sum changes by what the root account had spent or gained.) -/
theorem C60_restart_partial (E : Env) (s : Tree) (f g : Spec.Accounts) (n : Nat) (hl : Life E (.idle s))
    (ho : (openTree E s.close).out = .ok ()) (hf : Shows s.summary f) (hg : Shows s.gas g) (hn : Spec.Total f n) :
    Shows (openTree E s.close).final.gas g ∧
    ((openTree E s.close).final.main.getHeight.val ≠ 1 → Shows (openTree E s.close).final.summary f) ∧
    ((openTree E s.close).final.main.getHeight.val = 1 →
      Shows (openTree E s.close).final.summary (f.update ROOT_PUBLIC_ADDRESS.val 50010000000000000000000000) ∧
      ∃ m, Spec.Total (f.update ROOT_PUBLIC_ADDRESS.val 50010000000000000000000000) m ∧
        m + f ROOT_PUBLIC_ADDRESS.val = n + 50010000000000000000000000) := by
  have hi : StoreInv E s := life_storeInv hl
  obtain ⟨h1, h2⟩ := opened_ledgers ho
  refine ⟨by rw [h2]; exact hg, fun hh => ?_, fun hh => ?_⟩
  · rw [h1]
    unfold seedSummary
    rw [if_neg (fun e => hh (by rw [e]; rfl))]
    exact hf
  · have e : (openTree E s.close).final.main.getHeight = U256.one := U256.ext hh
    have hs : Shows (openTree E s.close).final.summary (f.update ROOT_PUBLIC_ADDRESS.val 50010000000000000000000000) := by
      rw [h1]
      unfold seedSummary
      rw [if_pos e, shows_eq hf]
      exact shows_insert (d := Db.open' s.summary.cur) hi.summary.1 ROOT_PUBLIC_ADDRESS.val COINS_PER_CYCLE
    refine ⟨hs, _, supply_total ?_ hs, ?_⟩
    · rw [h1]
      unfold seedSummary
      rw [if_pos e]
      exact hi.summary.1.insert _ _
    · rw [h1]
      unfold seedSummary
      rw [if_pos e, (total_iff hi.summary.1 hf).mp hn, shows_eq hf]
      exact s.summary.cur.supply_insert ROOT_PUBLIC_ADDRESS.val COINS_PER_CYCLE

/-- The root account of a fresh node sends coins away; after a restart it has all of them again: coins are created. -/
theorem C60_refuted :
    (∀ (E : Env) (x : Bytes) (a : U256), x ≠ ROOT_PUBLIC_ADDRESS.val → a.val ≤ 50010000000000000000000000 →
      ∃ s f f', Life E (.idle s) ∧ s = ((Op.sendAmount ROOT_PUBLIC_ADDRESS.val x a).run E (openTree E Disk.empty).final).final ∧
        Shows s.summary f ∧ Spec.Total f 50010000000000000000000000 ∧ (openTree E s.close).out = .ok () ∧
        Shows (openTree E s.close).final.summary f' ∧ Spec.Total f' (50010000000000000000000000 + a.val)) ∧ ¬ C60_full := by
  have key : ∀ (E : Env) (x : Bytes) (a : U256), x ≠ ROOT_PUBLIC_ADDRESS.val → a.val ≤ 50010000000000000000000000 →
      ∃ s f f', Life E (.idle s) ∧ s = ((Op.sendAmount ROOT_PUBLIC_ADDRESS.val x a).run E (openTree E Disk.empty).final).final ∧
        Shows s.summary f ∧ Spec.Total f 50010000000000000000000000 ∧ (openTree E s.close).out = .ok () ∧
        Shows (openTree E s.close).final.summary f' ∧ Spec.Total f' (50010000000000000000000000 + a.val) := by
    intro E x a hx ha
    obtain ⟨n, hn⟩ : ∃ n, n = 50010000000000000000000000 := ⟨_, rfl⟩
    obtain ⟨h1, _, _, h4⟩ := C47_coin_call E _ (.sendAmount ROOT_PUBLIC_ADDRESS.val x a) _ _ .fresh rfl (C47_start E).1
    obtain ⟨s, hs⟩ : ∃ s, s = ((Op.sendAmount ROOT_PUBLIC_ADDRESS.val x a).run E (openTree E Disk.empty).final).final :=
      ⟨_, rfl⟩
    rw [← hs] at h1 h4
    have hl : Life E (.idle s) := by rw [hs]; exact .call _ _ (life_fresh E)
    obtain ⟨f, hf⟩ : ∃ f, f = (Spec.LedgerCall.send ROOT_PUBLIC_ADDRESS.val x a.val).run
      (Spec.Accounts.update (fun _ => 0) ROOT_PUBLIC_ADDRESS.val 50010000000000000000000000) := ⟨_, rfl⟩
    rw [← hf] at h1
    rw [← hn] at hf ha
    have hlt : n < 2 ^ 256 := by rw [hn]; decide
    have hff : f = ((Spec.Accounts.update (fun _ => 0) ROOT_PUBLIC_ADDRESS.val n).update ROOT_PUBLIC_ADDRESS.val
        (n - a.val)).update x a.val := by
      rw [hf]
      unfold Spec.LedgerCall.run
      rw [Spec.LedgerCall.apply_send, if_neg (Ne.symm hx), if_pos]
      · simp only [Option.getD_some]
        congr 1
        simp [Spec.Accounts.update, hx]
      · simp only [Spec.Accounts.update]
        rw [if_pos trivial, if_neg hx]
        omega
    have hfr : f ROOT_PUBLIC_ADDRESS.val = n - a.val := by
      rw [hff]; simp only [Spec.Accounts.update]; rw [if_neg (Ne.symm hx), if_pos trivial]
    have hfx : f x = a.val := by rw [hff]; simp [Spec.Accounts.update]
    have hfo : ∀ q, f q ≠ 0 → q ∈ [ROOT_PUBLIC_ADDRESS.val, x] := by
      intro q hq
      rw [hff] at hq
      simp only [Spec.Accounts.update] at hq
      by_cases e1 : q = x
      · rw [e1]; simp
      · rw [if_neg e1] at hq
        by_cases e2 : q = ROOT_PUBLIC_ADDRESS.val
        · rw [e2]; simp
        · rw [if_neg e2, if_neg e2] at hq; exact absurd rfl hq
    have htot : Spec.Total f n := ⟨[ROOT_PUBLIC_ADDRESS.val, x], by
      rw [List.nodup_cons]; exact ⟨by simp only [List.mem_singleton]; exact Ne.symm hx, by simp⟩, hfo, by
      simp only [List.map_cons, List.map_nil, List.sum_cons, List.sum_nil, hfr, hfx]; omega⟩
    have hc : s.main.chain.config = none := by rw [h4, (openTree_fresh E).2]; rfl
    have hrc : MainChain.readConfig s.close.config = .ok (U256.zero, BEGINNING_DIFFICULTY) := by
      show MainChain.readConfig s.main.chain.config = _
      rw [hc]; rfl
    obtain ⟨ho, hfin⟩ := openTree_zero (E := E) hrc
    have hh : (openTree E s.close).final.main.getHeight.val = 1 := by rw [hfin]; rfl
    obtain ⟨g, hg⟩ : ∃ g, Shows s.gas g := ⟨_, shows_amt (life_storeInv hl).gas.1⟩
    obtain ⟨k1, m, k2, k3⟩ := (C60_restart_partial E s f g n hl ho h1 hg htot).2.2 hh
    rw [← hn]
    rw [← hn] at k1 k2 k3
    refine ⟨s, f, _, hl, hs, h1, htot, ho, k1, ?_⟩
    have : m = n + a.val := by omega
    rw [← this]; exact k2
  refine ⟨key, fun hf => ?_⟩
  obtain ⟨s, f, f', hl, _, h1, h2, h3, h4, h5⟩ := key zeroEnv exA U256.one (by decide) (by decide)
  have := (hf zeroEnv s f f' _ hl h3 h1 h4 h2).unique h5
  revert this
  decide

/-- Some node comes up with another height than 1. -/
example : ∃ s, Life zeroEnv (.idle s) ∧ (openTree zeroEnv s.close).out = .ok () ∧
    (openTree zeroEnv s.close).final.main.getHeight.val = 6 := by
  obtain ⟨s, _, h1, h2, _⟩ := steady 5 (by omega)
  have hl := run_life h1
  obtain ⟨_, ho, ha, _⟩ := C58_flushed_restart_partial zeroEnv s _ hl (close_is_crash zeroEnv _ (.call s .flush hl))
  exact ⟨_, .call s .flush hl, ho, by rw [ha.height]; exact h2⟩

end BCT.Props
