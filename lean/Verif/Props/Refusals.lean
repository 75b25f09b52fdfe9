import Verif.Props.DerivCrash
import Verif.Props.Panics
/-!
# C172: refusals

For each public call (`Op`, blockchaintree.rs and chain.rs) and each error the exact condition under which the call
returns it, on every node that any calls, kills and restarts can lead to (`Life`); and what such a call leaves behind.
Together with C163 (undefined behaviour) and C164 (panics) this settles which calls succeed.
-/

namespace BCT.Props
open BCT

/-! ## Errors and sequencing -/

section
variable {σ τ α β : Type}

theorem err_seq (x : Act σ α) (f : α → Act σ β) (s : σ) (e : Err) :
    ((x >>= f) s).out = .err e ↔ (x s).out = .err e ∨ ∃ a, (x s).out = .ok a ∧ (f a (x s).final).out = .err e := by
  rw [Act.bind_def]
  unfold Act.bind
  cases h : (x s).out <;> simp

theorem err_lift (o : Outcome α) (f : α → Act σ β) (s : σ) (e : Err) :
    ((Act.lift o >>= f) s).out = .err e ↔ o = .err e ∨ ∃ a, o = .ok a ∧ (f a s).out = .err e := by
  rw [err_seq]; rfl

/-- Calls that never return an error, in any state. -/
def Willing (x : Act σ α) : Prop := ∀ s e, (x s).out ≠ .err e

theorem willing_step (f : σ → σ) : Willing (Act.step f) := fun _ _ h => by cases h
theorem willing_pure (a : α) : Willing (Pure.pure a : Act σ α) := fun _ _ h => by cases h
theorem willing_bind {x : Act σ α} {f : α → Act σ β} (hx : Willing x) (hf : ∀ a, Willing (f a)) : Willing (x >>= f) := fun s e h => by
  rcases (err_seq x f s e).mp h with h | ⟨a, _, h⟩
  · exact hx s e h
  · exact hf a _ e h
theorem willing_zoom {part : τ → σ} {put : σ → τ → τ} {x : Act σ α} (hx : Willing x) : Willing (x.zoom part put) :=
  fun t => hx (part t)
theorem willing_forEach {l : List β} {f : β → Act σ Unit} (h : ∀ b, Willing (f b)) : Willing (Act.forEach l f) := by
  induction l with
  | nil => exact willing_pure ()
  | cons b l ih => exact willing_bind (h b) fun _ => ih
end

theorem willing_transact (c : KV → Outcome KV) : Willing (Ledger.transact c) := fun d e h => by
  unfold Ledger.transact at h
  rw [Act.get_bind, err_lift] at h
  rcases h with h | ⟨_, _, h⟩
  · cases hc : c d.cur <;> rw [hc] at h <;> cases h
  · cases h

theorem willing_mainFlush : Willing (Tree.onMain MainChain.flush) := willing_zoom
  (willing_bind (willing_bind (willing_step _) fun _ => willing_bind (willing_step _) fun _ => willing_step _) fun _ =>
    willing_bind (willing_step _) fun _ => willing_bind (willing_step _) fun _ => willing_step _)

theorem willing_derivFlush (o : Address) : Willing (Tree.onDeriv o DerivativeChain.flush) := willing_zoom
  (willing_bind (willing_bind (willing_step _) fun _ => willing_bind (willing_step _) fun _ =>
    willing_bind (willing_step _) fun _ => willing_step _) fun _ => willing_bind (willing_step _) fun _ => willing_step _)

theorem willing_flush : Willing Tree.flush := willing_bind willing_mainFlush fun _ => willing_bind (willing_step _) fun _ =>
  willing_bind (willing_step _) fun _ => willing_bind (willing_step _) fun _ => willing_step _

theorem willing_addTransactions (E : Env) (ts : List Transaction) : Willing (Tree.onMain (MainChain.addTransactions E ts)) :=
  willing_zoom (willing_forEach fun _ => willing_step _)

theorem willing_sendAmount (o o' : Bytes) (a : U256) : Willing (Tree.sendAmount o o' a) := by
  unfold Tree.sendAmount
  split
  · exact willing_pure ()
  · exact willing_zoom (willing_transact _)

/-! ## Causes -/

/-- The last entry of the main chain is a derivative block, which `get_last_block` cannot read. -/
def Alien (s : Tree) : Prop := ∃ b : DerivativeBlock, s.main.getLastRawBlock = .ok (some b.dump)

/-- The config file of an owner's derivative chain was cut short. -/
def CutShort (s : Tree) (o : Address) : Prop :=
  ∃ file, (s.derivFiles (hexEncode o.val)).config = some file ∧ file.length < 96

/-- The chain of an owner is not open and cannot be opened. -/
def Unopenable (s : Tree) (o : Address) (e : Err) : Prop := s.derivMem o = none ∧
  (Alien s ∧ e = .chainFindByHeight ∨ (∃ b, s.main.getLastBlock = .ok (some b)) ∧ CutShort s o ∧ e = .chainInit)

/-- The calls that are refused with the error `e`, on a node with balances `f` in coins and `g` in gas. -/
def Op.Refuses (E : Env) (s : Tree) (f g : Spec.Accounts) (e : Err) : Op → Prop
  | .addBlock b => b.info.height ≠ s.main.getHeight ∧ e = .chainAddingBlock
  | .addNewBlock b _ => b.info.height ≠ s.main.getHeight ∧ e = .chainAddingBlock
  | .sendTransaction t => 625000000000 * t.getDumpSize < 2 ^ 256 ∧
      (g t.sender.val < 625000000000 * t.getDumpSize ∧ e = .treeNewTransaction ∨
        625000000000 * t.getDumpSize ≤ g t.sender.val ∧
          (Alien s ∧ e = .chainFindByHeight ∨ ∃ b, s.main.getLastBlock = .ok (some b) ∧
            Spec.fee b.info.difficulty + t.amount.val < 2 ^ 256 ∧
            f t.sender.val < Spec.fee b.info.difficulty + t.amount.val ∧ e = .treeNewTransaction))
  | .emitMain p _ txs ts => Alien s ∧ e = .chainFindByHeight ∨ ∃ b, s.main.getLastBlock = .ok (some b) ∧
      (Spec.enoughWork E (E.sha256 b.dump) b.info.difficulty txs p = false ∧ e = .treeWrongPow ∨
        Spec.enoughWork E (E.sha256 b.dump) b.info.difficulty txs p = true ∧ ¬ OutOfTime E b.info ts ∧ ¬ AtRisk E b.info ts ∧
          (s.main.getHeight.val % 1000000 = 0 ∧ txs ≠ [] ∧ e = .treeSummarizeBlockWrongTransactionsAmount ∨
            s.main.getHeight.val % 1000000 ≠ 0 ∧ txs = [] ∧ e = .treeCreateMainChainBlock))
  | .emitDerivative p o ts => Unopenable s o e ∨ (Tree.getDerivativeChain E o s).out = .ok () ∧
      let c := (Tree.getDerivativeChain E o s).final.handle o
      ((∃ b, c.getLastBlock = .ok (some b) ∧ Spec.enoughWork E (E.sha256 b.dump) b.defaultInfo.difficulty [] p = false ∧
          e = .treeWrongPow) ∨
        c.getLastBlock = .ok none ∧
          (s.main.findRawByHash c.genesisHash = .ok none ∧ e = .chainFindByHashE ∨
            (∃ b : DerivativeBlock, s.main.findRawByHash c.genesisHash = .ok (some b.dump)) ∧ e = .chainFindByHeight ∨
            ∃ b, s.main.findByHash c.genesisHash = .ok (some b) ∧
              (Spec.enoughWork E (E.sha256 b.dump) BEGINNING_DIFFICULTY [] p = false ∧ e = .treeWrongPow ∨
                Spec.enoughWork E (E.sha256 b.dump) BEGINNING_DIFFICULTY [] p = true ∧
                  ¬ (E.overflowChecks = true ∧ ts.toNat < b.info.timestamp.toNat) ∧ c.chain.height.val ≠ 0 ∧
                  e = .chainAddingBlock)))
  | .getDerivativeChain o => Unopenable s o e
  | .derivAddBlock o b => Unopenable s o e ∨ (Tree.getDerivativeChain E o s).out = .ok () ∧
      b.defaultInfo.height ≠ ((Tree.getDerivativeChain E o s).final.handle o).chain.height ∧ e = .chainAddingBlock
  | .derivFlush o => Unopenable s o e
  | _ => False

/-! ## Reading -/

theorem decode_alien (b : DerivativeBlock) : MainChain.decode (some b.dump) = .err .chainFindByHeight := by
  obtain ⟨e, he⟩ := deserialize_foreign Headers.derivativeBlock.toU8 (b.dump.drop 1) (by decide) (by decide)
  have : b.dump = Headers.derivativeBlock.toU8 :: b.dump.drop 1 := by
    rw [DerivativeBlock.dump_eq]; rfl
  rw [this]
  unfold MainChain.decode
  simp only [he]
  rfl

/-- Reading an entry of the main chain fails exactly if it is a derivative block. -/
theorem MainKept.read_err {m : KV} (h : MainKept m) (k : Bytes) (e : Err) :
    MainChain.decode (m.get k) = .err e ↔ (∃ b : DerivativeBlock, m.get k = some b.dump) ∧ e = .chainFindByHeight := by
  constructor
  · intro hd
    cases hv : m.get k with
    | none => rw [hv] at hd; cases hd
    | some v =>
      obtain ⟨b, rfl, -, h0⟩ := h k v hv
      rw [hv] at hd
      cases b with
      | derivative t =>
        refine ⟨⟨t, rfl⟩, ?_⟩
        rw [show (Block.derivative t).dump = t.dump from rfl, decode_alien] at hd
        cases hd; rfl
      | transaction t =>
        have := deserialize_transaction t (h0.resolve_right fun h => h t rfl)
        unfold MainChain.decode at hd
        rw [show (Block.transaction t).dump = t.dump from rfl] at hd
        simp only [this, Outcome.mapErr_ok, Outcome.ok_bind] at hd
        cases hd
      | summarize t =>
        have := deserialize_summarize t
        unfold MainChain.decode at hd
        rw [show (Block.summarize t).dump = t.dump from rfl] at hd
        simp only [this, Outcome.mapErr_ok, Outcome.ok_bind] at hd
        cases hd
  · rintro ⟨⟨b, hb⟩, rfl⟩
    rw [hb, decode_alien]

theorem UpShelved.last_err {s : Tree} (h : UpShelved s) (e : Err) :
    s.main.getLastBlock = .err e ↔ Alien s ∧ e = .chainFindByHeight := by
  obtain ⟨i, hi, hv⟩ : ∃ i : U256, s.main.chain.height.sub U256.one = .ok i ∧ i.val + 1 = s.main.chain.height.val := by
    have hp := h.pos
    unfold U256.sub
    refine ⟨⟨s.main.chain.height.val - 1, by have := s.main.chain.height.lt; omega⟩, ?_, by simp; omega⟩
    rw [if_pos (show U256.one.val ≤ s.main.chain.height.val from hp)]
    rfl
  unfold Alien MainChain.getLastBlock MainChain.getLastRawBlock MainChain.findRawByHeight
  simp only [hi, Outcome.ok_bind, Outcome.ok.injEq]
  rcases findRaw_cases s.main.chain i with k | k
  · rw [k]; simp [MainChain.decode]
  · rw [k]; exact h.shelved.main.1.read_err _ e

theorem UpShelved.found_err {s : Tree} (h : UpShelved s) (x : Hash) (e : Err) :
    s.main.findByHash x = .err e ↔
      (∃ b : DerivativeBlock, s.main.findRawByHash x = .ok (some b.dump)) ∧ e = .chainFindByHeight := by
  unfold MainChain.findByHash MainChain.findRawByHash
  obtain ⟨r, k, hr⟩ := findRawByHash_kept h.shelved.refs x
  rw [k]
  simp only [Outcome.ok_bind, Outcome.ok.injEq]
  rcases hr with rfl | ⟨q, rfl⟩
  · simp [MainChain.decode]
  · exact h.shelved.main.1.read_err _ e

theorem found_none (m : MainChain) (x : Hash) : m.findByHash x = .ok none ↔ m.findRawByHash x = .ok none := by
  unfold MainChain.findByHash
  cases h : m.findRawByHash x with
  | ok r =>
    cases r with
    | none => simp [MainChain.decode]
    | some v =>
      simp only [Outcome.ok_bind, MainChain.decode, Outcome.ok.injEq, reduceCtorEq, iff_false]
      cases deserializeMainChainBlock v <;> simp
  | err e => simp
  | panic e => simp
  | ub => simp

/-- The last block of a derivative chain can always be read. -/
theorem UpShelved.derivLast_err {s : Tree} (h : UpShelved s) (o : Address) (e : Err) : (s.handle o).getLastBlock ≠ .err e := by
  have hk : (s.handle o).chain.blocks.All DerivKept := h.shelved.deriv _
  generalize s.handle o = c at hk
  intro hl
  unfold DerivativeChain.getLastBlock DerivativeChain.getLastRawBlock at hl
  split at hl
  · cases hl
  · cases hs : c.chain.height.sub U256.one with
    | ok i =>
      rw [hs, Outcome.ok_bind, Outcome.ok_bind] at hl
      rcases findRaw_cases c.chain i with k | k
      · rw [k] at hl; cases hl
      · rw [k] at hl
        cases hv : c.chain.blocks.cur.get i.toBE.val with
        | none => rw [hv] at hl; cases hl
        | some v =>
          obtain ⟨b, rfl, -⟩ := hk.1 _ v hv
          rw [hv, derivDecode_kept] at hl
          cases hl
    | err x =>
      unfold U256.sub at hs
      split at hs <;> cases hs
    | panic x => rw [hs] at hl; cases hl
    | ub => rw [hs] at hl; cases hl

/-! ## The calls -/

theorem mainAdd_err (E : Env) (b : Block) (s : Tree) (e : Err) :
    (Tree.onMain (MainChain.addBlock E b) s).out = .err e ↔ b.info.height ≠ s.main.getHeight ∧ e = .chainAddingBlock := by
  show (Chain.addBlock E b.info.height b.dump s.main.chain).out = _ ↔ b.info.height ≠ s.main.chain.height ∧ _
  by_cases hb : b.info.height = s.main.chain.height
  · rw [hb]
    by_cases hm : s.main.chain.height.val + 1 < U256.size
    · rw [Chain.addBlock_right hm]; simp
    · rw [Chain.addBlock_max hm]; simp
  · rw [Chain.addBlock_wrong hb]; simp [hb, eq_comm]

theorem mainAdd_refused (E : Env) {b : Block} {s : Tree} (h : b.info.height ≠ s.main.getHeight) :
    Tree.onMain (MainChain.addBlock E b) s = ⟨.err .chainAddingBlock, s, []⟩ := by
  unfold Tree.onMain MainChain.addBlock MainChain.onChain
  rw [Act.zoom_run, Act.zoom_run, Chain.addBlock_wrong h]
  rfl

theorem derivAdd_err (E : Env) (o : Address) (b : DerivativeBlock) (s : Tree) (e : Err) :
    (Tree.onDeriv o (DerivativeChain.addBlock E b) s).out = .err e ↔
      b.defaultInfo.height ≠ (s.handle o).chain.height ∧ e = .chainAddingBlock := by
  show (Chain.addBlock E b.defaultInfo.height b.dump (s.handle o).chain).out = _ ↔ _
  by_cases hb : b.defaultInfo.height = (s.handle o).chain.height
  · rw [hb]
    by_cases hm : (s.handle o).chain.height.val + 1 < U256.size
    · rw [Chain.addBlock_right hm]; simp
    · rw [Chain.addBlock_max hm]; simp
  · rw [Chain.addBlock_wrong hb]; simp [hb, eq_comm]

/-- What an open chain is made of is where it was. -/
theorem putHandle_handle {o : Address} {s : Tree} (h : (s.derivMem o).isSome = true) : Tree.putHandle o (s.handle o) s = s := by
  obtain ⟨m, hm⟩ := Option.isSome_iff_exists.mp h
  unfold Tree.putHandle Tree.handle
  cases s with
  | mk a b c d e f g =>
    simp only at hm
    simp only [Tree.mk.injEq, true_and]
    constructor
    · funext n
      split
      · rename_i e; rw [e]
      · rfl
    · funext a
      split
      · rename_i e; rw [e, hm]; rfl
      · rfl

theorem derivAdd_refused (E : Env) {o : Address} {b : DerivativeBlock} {s : Tree} (ho : (s.derivMem o).isSome = true)
    (h : b.defaultInfo.height ≠ (s.handle o).chain.height) :
    Tree.onDeriv o (DerivativeChain.addBlock E b) s = ⟨.err .chainAddingBlock, s, []⟩ := by
  unfold Tree.onDeriv DerivativeChain.addBlock DerivativeChain.onChain
  rw [Act.zoom_run, Act.zoom_run, Chain.addBlock_wrong h]
  show Res.mk _ (Tree.putHandle o (s.handle o) s) _ = _
  rw [putHandle_handle ho]
  rfl

theorem derivNew_err (x : Hash) (d d' : Db) (c : Option Bytes) (e : Err) :
    DerivativeChain.new x d d' c = .err e ↔ (∃ file, c = some file ∧ file.length < 96) ∧ e = .chainInit := by
  unfold DerivativeChain.new DerivativeChain.readConfig
  cases c with
  | none => simp
  | some file =>
    simp only [Option.some.injEq, exists_eq_left']
    split
    · split
      · split
        · rename_i h
          have : U256.fromBE (file.take 32) = .ok ⟨beNat (file.take 32), beNat_lt_size _ (by rw [List.length_take]; omega)⟩ := by
            unfold U256.fromBE; rw [dif_pos (by rw [List.length_take]; omega)]
          rw [this]
          simp only [Outcome.ok_bind, reduceCtorEq, false_iff]
          omega
        · simp only [Outcome.err_bind, Outcome.err.injEq]
          exact ⟨fun h => ⟨by omega, h.symm⟩, fun h => h.2.symm⟩
      · simp only [Outcome.err_bind, Outcome.err.injEq]
        exact ⟨fun h => ⟨by omega, h.symm⟩, fun h => h.2.symm⟩
    · simp only [Outcome.err_bind, Outcome.err.injEq]
      exact ⟨fun h => ⟨by omega, h.symm⟩, fun h => h.2.symm⟩

theorem getDeriv_err (E : Env) {s : Tree} (hu : UpShelved s) (o : Address) (e : Err) :
    (Tree.getDerivativeChain E o s).out = .err e ↔ Unopenable s o e := by
  unfold Tree.getDerivativeChain Unopenable
  rw [Act.get_bind]
  cases hm : s.derivMem o with
  | some m => simp
  | none =>
    simp only [Option.isSome_none, Bool.false_eq_true, if_false, true_and]
    rw [err_lift, hu.last_err]
    refine or_congr Iff.rfl ?_
    constructor
    · rintro ⟨l, hl, h⟩
      cases l with
      | none => cases h
      | some b =>
        simp only [Outcome.ofOption_some, Act.lift_ok_bind] at h
        rw [err_lift, derivNew_err] at h
        rcases h with h | ⟨_, _, h⟩
        · exact ⟨⟨b, hl⟩, h⟩
        · cases h
    · rintro ⟨⟨b, hl⟩, h⟩
      refine ⟨some b, hl, ?_⟩
      simp only [Outcome.ofOption_some, Act.lift_ok_bind]
      rw [err_lift, derivNew_err]
      exact .inl h

/-- After opening the chain is open. -/
theorem getDeriv_isOpen {E : Env} {o : Address} {s : Tree} (h : (Tree.getDerivativeChain E o s).out = .ok ()) :
    ((Tree.getDerivativeChain E o s).final.derivMem o).isSome = true := by
  rcases Tree.getDeriv_cases E o s with ⟨k1, k⟩ | ⟨_, ⟨out, hn, k⟩ | ⟨_, _, _, _, k⟩⟩
  · rw [k]; exact k1
  · rw [k] at h; exact absurd h (hn ())
  · rw [k]; simp [Tree.putHandle]

/-- Sending a transaction: when it is refused, and that nothing happened then. -/
theorem sendTx_err (E : Env) {s : Tree} (hu : UpShelved s) (hs : StoreInv E s) (t : Transaction) (e : Err) :
    ((Tree.sendTransaction E t s).out = .err e → Op.Refuses E s (fun k => (s.summary.cur.amt k).val)
      (fun k => (s.gas.cur.amt k).val) e (.sendTransaction t)) ∧
    (Op.Refuses E s (fun k => (s.summary.cur.amt k).val) (fun k => (s.gas.cur.amt k).val) e (.sendTransaction t) →
      Tree.sendTransaction E t s = ⟨.err e, s, []⟩) := by
  have hgas : s.getGas t.sender = .ok (s.gas.cur.amt t.sender.val) := hs.gas.1.balance _
  have hcoin : s.getAmount t.sender = .ok (s.summary.cur.amt t.sender.val) := hs.summary.1.balance _
  have hsz : U256.size = 2 ^ 256 := rfl
  have hcost : gasCost t = 625000000000 * t.getDumpSize := rfl
  simp only [Op.Refuses]
  by_cases hmul : gasCost t < U256.size
  · have hm : BYTE_GAS_PRICE.mulNat t.getDumpSize = .ok ⟨gasCost t, hmul⟩ := by
      unfold U256.mulNat; exact dif_pos hmul
    have h0 : 625000000000 * t.getDumpSize < 2 ^ 256 := hmul
    by_cases hg : (s.gas.cur.amt t.sender.val).val < gasCost t
    · have hrun : Tree.sendTransaction E t s = ⟨.err .treeNewTransaction, s, []⟩ := by
        unfold Tree.sendTransaction
        simp only [Act.get_bind, hgas, hcoin, hm, Act.lift_ok_bind]
        rw [if_pos hg]
        rfl
      rw [hrun]
      constructor
      · intro h; cases h
        exact ⟨h0, .inl ⟨hg, rfl⟩⟩
      · rintro ⟨-, ⟨-, rfl⟩ | ⟨h, -⟩⟩
        · rfl
        · exact absurd hg (by rw [hcost]; omega)
    · have hg' : 625000000000 * t.getDumpSize ≤ (s.gas.cur.amt t.sender.val).val := Nat.not_lt.mp hg
      have hrun : Tree.sendTransaction E t s = (do
          let last ← Act.lift s.main.getLastBlock
          let lastBlock ← Act.lift (Outcome.ofOption last)
          let fee ← Act.lift (recalculateFee lastBlock.info.difficulty)
          let needed ← Act.lift (fee.add t.amount)
          if (s.summary.cur.amt t.sender.val).val < needed.val then Act.lift (.err .treeNewTransaction)
          else Tree.sendChecked E t ⟨gasCost t, hmul⟩ : Act Tree Unit) s := by
        unfold Tree.sendTransaction
        simp only [Act.get_bind, hgas, hcoin, hm, Act.lift_ok_bind]
        rw [if_neg hg]
        rfl
      rw [hrun]
      clear hrun
      have hg2 : ¬ (s.gas.cur.amt t.sender.val).val < 625000000000 * t.getDumpSize := hg
      cases hl : s.main.getLastBlock with
      | panic p => exact absurd ⟨p, hl⟩ hu.reads.1.1
      | ub => exact absurd hl (ne_ub_last _)
      | err x =>
        obtain ⟨ha, rfl⟩ := (hu.last_err x).mp hl
        simp only [Act.lift_err_bind]
        constructor
        · intro h; cases h
          exact ⟨h0, .inr ⟨hg', .inl ⟨ha, rfl⟩⟩⟩
        · rintro ⟨-, ⟨h, -⟩ | ⟨-, ⟨-, rfl⟩ | ⟨b, h, -⟩⟩⟩
          · exact absurd h hg2
          · rfl
          · cases h
      | ok l =>
        have hna : ¬ Alien s := fun ha => by
          have := (hu.last_err .chainFindByHeight).mpr ⟨ha, rfl⟩
          rw [hl] at this; cases this
        cases l with
        | none =>
          simp only [Act.lift_ok_bind, Outcome.ofOption_none, Act.lift_panic_bind]
          constructor
          · intro h; cases h
          · rintro ⟨-, ⟨h, -⟩ | ⟨-, ⟨h, -⟩ | ⟨b, h, -⟩⟩⟩
            · exact absurd h hg2
            · exact absurd h hna
            · cases h
        | some b =>
          simp only [Act.lift_ok_bind, Outcome.ofOption_some, fee_spec]
          by_cases hadd : Spec.fee b.info.difficulty + t.amount.val < U256.size
          · have ha : (⟨Spec.fee b.info.difficulty, fee_lt _⟩ : U256).add t.amount = .ok ⟨_, hadd⟩ := by
              unfold U256.add; exact dif_pos hadd
            simp only [ha, Act.lift_ok_bind]
            by_cases hc : (s.summary.cur.amt t.sender.val).val < Spec.fee b.info.difficulty + t.amount.val
            · rw [if_pos hc]
              constructor
              · intro h; cases h
                exact ⟨h0, .inr ⟨hg', .inr ⟨b, rfl, hadd, hc, rfl⟩⟩⟩
              · rintro ⟨-, ⟨-, rfl⟩ | ⟨-, ⟨h, -⟩ | ⟨b', -, -, -, rfl⟩⟩⟩
                · rfl
                · exact absurd h hna
                · rfl
            · rw [if_neg hc]
              constructor
              · intro h
                exact absurd h (willing_bind (willing_zoom (willing_step _)) (fun _ =>
                  willing_bind (willing_sendAmount _ _ _) fun _ => willing_zoom (willing_transact _)) s e)
              · rintro ⟨-, ⟨h, -⟩ | ⟨-, ⟨h, -⟩ | ⟨b', h, -, h', -⟩⟩⟩
                · exact absurd h hg2
                · exact absurd h hna
                · cases h; exact absurd h' hc
          · have ha : (⟨Spec.fee b.info.difficulty, fee_lt _⟩ : U256).add t.amount = .panic .overflow := by
              unfold U256.add; exact dif_neg hadd
            simp only [ha, Act.lift_panic_bind]
            constructor
            · intro h; cases h
            · rintro ⟨-, ⟨h, -⟩ | ⟨-, ⟨h, -⟩ | ⟨b', h, h', -⟩⟩⟩
              · exact absurd h hg2
              · exact absurd h hna
              · cases h; exact absurd h' hadd
  · have hm : BYTE_GAS_PRICE.mulNat t.getDumpSize = .panic .overflow := by
      unfold U256.mulNat; exact dif_neg hmul
    constructor
    · intro h
      unfold Tree.sendTransaction at h
      simp only [Act.get_bind, hgas, hcoin, hm, Act.lift_ok_bind, Act.lift_panic_bind] at h
      cases h
    · rintro ⟨h, -⟩
      exact absurd h hmul

theorem void_err {x : Act Tree Block} {s t : Tree} {tr : List Tree} {e : Err} (h : x s = ⟨.err e, t, tr⟩) :
    x.void s = ⟨.err e, t, tr⟩ := by
  rw [Act.void_run, h]; rfl

theorem void_out {x : Act Tree Block} {s : Tree} {e : Err} : (x.void s).out = .err e ↔ (x s).out = .err e := by
  rw [Act.void_run]
  cases h : (x s).out <;> simp

theorem recalculate_no_err (E : Env) (i : BasicInfo) (ts : UInt64) (e : Err) :
    recalculateDifficulty E i.timestamp ts i.difficulty ≠ .err e := by
  have h1 := recalculate_panic E i ts
  have h2 := recalculate_ub E i.timestamp ts i.difficulty
  have h3 := recalculate_ends E i ts
  unfold AtRisk at h3
  intro h
  rw [h] at h1 h2 h3
  simp only [panicked_err, false_iff, reduceCtorEq, exists_false] at h1 h2 h3
  exact h3 ⟨h1, h2⟩

theorem emitMain_err (E : Env) {s : Tree} (hu : UpShelved s) (p : BytesN 32) (o : Address) (txs : List Hash) (ts : UInt64)
    (f g : Spec.Accounts) (e : Err) :
    ((Tree.emitMain E p o txs ts s).out = .err e → Op.Refuses E s f g e (.emitMain p o txs ts)) ∧
    (Op.Refuses E s f g e (.emitMain p o txs ts) → Tree.emitMain E p o txs ts s = ⟨.err e, s, []⟩) := by
  simp only [Op.Refuses]
  unfold Tree.emitMain
  rw [Act.get_bind]
  obtain ⟨⟨hnp, hh⟩, -⟩ := hu.reads
  cases hl : s.main.getLastBlock with
  | panic q => exact absurd ⟨q, hl⟩ hnp
  | ub => exact absurd hl (ne_ub_last _)
  | err x =>
    obtain ⟨ha, rfl⟩ := (hu.last_err x).mp hl
    simp only [Act.lift_err_bind]
    constructor
    · intro h; cases h
      exact .inl ⟨ha, rfl⟩
    · rintro (⟨-, rfl⟩ | ⟨b, h, -⟩)
      · rfl
      · cases h
  | ok l =>
    have hna : ¬ Alien s := fun ha => by
      have := (hu.last_err .chainFindByHeight).mpr ⟨ha, rfl⟩
      rw [hl] at this; cases this
    cases l with
    | none =>
      simp only [Act.lift_ok_bind, Outcome.ofOption_none, Act.lift_panic_bind]
      constructor
      · intro h; cases h
      · rintro (⟨h, -⟩ | ⟨b, h, -⟩)
        · exact absurd h hna
        · cases h
    | some b =>
      have hb := hh b hl
      simp only [Act.lift_ok_bind, Outcome.ofOption_some, checkPow_spec, Outcome.ok.injEq, Option.some.injEq, exists_eq_left']
      have hash : b.hash E = E.sha256 b.dump := rfl
      rw [hash]
      by_cases hw : Spec.enoughWork E (E.sha256 b.dump) b.info.difficulty txs p = true
      · simp only [hw, Bool.not_true, Bool.false_eq_true, if_false, true_and, reduceCtorEq, false_and, false_or]
        have ends := recalculate_ends E b.info ts
        by_cases hend : ¬ OutOfTime E b.info ts ∧ ¬ AtRisk E b.info ts
        · obtain ⟨d, hd⟩ := ends.mpr hend
          simp only [hd, fee_spec, Act.lift_ok_bind, add_one hb]
          have m := mainBlock_ends E s s ⟨Spec.fee d, fee_lt d⟩ s.main.chain.height
            { timestamp := ts, pow := p, previousHash := E.sha256 b.dump, height := s.main.chain.height, difficulty := d, founder := o } txs
          have hB : BLOCKS_PER_EPOCH = 1000000 := rfl
          by_cases h0 : s.main.chain.height.val % BLOCKS_PER_EPOCH = 0
          · cases txs with
            | nil =>
              obtain ⟨nb, hnb⟩ := m.1.mpr ⟨fun _ => rfl, fun _ => h0⟩
              constructor
              · intro h
                rw [err_seq] at h
                rcases h with h | ⟨nb', hnb', h⟩
                · rw [hnb] at h; cases h
                · rw [err_seq, mainAdd_err] at h
                  rcases h with ⟨h, -⟩ | ⟨_, _, h⟩
                  · exfalso; apply h
                    rw [m.2.1 nb' hnb']
                    exact (m.2.2 nb' hnb').symm
                  · cases h
              · rintro (⟨h, -⟩ | ⟨-, -, ⟨-, h, -⟩ | ⟨h, -⟩⟩)
                · exact absurd h hna
                · exact absurd rfl h
                · exact absurd h0 h
            | cons x l =>
              rw [if_pos h0, if_pos (by rfl), Act.lift_err_bind]
              constructor
              · intro h; cases h
                exact .inr ⟨hend.1, hend.2, .inl ⟨h0, by simp, rfl⟩⟩
              · rintro (⟨h, -⟩ | ⟨-, -, ⟨-, -, rfl⟩ | ⟨h, -⟩⟩)
                · exact absurd h hna
                · rfl
                · exact absurd h0 h
          · cases txs with
            | cons x l =>
              obtain ⟨nb, hnb⟩ := m.1.mpr ⟨fun h => absurd h h0, fun h => by cases h⟩
              constructor
              · intro h
                rw [err_seq] at h
                rcases h with h | ⟨nb', hnb', h⟩
                · rw [hnb] at h; cases h
                · rw [err_seq, mainAdd_err] at h
                  rcases h with ⟨h, -⟩ | ⟨_, _, h⟩
                  · exfalso; apply h
                    rw [m.2.1 nb' hnb']
                    exact (m.2.2 nb' hnb').symm
                  · cases h
              · rintro (⟨h, -⟩ | ⟨-, -, ⟨h, -⟩ | ⟨-, h, -⟩⟩)
                · exact absurd h hna
                · exact absurd h h0
                · cases h
            | nil =>
              rw [if_neg h0, if_pos (by rfl), Act.lift_err_bind]
              constructor
              · intro h; cases h
                exact .inr ⟨hend.1, hend.2, .inr ⟨h0, rfl, rfl⟩⟩
              · rintro (⟨h, -⟩ | ⟨-, -, ⟨h, -⟩ | ⟨-, -, rfl⟩⟩)
                · exact absurd h hna
                · exact absurd h h0
                · rfl
        · constructor
          · intro h
            rw [err_lift] at h
            rcases h with h | ⟨d, hd, -⟩
            · exfalso
              exact recalculate_no_err E b.info ts e h
            · exact absurd (ends.mp ⟨d, hd⟩) hend
          · rintro (⟨h, -⟩ | ⟨h1, h2, -⟩)
            · exact absurd h hna
            · exact absurd ⟨h1, h2⟩ hend
      · have hw' : Spec.enoughWork E (E.sha256 b.dump) b.info.difficulty txs p = false := by simpa using hw
        simp only [hw', Bool.not_false, if_true, true_and, Bool.false_eq_true, false_and, or_false]
        constructor
        · intro h; cases h; exact .inr rfl
        · rintro (⟨h, -⟩ | rfl)
          · exact absurd h hna
          · rfl

theorem derivTail_err (E : Env) (t : Tree) (o : Address) (i : BasicInfo) (ph : Hash) (d : Hash) (pts ts : UInt64) (h : U256)
    (p : BytesN 32) (hi : i.timestamp = pts ∧ i.difficulty = d) (ho : (t.derivMem o).isSome = true) (e : Err) :
    let x : Act Tree Block := (do
      let good ← Act.lift (checkPow E ph d [] p.val)
      if !good then Act.lift (.err .treeWrongPow)
      else do
        let difficulty ← Act.lift (recalculateDifficulty E pts ts d)
        let block : DerivativeBlock :=
          ⟨{ timestamp := ts, pow := p, previousHash := ph, height := h, difficulty, founder := o }⟩
        Tree.onDeriv o (DerivativeChain.addBlock E block)
        pure (Block.derivative block))
    let why : Prop := Spec.enoughWork E ph d [] p = false ∧ e = .treeWrongPow ∨
      Spec.enoughWork E ph d [] p = true ∧ (¬ OutOfTime E i ts ∧ ¬ AtRisk E i ts) ∧ h ≠ (t.handle o).chain.height ∧
        e = .chainAddingBlock
    ((x t).out = .err e → why) ∧ (why → x t = ⟨.err e, t, []⟩) := by
  obtain ⟨rfl, rfl⟩ := hi
  intro x why
  by_cases hw : Spec.enoughWork E ph i.difficulty [] p = true
  · have hx : x = (do
        let difficulty ← Act.lift (recalculateDifficulty E i.timestamp ts i.difficulty)
        let block : DerivativeBlock :=
          ⟨{ timestamp := ts, pow := p, previousHash := ph, height := h, difficulty, founder := o }⟩
        Tree.onDeriv o (DerivativeChain.addBlock E block)
        pure (Block.derivative block)) := by
      show (_ >>= _) = _
      rw [checkPow_spec, Act.lift_ok_bind, hw]
      rfl
    have ends := recalculate_ends E i ts
    constructor
    · intro hr
      rw [hx, err_lift] at hr
      rcases hr with hr | ⟨nd, hd, hr⟩
      · exact absurd hr (recalculate_no_err E i ts e)
      · rw [err_seq, derivAdd_err] at hr
        rcases hr with ⟨h1, h2⟩ | ⟨_, _, hr⟩
        · exact .inr ⟨hw, ends.mp ⟨nd, hd⟩, h1, h2⟩
        · cases hr
    · rintro (⟨h1, -⟩ | ⟨-, hend, h1, rfl⟩)
      · rw [hw] at h1; cases h1
      · obtain ⟨nd, hd⟩ := ends.mpr hend
        rw [hx, hd, Act.lift_ok_bind]
        exact Act.bind_err (derivAdd_refused E ho h1)
  · have hw' : Spec.enoughWork E ph i.difficulty [] p = false := by simpa using hw
    have hx : x t = ⟨.err .treeWrongPow, t, []⟩ := by
      show (_ >>= _ : Act Tree Block) t = _
      rw [checkPow_spec, Act.lift_ok_bind, hw']
      rfl
    rw [hx]
    constructor
    · intro hr; cases hr
      exact .inl ⟨hw', rfl⟩
    · rintro (⟨-, rfl⟩ | ⟨h1, -⟩)
      · rfl
      · exact absurd h1 hw

theorem emitDerivative_err (E : Env) {s : Tree} (hu : UpShelved s) (p : BytesN 32) (o : Address) (ts : UInt64)
    (f g : Spec.Accounts) (e : Err) :
    ((Tree.emitDerivative E p o ts s).out = .err e → Op.Refuses E s f g e (.emitDerivative p o ts)) ∧
    (Op.Refuses E s f g e (.emitDerivative p o ts) →
      Tree.emitDerivative E p o ts s =
        ⟨.err e, (Tree.getDerivativeChain E o s).final, (Tree.getDerivativeChain E o s).trace⟩) := by
  have hbegin : BEGINNING_DIFFICULTY.val.head? ≠ some 0xFF := by decide
  simp only [Op.Refuses]
  have hg := getDeriv_err E hu o e
  unfold Tree.emitDerivative
  cases hr : (Tree.getDerivativeChain E o s).out with
  | panic q =>
    rw [hr] at hg
    have run := fun k : Unit → Act Tree Block => Act.bind_panic (f := k) (x := Tree.getDerivativeChain E o) (s := s) (p := q)
      (s' := (Tree.getDerivativeChain E o s).final) (t := (Tree.getDerivativeChain E o s).trace) (by rw [← hr])
    rw [run]
    refine ⟨fun h => (by cases h), ?_⟩
    rintro (h | ⟨h, -⟩)
    · cases hg.mpr h
    · cases h
  | ub =>
    rw [hr] at hg
    have run := fun k : Unit → Act Tree Block => Act.bind_ub (f := k) (x := Tree.getDerivativeChain E o) (s := s)
      (s' := (Tree.getDerivativeChain E o s).final) (t := (Tree.getDerivativeChain E o s).trace) (by rw [← hr])
    rw [run]
    refine ⟨fun h => (by cases h), ?_⟩
    rintro (h | ⟨h, -⟩)
    · cases hg.mpr h
    · cases h
  | err q =>
    rw [hr] at hg
    have run := fun k : Unit → Act Tree Block => Act.bind_err (f := k) (x := Tree.getDerivativeChain E o) (s := s) (e := q)
      (s' := (Tree.getDerivativeChain E o s).final) (t := (Tree.getDerivativeChain E o s).trace) (by rw [← hr])
    rw [run]
    refine ⟨fun h => .inl (hg.mp (by cases h; rfl)), ?_⟩
    rintro (h | ⟨h, -⟩)
    · cases hg.mpr h; rfl
    · cases h
  | ok u =>
    rw [hr] at hg
    have run := fun k : Unit → Act Tree Block => Act.bind_ok (f := k) (x := Tree.getDerivativeChain E o) (s := s) (a := u)
      (s' := (Tree.getDerivativeChain E o s).final) (t := (Tree.getDerivativeChain E o s).trace) (by rw [← hr])
    rw [run]
    have hno : ¬ Unopenable s o e := fun h => by cases hg.mpr h
    have hu' := up_openDeriv E o hu
    have hmain := getDeriv_sameMain E o s
    have hop := getDeriv_isOpen hr
    generalize (Tree.getDerivativeChain E o s).trace = tr
    generalize (Tree.getDerivativeChain E o s).final = t at hu' hmain hop ⊢
    have whole : ∀ (x : Act Tree Block) (P : Prop), ((x t).out = .err e → P) ∧ (P → x t = ⟨.err e, t, []⟩) →
        ((x t).out = .err e → P) ∧ (P → (⟨(x t).out, (x t).final, tr ++ (x t).trace⟩ : Res Tree Block) = ⟨.err e, t, tr⟩) := by
      rintro x P ⟨h1, h2⟩
      refine ⟨h1, fun hp => ?_⟩
      rw [h2 hp, List.append_nil]
    simp only [hno, false_or, true_and]
    refine whole _ _ ?_
    rw [Act.get_bind]
    obtain ⟨⟨hnp, hh⟩, -⟩ := hu'.derivReads o
    cases hl : (t.handle o).getLastBlock with
    | panic q => exact absurd ⟨q, hl⟩ hnp
    | ub => exact absurd hl (ne_ub_derivLast _)
    | err x => exact absurd hl (hu'.derivLast_err o x)
    | ok l =>
      cases l with
      | some b =>
        simp only [add_one (hh b hl), Outcome.ok_bind, Act.lift_ok_bind, Outcome.ok.injEq, Option.some.injEq, exists_eq_left',
          reduceCtorEq, false_and, or_false]
        have k := derivTail_err E t o b.defaultInfo (b.hash E) _ _ ts (t.handle o).chain.height p ⟨rfl, rfl⟩ hop e
        refine ⟨fun h => ?_, fun h => k.2 (.inl h)⟩
        rcases k.1 h with h | ⟨-, -, h, -⟩
        · exact h
        · exact absurd rfl h
      | none =>
        simp only [Act.lift_ok_bind, reduceCtorEq, Outcome.ok.injEq, false_and, exists_false, false_or, true_and, hmain]
        cases hf : s.main.findByHash (t.handle o).genesisHash with
        | panic q => exact absurd ⟨q, hf⟩ (hu.reads.2.2.1 _)
        | ub => exact absurd hf (ne_ub_findByHash _ _)
        | err q =>
          obtain ⟨ha, rfl⟩ := (hu.found_err _ q).mp hf
          simp only [Outcome.err_bind, Act.lift_err_bind]
          constructor
          · intro h; cases h
            exact .inr (.inl ⟨ha, rfl⟩)
          · rintro (⟨h, -⟩ | ⟨-, rfl⟩ | ⟨b, h, -⟩)
            · rw [← found_none, hf] at h; cases h
            · rfl
            · cases h
        | ok v =>
          have hna : ¬ ∃ b : DerivativeBlock, s.main.findRawByHash (t.handle o).genesisHash = .ok (some b.dump) := fun ha => by
            have := (hu.found_err _ .chainFindByHeight).mpr ⟨ha, rfl⟩
            rw [hf] at this; cases this
          cases v with
          | none =>
            simp only [Outcome.ok_bind, Act.lift_err_bind]
            constructor
            · intro h; cases h
              exact .inl ⟨(found_none _ _).mp hf, rfl⟩
            · rintro (⟨-, rfl⟩ | ⟨h, -⟩ | ⟨b, h, -⟩)
              · rfl
              · exact absurd h hna
              · cases h
          | some b =>
            simp only [Outcome.ok_bind, Act.lift_ok_bind, Outcome.ok.injEq, Option.some.injEq, exists_eq_left']
            have hnn : ¬ s.main.findRawByHash (t.handle o).genesisHash = .ok none := fun h => by
              rw [← found_none, hf] at h; cases h
            have k := derivTail_err E t o { b.info with difficulty := BEGINNING_DIFFICULTY } (b.hash E) BEGINNING_DIFFICULTY
              b.info.timestamp ts U256.zero p ⟨rfl, rfl⟩ hop e
            have hend : (¬ OutOfTime E { b.info with difficulty := BEGINNING_DIFFICULTY } ts ∧
                ¬ AtRisk E { b.info with difficulty := BEGINNING_DIFFICULTY } ts) ↔
                ¬ (E.overflowChecks = true ∧ ts.toNat < b.info.timestamp.toNat) := by
              unfold OutOfTime AtRisk
              simp [hbegin]
            have hz : U256.zero ≠ (t.handle o).chain.height ↔ (t.handle o).chain.height.val ≠ 0 := by
              constructor
              · intro h h0
                apply h
                cases hc : (t.handle o).chain.height with
                | mk v hv => rw [hc] at h0; simp only at h0; subst h0; rfl
              · intro h h0
                rw [← h0] at h
                exact h rfl
            simp only [hend, hz] at k
            refine ⟨fun h => .inr (.inr (k.1 h)), ?_⟩
            rintro (⟨h, -⟩ | ⟨h, -⟩ | h)
            · exact absurd h hnn
            · exact absurd h hna
            · exact k.2 h

/-- The owner whose derivative chain a call works on. -/
def Op.chainOf : Op → Option Address
  | .emitDerivative _ o _ => some o
  | .getDerivativeChain o => some o
  | .derivAddBlock o _ => some o
  | .derivFlush o => some o
  | _ => none

/-- What a refused call leaves behind: on the chain of an owner, the state in which opening that chain leaves the node;
otherwise the state before. -/
def Op.leaves (E : Env) (s : Tree) (op : Op) : Tree × List Tree :=
  match Op.chainOf op with
  | none => (s, [])
  | some o => ((Tree.getDerivativeChain E o s).final, (Tree.getDerivativeChain E o s).trace)

theorem op_err (E : Env) {s : Tree} (hu : UpShelved s) (hs : StoreInv E s) (op : Op) (e : Err) :
    ((op.run E s).out = .err e →
      Op.Refuses E s (fun k => (s.summary.cur.amt k).val) (fun k => (s.gas.cur.amt k).val) e op) ∧
    (Op.Refuses E s (fun k => (s.summary.cur.amt k).val) (fun k => (s.gas.cur.amt k).val) e op →
      op.run E s = ⟨.err e, (Op.leaves E s op).1, (Op.leaves E s op).2⟩) := by
  have no : ∀ {x : Act Tree Unit} {R : Res Tree Unit}, Willing x → ((x s).out = .err e → False) ∧ (False → x s = R) :=
    fun h => ⟨h s e, False.elim⟩
  cases op with
  | addBlock b =>
    refine ⟨(mainAdd_err E b s e).mp, ?_⟩
    rintro ⟨h, rfl⟩
    exact mainAdd_refused E h
  | addNewBlock b txs =>
    constructor
    · intro h
      rcases (err_seq (Tree.onMain (MainChain.addBlock E b)) (fun _ => Tree.onMain (MainChain.addTransactions E txs)) s e).mp h
        with h | ⟨_, _, h⟩
      · exact (mainAdd_err E b s e).mp h
      · exact absurd h (willing_addTransactions E txs _ e)
    · rintro ⟨h, rfl⟩
      exact Act.bind_err (mainAdd_refused E h)
  | addTransaction t => exact no (willing_zoom (willing_step _))
  | addTransactions ts => exact no (willing_addTransactions E ts)
  | addAmount o a => exact no (willing_zoom (willing_transact _))
  | setAmount o a => exact no (willing_zoom (willing_transact _))
  | subAmount o a => exact no (willing_zoom (willing_transact _))
  | sendAmount o o' a => exact no (willing_sendAmount o o' a)
  | addGas o a => exact no (willing_zoom (willing_transact _))
  | subGas o a => exact no (willing_zoom (willing_transact _))
  | sendGas o o' a => exact no (willing_zoom (willing_transact _))
  | sendTransaction t => exact sendTx_err E hu hs t e
  | emitMain p f txs ts =>
    have k := emitMain_err E hu p f txs ts (fun k => (s.summary.cur.amt k).val) (fun k => (s.gas.cur.amt k).val) e
    exact ⟨fun h => k.1 (void_out.mp h), fun h => void_err (k.2 h)⟩
  | emitDerivative p o ts =>
    have k := emitDerivative_err E hu p o ts (fun k => (s.summary.cur.amt k).val) (fun k => (s.gas.cur.amt k).val) e
    exact ⟨fun h => k.1 (void_out.mp h), fun h => void_err (k.2 h)⟩
  | getDerivativeChain o =>
    have k := getDeriv_err E hu o e
    refine ⟨k.mp, fun h => ?_⟩
    show Tree.getDerivativeChain E o s = ⟨.err e, (Tree.getDerivativeChain E o s).final, (Tree.getDerivativeChain E o s).trace⟩
    rw [← k.mpr h]
  | derivAddBlock o b =>
    have k := getDeriv_err E hu o e
    constructor
    · intro h
      rcases (err_seq (Tree.getDerivativeChain E o) (fun _ => Tree.onDeriv o (DerivativeChain.addBlock E b)) s e).mp h
        with h | ⟨_, h0, h⟩
      · exact .inl (k.mp h)
      · exact .inr ⟨h0, (derivAdd_err E o b _ e).mp h⟩
    · rintro (h | ⟨h0, h, rfl⟩)
      · exact Act.bind_err (f := fun _ => Tree.onDeriv o (DerivativeChain.addBlock E b)) (x := Tree.getDerivativeChain E o)
          (s' := (Tree.getDerivativeChain E o s).final) (t := (Tree.getDerivativeChain E o s).trace) (by rw [← k.mpr h])
      · have run := Act.bind_ok (f := fun _ => Tree.onDeriv o (DerivativeChain.addBlock E b)) (x := Tree.getDerivativeChain E o)
          (s := s) (a := ()) (s' := (Tree.getDerivativeChain E o s).final) (t := (Tree.getDerivativeChain E o s).trace)
          (by rw [← h0])
        refine run.trans ?_
        rw [derivAdd_refused E (getDeriv_isOpen h0) h, List.append_nil]
        rfl
  | derivFlush o =>
    have k := getDeriv_err E hu o e
    constructor
    · intro h
      rcases (err_seq (Tree.getDerivativeChain E o) (fun _ => Tree.onDeriv o DerivativeChain.flush) s e).mp h with h | ⟨_, _, h⟩
      · exact k.mp h
      · exact absurd h (willing_derivFlush o _ e)
    · intro h
      exact Act.bind_err (f := fun _ => Tree.onDeriv o DerivativeChain.flush) (x := Tree.getDerivativeChain E o)
        (s' := (Tree.getDerivativeChain E o s).final) (t := (Tree.getDerivativeChain E o s).trace) (by rw [← k.mpr h])
  | mainFlush => exact no willing_mainFlush
  | flush => exact no willing_flush

/-! ## C172 -/

/-- `t` is `s`, except that the derivative chain of `o` may be open in `t`. -/
structure OpenedAtMost (o : Address) (s t : Tree) : Prop where
  main : t.main = s.main
  summary : t.summary = s.summary
  oldSummary : t.oldSummary = s.oldSummary
  gas : t.gas = s.gas
  oldGas : t.oldGas = s.oldGas
  files : t.derivFiles = s.derivFiles
  others : ∀ o', o' ≠ o → t.derivMem o' = s.derivMem o'
  open' : (s.derivMem o).isSome = true → t.derivMem o = s.derivMem o

theorem OpenedAtMost.rfl {o : Address} {s : Tree} : OpenedAtMost o s s :=
  ⟨.refl _, .refl _, .refl _, .refl _, .refl _, .refl _, fun _ _ => .refl _, fun _ => .refl _⟩

theorem opened_at_most (E : Env) (o : Address) (s : Tree) :
    OpenedAtMost o s (Tree.getDerivativeChain E o s).final ∧
    ∀ t ∈ (Tree.getDerivativeChain E o s).trace, OpenedAtMost o s t := by
  rcases Tree.getDeriv_cases E o s with ⟨_, k⟩ | ⟨hm, ⟨out, hn, k⟩ | ⟨b, c, _, hc, k⟩⟩
  · rw [k]; exact ⟨.rfl, fun t ht => by cases ht⟩
  · rw [k]; exact ⟨.rfl, fun t ht => by cases ht⟩
  · rw [k]
    have h : OpenedAtMost o s (Tree.putHandle o c s) := by
      refine ⟨.refl _, .refl _, .refl _, .refl _, .refl _, ?_, fun o' ho => ?_, fun h => ?_⟩
      · have hf : c.chain.blocks = (s.derivFiles (hexEncode o.val)).blocks ∧
            c.chain.heightReference = (s.derivFiles (hexEncode o.val)).heightReference ∧
            c.chain.config = (s.derivFiles (hexEncode o.val)).config := by
          unfold DerivativeChain.new at hc
          cases hr : DerivativeChain.readConfig (b.hash E) (s.derivFiles (hexEncode o.val)).config with
          | ok r => rw [hr] at hc; cases hc; exact ⟨.refl _, .refl _, .refl _⟩
          | err e => rw [hr] at hc; cases hc
          | panic e => rw [hr] at hc; cases hc
          | ub => rw [hr] at hc; cases hc
        funext n
        show (if n = hexEncode o.val then _ else _) = _
        split
        · rename_i e
          rw [e, hf.1, hf.2.1, hf.2.2]
        · exact .refl _
      · exact if_neg ho
      · rw [hm] at h; cases h
    exact ⟨h, fun t ht => by rw [List.mem_singleton.mp ht]; exact h⟩

/-- C172. On a node that may have been killed at any moment before: a call is refused with an error exactly for the cause
listed for that error. -/
theorem C172_exact (E : Env) (s : Tree) (f g : Spec.Accounts) (op : Op) (e : Err) (hl : Life E (.idle s))
    (hf : Shows s.summary f) (hg : Shows s.gas g) : (op.run E s).out = .err e ↔ Op.Refuses E s f g e op := by
  rw [shows_eq hf, shows_eq hg]
  have k := op_err E (life_shelved hl) (life_storeInv hl) op e
  exact ⟨k.1, fun h => by rw [k.2 h]⟩

/-- C172. A refused call has done nothing: the node is as it was and was so all along, except that a call on the
derivative chain of an owner may have opened that chain. -/
theorem C172_nothing (E : Env) (s : Tree) (op : Op) (e : Err) (hl : Life E (.idle s)) (h : (op.run E s).out = .err e) :
    (Op.chainOf op = none → (op.run E s).final = s ∧ (op.run E s).trace = []) ∧
    ∀ o, Op.chainOf op = some o → OpenedAtMost o s (op.run E s).final ∧ ∀ t ∈ (op.run E s).trace, OpenedAtMost o s t := by
  have k := op_err E (life_shelved hl) (life_storeInv hl) op e
  rw [k.2 (k.1 h)]
  constructor
  · intro hc
    unfold Op.leaves
    rw [hc]
    exact ⟨rfl, rfl⟩
  · intro o ho
    unfold Op.leaves
    rw [ho]
    exact opened_at_most E o s

/-- C172. A call succeeds exactly if it neither panics (C164) nor runs into undefined behaviour (C163) nor is refused. -/
theorem C172_succeeds (E : Env) (s : Tree) (f g : Spec.Accounts) (op : Op) (hl : Life E (.idle s))
    (hf : Shows s.summary f) (hg : Shows s.gas g) :
    (op.run E s).out = .ok () ↔ ¬ Op.Panics E s f g op ∧ ¬ Op.Hits E s op ∧ ∀ e, ¬ Op.Refuses E s f g e op := by
  rw [← C164_calls_partial E s f g op hl hf hg, ← (C163_calls_partial E).1 s op]
  simp only [← C172_exact E s f g op _ hl hf hg]
  cases h : (op.run E s).out with
  | ok u => simp
  | err e => simp
  | panic p => simp
  | ub => simp

/-! ## The hypotheses are met

Each of the eight errors comes back from some call on some node that can arise. -/

/-- The exact conditions, for the balances as stored. -/
theorem refused {E : Env} {s : Tree} {op : Op} {e : Err} (hl : Life E (.idle s))
    (h : Op.Refuses E s (fun k => (s.summary.cur.amt k).val) (fun k => (s.gas.cur.amt k).val) e op) : (op.run E s).out = .err e := by
  have hs : StoreInv E s := life_storeInv hl
  exact (C172_exact E s _ _ op e hl (shows_amt hs.summary.1) (shows_amt hs.gas.1)).mpr h

theorem zeroEnv_work (x d : Hash) (txs : List Hash) (p : BytesN 32) : Spec.enoughWork zeroEnv x d txs p = true := by
  have h := checkPow_spec zeroEnv x d txs p
  rw [checkPow_zero] at h
  cases h' : Spec.enoughWork zeroEnv x d txs p with
  | true => rfl
  | false => rw [h'] at h; cases h

/-- A node that lost its main chain and kept the config of a derivative chain anchored there. -/
theorem anchor_lost {E : Env} {a : Block} (o : Address) (ha : a.info.height = U256.one) (ham : a.IsMain)
    (hag : a.hash E ≠ (genesis E).hash E) (p : BytesN 32) (ts : UInt64) :
    ∃ u, Life E (.idle u) ∧ ((Op.emitDerivative p o ts).run E u).out = .err .chainFindByHashE := by
  have e0 : (openTree E Disk.empty).final.main.chain.height = U256.one := by rw [(openTree_fresh E).2]; rfl
  obtain ⟨_, f1⟩ := add_ok E (openTree E Disk.empty).final a (by rw [e0]; exact ha) (by rw [e0]; decide)
  have last1 := add_first E (openTree E Disk.empty).final a ha ham e0
  obtain ⟨s1, hs1⟩ : ∃ s, s = ((Op.addBlock a).run E (openTree E Disk.empty).final).final := ⟨_, rfl⟩
  rw [← hs1] at f1 last1
  have l1 : Life E (.idle s1) := by rw [hs1]; exact .call _ _ (life_fresh E)
  have m1 : s1.derivMem o = none := by rw [f1]; show (openTree E Disk.empty).final.derivMem o = _; rw [(openTree_fresh E).2]; rfl
  have d1 : s1.derivFiles (hexEncode o.val) = DerivFiles.fresh := by
    rw [f1]; show (openTree E Disk.empty).final.derivFiles _ = _; rw [(openTree_fresh E).2]; rfl
  obtain ⟨_, f2⟩ := flush_new (E := E) m1 d1 last1
  obtain ⟨c, hc⟩ : ∃ c : DerivativeChain, c = emptyDeriv (a.hash E) := ⟨_, rfl⟩
  rw [← emptyDeriv, ← hc] at f2
  have l2 : Life E (.idle (Tree.putHandle o c.flushed (Tree.putHandle o c s1))) := by rw [← f2]; exact .call _ _ l1
  have hcr : Crash (Tree.putHandle o c.flushed (Tree.putHandle o c s1)) (onlyDeriv o ⟨KV.empty, KV.empty, some c.saved⟩) := by
    have e : KV.empty ∈ (Db.open' KV.empty).recov := List.mem_singleton.mpr rfl
    have h1 : KV.empty ∈ (openTree E Disk.empty).final.main.chain.blocks.recov := by
      rw [(openTree_fresh E).2]; exact List.mem_cons_of_mem _ e
    have h2 : KV.empty ∈ (openTree E Disk.empty).final.main.chain.heightReference.recov := by
      rw [(openTree_fresh E).2]; exact List.mem_cons_of_mem _ e
    have h3 : KV.empty ∈ (openTree E Disk.empty).final.summary.recov := by
      rw [(openTree_fresh E).2]; exact List.mem_cons_of_mem _ e
    have h4 : (openTree E Disk.empty).final.main.transactions = Db.open' KV.empty ∧
        (openTree E Disk.empty).final.main.chain.config = none ∧ (openTree E Disk.empty).final.oldSummary = Db.open' KV.empty ∧
        (openTree E Disk.empty).final.gas = Db.open' KV.empty ∧ (openTree E Disk.empty).final.oldGas = Db.open' KV.empty ∧
        ∀ n, (openTree E Disk.empty).final.derivFiles n = DerivFiles.fresh := by
      rw [(openTree_fresh E).2]; exact ⟨rfl, rfl, rfl, rfl, rfl, fun _ => rfl⟩
    obtain ⟨k1, k2, k3, k4, k5, k6⟩ := h4
    rw [f1]
    refine ⟨List.mem_cons_of_mem _ h1, List.mem_cons_of_mem _ h2, ?_, k2.symm, h3, ?_, ?_, ?_, fun n => ?_⟩
    · show KV.empty ∈ (openTree E Disk.empty).final.main.transactions.recov
      rw [k1]; exact e
    · show KV.empty ∈ (openTree E Disk.empty).final.oldSummary.recov
      rw [k3]; exact e
    · show KV.empty ∈ (openTree E Disk.empty).final.gas.recov
      rw [k4]; exact e
    · show KV.empty ∈ (openTree E Disk.empty).final.oldGas.recov
      rw [k5]; exact e
    unfold onlyDeriv Tree.putHandle
    simp only
    split
    · rw [hc]; exact ⟨e, e, rfl⟩
    · rw [k6]; exact ⟨e, e, rfl⟩
  obtain ⟨o1, o2, o3, o4⟩ := onlyDeriv_opens E o ⟨KV.empty, KV.empty, some c.saved⟩
  have l3 := Life.opened _ (.crashIdle _ _ l2 hcr) o1
  obtain ⟨g1, g2⟩ := getDeriv_saved (E := E) (c := c) o3 o2 (by rw [o4, hc]; rfl) (by rw [o4, hc]; rfl) (by rw [o4])
  refine ⟨_, l3, refused l3 (.inr ⟨g1, .inr ⟨?_, .inl ⟨?_, rfl⟩⟩⟩)⟩
  · exact g2.last.trans (by rw [hc]; rfl)
  · have hg : ((Tree.getDerivativeChain E o (openTree E (onlyDeriv o ⟨KV.empty, KV.empty, some c.saved⟩)).final).final.handle o).genesisHash =
        a.hash E := g2.genesisHash.trans (by rw [hc]; rfl)
    simp only [hg]
    rw [(openTree_zero (E := E) (d := onlyDeriv o ⟨KV.empty, KV.empty, some c.saved⟩) (df := BEGINNING_DIFFICULTY) rfl).2]
    unfold MainChain.findRawByHash Chain.findRawByHash
    have : (bootChain E (Db.open' KV.empty) (Db.open' KV.empty) BEGINNING_DIFFICULTY none).heightReference.get (a.hash E).val = none := by
      show (Db.insert _ _ _).get _ = _
      rw [Db.get_insert, if_neg (fun e => hag (Subtype.ext e).symm)]
      rfl
    simp only [onlyDeriv, Disk.empty]
    rw [this]

/-- A block of the wrong kind on a fresh node. -/
def wrongKind : Block := .derivative ⟨{ exInfo with height := U256.one }⟩

/-- C172. Every error on the list does come back. -/
theorem C172_occurs :
    (∀ E : Env, ((Op.addBlock nextBlock').run E ((Op.addBlock nextBlock).run E (openTree E Disk.empty).final).final).out =
      .err .chainAddingBlock) ∧
    (∀ E : Env, ((Op.sendTransaction exTx).run E (openTree E Disk.empty).final).out = .err .treeNewTransaction) ∧
    (∀ E : Env, ∃ s, Life E (.idle s) ∧ ∀ p f txs ts, ((Op.emitMain p f txs ts).run E s).out = .err .chainFindByHeight) ∧
    (∃ E : Env, ∀ p f ts, ((Op.emitMain p f [] ts).run E (openTree E Disk.empty).final).out = .err .treeWrongPow) ∧
    (∀ p f, ((Op.emitMain p f [] 1597925400).run zeroEnv (openTree zeroEnv Disk.empty).final).out =
      .err .treeCreateMainChainBlock) ∧
    (∃ s ts, Life zeroEnv (.idle s) ∧ ∀ p f x, ((Op.emitMain p f [x] ts).run zeroEnv s).out =
      .err .treeSummarizeBlockWrongTransactionsAmount) ∧
    (∀ (E : Env) (o : Address), ∃ s, Life E (.idle s) ∧ ((Op.getDerivativeChain o).run E s).out = .err .chainInit) ∧
    (∀ p o ts, ∃ s, Life threeEnv (.idle s) ∧ ((Op.emitDerivative p o ts).run threeEnv s).out = .err .chainFindByHashE) := by
  have e0 : ∀ E : Env, (openTree E Disk.empty).final.main.chain.height = U256.one := fun E => by rw [(openTree_fresh E).2]; rfl
  refine ⟨fun E => ?_, fun E => ?_, fun E => ?_, ?_, fun p f => ?_, ?_, fun E o => ?_, fun p o ts => ?_⟩
  · refine refused (.call _ _ (life_fresh E)) ⟨?_, rfl⟩
    obtain ⟨_, f1⟩ := add_ok E (openTree E Disk.empty).final nextBlock (by rw [e0]; rfl) (by rw [e0]; decide)
    rw [f1]
    intro h
    have h : (1 : Nat) = (openTree E Disk.empty).final.main.chain.height.val + 1 := congrArg U256.val h
    rw [e0] at h
    exact absurd h (by decide)
  · refine refused (life_fresh E) ⟨by decide +kernel, .inl ⟨?_, rfl⟩⟩
    have : (openTree E Disk.empty).final.gas.cur.amt exTx.sender.val = U256.zero := by rw [(openTree_fresh E).2]; rfl
    simp only [this]
    decide +kernel
  · have hl : Life E (.idle ((Op.addBlock wrongKind).run E (openTree E Disk.empty).final).final) := .call _ _ (life_fresh E)
    refine ⟨_, hl, fun p f txs ts => refused hl (.inl ⟨⟨⟨{ exInfo with height := U256.one }⟩, ?_⟩, rfl⟩)⟩
    obtain ⟨_, f1⟩ := add_ok E (openTree E Disk.empty).final wrongKind (by rw [e0]; rfl) (by rw [e0]; decide)
    obtain ⟨c, hc⟩ : ∃ c, c = ((Op.addBlock wrongKind).run E (openTree E Disk.empty).final).final.main := ⟨_, rfl⟩
    have k1 : c.chain.height = ⟨2, by decide⟩ := by
      rw [hc, f1]
      show (⟨(openTree E Disk.empty).final.main.chain.height.val + 1, _⟩ : U256) = _
      simp only [e0]; rfl
    have k2 : c.chain.blocks.get U256.one.toBE.val = some wrongKind.dump := by
      rw [hc, f1]
      show (Db.insert _ _ _).get _ = _
      rw [Db.get_insert, if_pos (by rw [e0])]
    rw [← hc]
    unfold MainChain.getLastRawBlock
    rw [k1, show U256.sub ⟨2, by decide⟩ U256.one = .ok U256.one from by decide, Outcome.ok_bind]
    unfold MainChain.findRawByHeight Chain.findRawByHeight
    rw [if_neg (by rw [k1]; decide), k2]
    rfl
  · refine ⟨⟨fun _ => BytesN.fill 32 0xFF, false⟩, fun p f ts => refused (life_fresh _) (.inr ⟨_, fresh_last _, .inl ⟨?_, rfl⟩⟩)⟩
    unfold Spec.enoughWork
    show decide (Spec.bitLength (Spec.value (BytesN.fill 32 0xFF).val) ≤ Spec.bitLength (Spec.value BEGINNING_DIFFICULTY.val)) = false
    decide +kernel
  · refine refused (life_fresh _) (.inr ⟨_, fresh_last _, .inr ⟨zeroEnv_work _ _ _ _, ?_, ?_, .inr ⟨?_, rfl, rfl⟩⟩⟩)
    · rintro ⟨-, h | ⟨h, -⟩⟩
      · exact absurd h (by decide)
      · exact absurd h (by decide)
    · exact fun h => absurd h.1 (by decide)
    · show (openTree zeroEnv Disk.empty).final.main.chain.height.val % 1000000 ≠ 0
      rw [e0]; decide
  · obtain ⟨s, last, h1, h2, h3, h4, h5⟩ := steady 999999 (by decide)
    have hl := run_life h1
    refine ⟨s, UInt64.ofNat (1597924800 + 600 * 1000000), hl, fun p f x => refused hl (.inr ⟨last, h3, .inr
      ⟨zeroEnv_work _ _ _ _, ?_, ?_, .inl ⟨?_, by simp, rfl⟩⟩⟩)⟩
    · rintro ⟨-, h | ⟨h, -⟩⟩
      · rw [h4] at h; exact absurd h (by decide)
      · rw [h5] at h; exact absurd h (by decide)
    · exact fun h => absurd h.1 (by decide)
    · show s.main.chain.height.val % 1000000 = 0
      rw [h2]
  · have hl : Life E (.idle (freshWith E o (oneDeriv E))) := by
      rw [← fresh_add]; exact .call _ _ (life_fresh E)
    have hc := freshWith_crash E o { oneDeriv E with chain := { (oneDeriv E).chain with config := some [] } } KV.empty KV.empty
      (by simp [oneDeriv, newDeriv, Chain.put3, Db.insert, Db.commit, Db.open'])
      (by simp [oneDeriv, newDeriv, Chain.put3, Db.insert, Db.commit, Db.open'])
    obtain ⟨o1, o2, o3, o4⟩ := onlyDeriv_opens E o ⟨KV.empty, KV.empty, some []⟩
    have hl := Life.opened _ (.crashBusy _ _ (.running _ _ _ hl (freshWith_flush E o (oneDeriv E)).2.2.1) hc) o1
    exact ⟨_, hl, refused hl ⟨o3, .inr ⟨⟨_, o2⟩, ⟨[], by rw [o4], by decide⟩, rfl⟩⟩⟩
  · exact anchor_lost (a := nextBlock) o rfl trivial threeEnv_distinct.2 p ts

end BCT.Props
