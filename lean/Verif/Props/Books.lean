import Verif.Props.Economy
import Verif.Props.Gas
/-!
# C124: where coins come from and where they go
-/

namespace BCT.Props
open BCT

/-- What the node says an account has. -/
def coinsOf (s : Tree) (o : Bytes) : Nat := match Ledger.balance (s.summary.get o) with | .ok a => a.val | _ => 0

/-- The coins a call that succeeds in `s` brings in: what is added or written to an account, and the emission of a cycle
with the last block of an epoch. -/
def coinsIn (s : Tree) : Op → Nat
  | .addAmount _ a => a.val
  | .setAmount _ a => a.val
  | .emitMain _ _ _ _ => if s.main.getHeight.val % 1000000 = 0 then 50010000000000000000000000 else 0
  | _ => 0

/-- The coins a call that succeeds in `s` takes away: what is subtracted from an account, and what is written over. -/
def coinsOut (s : Tree) : Op → Nat
  | .subAmount _ a => a.val
  | .setAmount o _ => coinsOf s o
  | .emitMain _ _ _ _ => if s.main.getHeight.val % 1000000 = 0 then coinsOf s ROOT_PUBLIC_ADDRESS.val else 0
  | _ => 0

/-- The sum of `f` over the calls of a history that succeed, each taken with the state it found. -/
def overCallsIn (E : Env) (f : Tree → Op → Nat) : Tree → List Op → Nat
  | _, [] => 0
  | s, op :: ops => (match (op.run E s).out with | .ok _ => f s op | _ => 0) + overCallsIn E f (op.run E s).final ops

theorem coinsOf_amt {s : Tree} (h : s.summary.cur.Dec) (o : Bytes) : coinsOf s o = (s.summary.cur.amt o).val := by
  unfold coinsOf
  have : Ledger.balance (s.summary.get o) = .ok (s.summary.cur.amt o) := h.balance o
  rw [this]

theorem coin_books_step (E : Env) (op : Op) (s : Tree) (hr : Run E s) (hm : s.main.chain.height.val + 1 < U256.size) :
    (op.run E s).final.summary.cur.supply + (match (op.run E s).out with | .ok _ => coinsOut s op | _ => 0) =
      s.summary.cur.supply + (match (op.run E s).out with | .ok _ => coinsIn s op | _ => 0) := by
  have hi := run_storeInv hr
  by_cases hf : CoinFree op
  · rw [coinFree_same hf]
    have h1 : coinsIn s op = 0 := by cases op <;> first | rfl | exact hf.elim
    have h2 : coinsOut s op = 0 := by cases op <;> first | rfl | exact hf.elim
    rw [h1, h2]
  · cases op with
    | sendAmount a b n =>
      have := transfer_supply_inv (op := .sendAmount a b n) hi trivial _ (.inl rfl)
      rw [this]; cases ((Op.sendAmount a b n).run E s).out <;> rfl
    | sendTransaction tx =>
      have := transfer_supply_inv (op := .sendTransaction tx) hi trivial _ (.inl rfl)
      rw [this]; cases ((Op.sendTransaction tx).run E s).out <;> rfl
    | addAmount o a =>
      have e : (Op.addAmount o a).run E s = Tree.onSummary (Ledger.add o a) s := rfl
      rw [e]
      unfold Tree.onSummary
      rw [Act.zoom_run]
      rcases Ledger.add_run hi.summary.1 o a with ⟨hlt, e⟩ | ⟨hlt, e⟩ <;> rw [e]
      · have := s.summary.cur.supply_insert o ⟨_, hlt⟩
        show (s.summary.cur.insert o _).supply + 0 = s.summary.cur.supply + a.val
        simp only at this
        omega
    | subAmount o a =>
      have e : (Op.subAmount o a).run E s = Tree.onSummary (Ledger.sub o a) s := rfl
      rw [e]
      unfold Tree.onSummary
      rw [Act.zoom_run]
      rcases Ledger.sub_run hi.summary.1 o a with ⟨hle, e⟩ | ⟨hlt, e⟩ <;> rw [e]
      · have := s.summary.cur.supply_insert o ⟨(s.summary.cur.amt o).val - a.val, Ledger.sub_lt⟩
        show (s.summary.cur.insert o _).supply + a.val = s.summary.cur.supply + 0
        simp only at this
        omega
    | setAmount o a =>
      have e : (Op.setAmount o a).run E s = Tree.onSummary (Ledger.set o a) s := rfl
      rw [e]
      have := s.summary.cur.supply_insert o a
      show (s.summary.cur.insert o _).supply + coinsOf s o = s.summary.cur.supply + a.val
      rw [coinsOf_amt hi.summary.1]
      exact this
    | emitMain p f txs ts =>
      obtain ⟨bs, h⟩ := run_holds hr hm
      rw [emitMain_op]
      rcases emitMain_cases h hm p f txs ts with ⟨out, ho, e, _⟩ |
        ⟨l, r, b', s0, c, tr, _, _, _, _, _, k6, k7, _, k9, _, k11⟩
      · rw [e]
        cases out with
        | ok b => exact absurd rfl (ho b)
        | _ => rfl
      · rw [k7]
        show s0.summary.cur.supply + (if s.main.chain.height.val % 1000000 = 0 then coinsOf s ROOT_PUBLIC_ADDRESS.val else 0) =
          s.summary.cur.supply + (if s.main.chain.height.val % 1000000 = 0 then 50010000000000000000000000 else 0)
        rcases k11 with ⟨h0, _, _, rfl⟩ | ⟨h0, _, _, rfl⟩
        · have h0' : ¬ s0.main.chain.height.val % 1000000 = 0 := by rw [← k6]; exact h0
          rw [if_neg h0', if_neg h0']
        · have h0' : s.main.chain.height.val % 1000000 = 0 := by rw [← k6]; exact h0
          rw [if_pos h0', if_pos h0', coinsOf_amt hi.summary.1]
          exact rotated_supply s
    | _ => exact absurd trivial hf

/-- C124. The books of coins balance. After any history of calls, succeeding or failing, from any state of a running
node: the coins there are, with what was subtracted or written over, are the coins there were, with what was added or
written and the emission of one cycle for every epoch that ended. Transfers and transactions change nothing. -/
theorem C124_coin_books (E : Env) (s : Tree) (ops : List Op) (hr : Run E s) (f f' : Spec.Accounts) (n n' : Nat)
    (hm : (runAll E s ops).main.getHeight.val + 1 < 2 ^ 256)
    (hf : Shows s.summary f) (hn : Spec.Total f n) (hf' : Shows (runAll E s ops).summary f') (hn' : Spec.Total f' n') :
    n' + overCallsIn E coinsOut s ops = n + overCallsIn E coinsIn s ops := by
  have key : ∀ (ops : List Op) (s : Tree), Run E s → (runAll E s ops).main.chain.height.val + 1 < U256.size →
      StoreInv E (runAll E s ops) ∧ s.main.chain.height.val ≤ (runAll E s ops).main.chain.height.val ∧
      (runAll E s ops).summary.cur.supply + overCallsIn E coinsOut s ops =
        s.summary.cur.supply + overCallsIn E coinsIn s ops := by
    intro ops
    induction ops with
    | nil => exact fun s hr _ => ⟨run_storeInv hr, Nat.le_refl _, rfl⟩
    | cons op ops ih =>
      intro s hr hm
      obtain ⟨h1, h0, h2⟩ := ih _ (.call s op hr trivial) hm
      have hm' : (runAll E (op.run E s).final ops).main.chain.height.val + 1 < U256.size := hm
      have hgr := (Op.sat (mainGrows_prims E (fun _ => True)) (Act.relF_closed (mainGrows_preord E _)) op op.adds_true s).1
      have h3 := coin_books_step E op s hr (by omega)
      refine ⟨h1, Nat.le_trans hgr h0, ?_⟩
      show (runAll E (op.run E s).final ops).summary.cur.supply + (_ + overCallsIn E coinsOut (op.run E s).final ops) =
        _ + (_ + overCallsIn E coinsIn (op.run E s).final ops)
      omega
  have hi := run_storeInv hr
  obtain ⟨h1, _, h2⟩ := key ops s hr hm
  rw [(total_iff hi.summary.1 hf).mp hn, (total_iff h1.summary.1 hf').mp hn']
  exact h2

/-- C124 at the end of an epoch: the emission of a cycle comes in, and one coin more than that is written over. -/
example : ∃ s op, Run zeroEnv s ∧ (runAll zeroEnv s [op]).main.getHeight.val + 1 < 2 ^ 256 ∧
    overCallsIn zeroEnv coinsIn s [op] = 50010000000000000000000000 ∧
    overCallsIn zeroEnv coinsOut s [op] = 50010000000000000000000001 := by
  obtain ⟨s, b, h1, h2, ⟨f, h3, h4⟩, h5, f', h6, h7⟩ := C94_refuted.2.1
  obtain ⟨op, hop⟩ : ∃ op, op = Op.emitMain (BytesN.fill 32 0) ROOT_PUBLIC_ADDRESS [] (1597924800 + 600 * 1000000) :=
    ⟨_, rfl⟩
  have hfin : runAll zeroEnv s [op] = (Tree.emitMain zeroEnv (BytesN.fill 32 0) ROOT_PUBLIC_ADDRESS []
      (1597924800 + 600 * 1000000) s).final := by rw [hop]; rfl
  have hm : s.main.chain.height.val + 1 < U256.size := by
    have : s.main.chain.height.val = 1000000 := h2
    rw [this]; decide
  have hh : (runAll zeroEnv s [op]).main.getHeight.val + 1 < 2 ^ 256 := by
    rw [hfin]
    obtain ⟨bs, h⟩ := run_holds h1 hm
    rcases emitMain_cases h hm (BytesN.fill 32 0) ROOT_PUBLIC_ADDRESS [] (1597924800 + 600 * 1000000) with
      ⟨out, ho, e, _⟩ | ⟨l, r, b', s0, c, tr, _, _, _, _, _, k6, k7, _, k9, _⟩
    · rw [e] at h5; exact absurd h5 (ho b)
    · rw [k7]
      show c.height.val + 1 < 2 ^ 256
      rw [k9]
      show s.main.chain.height.val + 1 + 1 < 2 ^ 256
      have : s.main.chain.height.val = 1000000 := h2
      rw [this]; decide
  have hin : overCallsIn zeroEnv coinsIn s [op] = 50010000000000000000000000 := by
    subst hop
    unfold overCallsIn overCallsIn
    rw [emitMain_op, h5]
    show (if s.main.getHeight.val % 1000000 = 0 then 50010000000000000000000000 else 0) + 0 = _
    rw [h2, if_pos rfl]
  refine ⟨s, op, h1, hh, hin, ?_⟩
  have := C124_coin_books zeroEnv s [op] h1 f f' _ _ hh h3 h4 (by rw [hfin]; exact h6) h7
  omega

end BCT.Props
