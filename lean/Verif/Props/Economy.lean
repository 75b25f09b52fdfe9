import Verif.Props.Emit
import Verif.Props.Life
/-!
# C94, C95: how many coins there are
-/

namespace BCT.Props
open BCT

/-! ## C94 -/

/-- C94 at full strength: the end of an epoch adds the emission of one cycle to the coins there are. -/
def C94_full : Prop :=
  ∀ (E : Env) (s : Tree) (pow : BytesN 32) (founder : Address) (txs : List Hash) (ts : UInt64) (b : Block)
    (f f' : Spec.Accounts) (n n' : Nat), Run E s → s.main.getHeight.val + 1 < 2 ^ 256 →
    s.main.getHeight.val % 1000000 = 0 → (Tree.emitMain E pow founder txs ts s).out = .ok b →
    Shows s.summary f → Spec.Total f n → Shows (Tree.emitMain E pow founder txs ts s).final.summary f' →
    Spec.Total f' n' → n' = n + 50010000000000000000000000

theorem rotated_supply (s : Tree) :
    s.rotated.summary.cur.supply + (s.summary.cur.amt ROOT_PUBLIC_ADDRESS.val).val =
      s.summary.cur.supply + 50010000000000000000000000 :=
  KV.supply_insert s.summary.cur ROOT_PUBLIC_ADDRESS.val COINS_PER_CYCLE

/-- C94, what holds: the emission replaces what the root account holds, so the coins there are change by the emission
less the coins the root account held. Missing: that none are lost (`C94_refuted`). -/
theorem C94_exact_partial (E : Env) (s : Tree) (pow : BytesN 32) (founder : Address) (txs : List Hash) (ts : UInt64)
    (b : Block) (f f' : Spec.Accounts) (n n' : Nat) (hr : Run E s) (hm : s.main.getHeight.val + 1 < 2 ^ 256)
    (he : s.main.getHeight.val % 1000000 = 0) (ho : (Tree.emitMain E pow founder txs ts s).out = .ok b)
    (hf : Shows s.summary f) (hn : Spec.Total f n)
    (hf' : Shows (Tree.emitMain E pow founder txs ts s).final.summary f') (hn' : Spec.Total f' n') :
    n' + f ROOT_PUBLIC_ADDRESS.val = n + 50010000000000000000000000 := by
  obtain ⟨bs, h⟩ := run_holds hr hm
  have hi := run_storeInv hr
  have hi' : StoreInv E (Tree.emitMain E pow founder txs ts s).final :=
    run_storeInv (.call s (.emitMain pow founder txs ts) hr trivial)
  have e1 := (total_iff hi.summary.1 hf).mp hn
  have e2 := (total_iff hi'.summary.1 hf').mp hn'
  have e3 := shows_eq hf
  rcases emitMain_cases h hm pow founder txs ts with ⟨out, h1, h2, _⟩ | ⟨l, r, b', s0, c, tr, _, _, _, _, _, k6, k7, _, _, _, k11⟩
  · rw [h2] at ho; exact absurd ho (h1 b)
  · rcases k11 with ⟨hne, _⟩ | ⟨_, _, hb, hs0⟩
    · exact absurd (by rw [k6]; exact he) hne
    · rw [k7, hs0] at e2
      change n' = s.rotated.summary.cur.supply at e2
      rw [e1, e2, e3]
      exact rotated_supply s

/-- The accounts in which the root account holds `n` and nobody else anything. -/
def onlyRoot (n : Nat) : Spec.Accounts := Spec.Accounts.update (fun _ => 0) ROOT_PUBLIC_ADDRESS.val n

theorem total_onlyRoot (n : Nat) : Spec.Total (onlyRoot n) n := by
  refine ⟨[ROOT_PUBLIC_ADDRESS.val], by simp, fun q hq => ?_, ?_⟩
  · apply Classical.byContradiction
    intro hne
    apply hq
    unfold onlyRoot Spec.Accounts.update
    rw [if_neg (by simpa using hne)]
  · simp [onlyRoot, Spec.Accounts.update]

/-- While only blocks are emitted, the root account holds the emission of one cycle, whatever number of epochs. -/
theorem justEmit_coins {E : Env} {s : Tree} (hr : RunWith E JustEmit s) (hm : s.main.chain.height.val + 1 < U256.size) :
    Shows s.summary (onlyRoot 50010000000000000000000000) := by
  induction hr with
  | fresh => exact (C47_start E).1
  | call s op hs ho ih =>
    have hgr := (Op.sat (mainGrows_prims E (fun _ => True)) (Act.relF_closed (mainGrows_preord E _)) op op.adds_true s).1
    have hms : s.main.chain.height.val + 1 < U256.size := by omega
    have i := ih hms
    cases op with
    | emitMain p f txs ts =>
      obtain ⟨bs, h⟩ := run_holds (runWith_run hs) hms
      rw [emitMain_op]
      rcases emitMain_cases h hms p f txs ts with ⟨out, _, e, _⟩ |
        ⟨l, r, b', s0, c, tr, _, _, _, _, _, k6, k7, _, k9, _, k11⟩
      · rw [e]; exact i
      · rw [k7]
        rcases k11 with ⟨_, _, _, rfl⟩ | ⟨h0, _, _, rfl⟩
        · exact i
        · have := shows_insert (d := (Tree.rotateDbs s).final.summary) (run_storeInv (runWith_run hs)).summary.1
            ROOT_PUBLIC_ADDRESS.val COINS_PER_CYCLE
          have e2 : Spec.Accounts.update (fun k => ((Tree.rotateDbs s).final.summary.cur.amt k).val) ROOT_PUBLIC_ADDRESS.val
              COINS_PER_CYCLE.val = onlyRoot 50010000000000000000000000 := by
            have := shows_eq i
            funext q
            unfold onlyRoot Spec.Accounts.update
            split
            · rfl
            · rename_i hq
              have h1 := congrFun this q
              unfold onlyRoot Spec.Accounts.update at h1
              rw [if_neg hq] at h1
              exact h1.symm
          rw [e2] at this
          exact this
    | _ => exact ho.elim

/-- C94 is false. A node that only emits blocks never gets more coins, whatever number of epochs pass; and coins the
root account received are gone when the epoch ends. -/
theorem C94_refuted :
    (∀ (E : Env) (s : Tree), RunWith E JustEmit s → s.main.getHeight.val + 1 < 2 ^ 256 →
      ∃ f, Shows s.summary f ∧ Spec.Total f 50010000000000000000000000) ∧
    (∃ (s : Tree) (b : Block), Run zeroEnv s ∧ s.main.getHeight.val = 1000000 ∧
      (∃ f, Shows s.summary f ∧ Spec.Total f 50010000000000000000000001) ∧
      (Tree.emitMain zeroEnv (BytesN.fill 32 0) ROOT_PUBLIC_ADDRESS [] (1597924800 + 600 * 1000000) s).out = .ok b ∧
      ∃ f, Shows (Tree.emitMain zeroEnv (BytesN.fill 32 0) ROOT_PUBLIC_ADDRESS [] (1597924800 + 600 * 1000000)
        s).final.summary f ∧ Spec.Total f 50010000000000000000000000) ∧
    ¬ C94_full := by
  have h1 : ∀ (E : Env) (s : Tree), RunWith E JustEmit s → s.main.getHeight.val + 1 < 2 ^ 256 →
      ∃ f, Shows s.summary f ∧ Spec.Total f 50010000000000000000000000 :=
    fun E s hr hm => ⟨_, justEmit_coins hr hm, total_onlyRoot _⟩
  have h2 : ∃ (s : Tree) (b : Block), Run zeroEnv s ∧ s.main.getHeight.val = 1000000 ∧
      (∃ f, Shows s.summary f ∧ Spec.Total f 50010000000000000000000001) ∧
      (Tree.emitMain zeroEnv (BytesN.fill 32 0) ROOT_PUBLIC_ADDRESS [] (1597924800 + 600 * 1000000) s).out = .ok b ∧
      ∃ f, Shows (Tree.emitMain zeroEnv (BytesN.fill 32 0) ROOT_PUBLIC_ADDRESS [] (1597924800 + 600 * 1000000)
        s).final.summary f ∧ Spec.Total f 50010000000000000000000000 := by
    obtain ⟨s, last, k1, k2, k3, k4, _⟩ := steady_just 999999 (by omega)
    have hm : s.main.getHeight.val + 1 < U256.size := by
      have : U256.size > 20000000 := by decide
      have : s.main.getHeight.val = 999999 + 1 := k2
      omega
    have hc := justEmit_coins k1 hm
    have hr := runWith_run k1
    obtain ⟨q1, q2, _, q4⟩ := C47_coin_call zeroEnv s (.addAmount ROOT_PUBLIC_ADDRESS.val U256.one) _ _ hr rfl hc
    have hrun : Spec.LedgerCall.run (.add ROOT_PUBLIC_ADDRESS.val U256.one.val) (onlyRoot 50010000000000000000000000) =
        onlyRoot 50010000000000000000000001 := by
      unfold Spec.LedgerCall.run
      rw [Spec.LedgerCall.apply_add, if_pos (by decide +kernel)]
      funext q
      show (if _ then _ else _) = _
      unfold onlyRoot Spec.Accounts.update
      rw [if_pos rfl]
      by_cases h : q = ROOT_PUBLIC_ADDRESS.val
      · rw [if_pos h, if_pos h]; rfl
      · rw [if_neg h, if_neg h, if_neg h]
    rw [hrun] at q1
    have hs' : RunWith zeroEnv EmitOnly ((Op.addAmount ROOT_PUBLIC_ADDRESS.val U256.one).run zeroEnv s).final :=
      .call s _ (RunWith.mono (fun _ => JustEmit.emitOnly) k1) trivial
    have hmain : ((Op.addAmount ROOT_PUBLIC_ADDRESS.val U256.one).run zeroEnv s).final.main = s.main := by rw [q4]
    obtain ⟨s', es⟩ : ∃ s', s' = ((Op.addAmount ROOT_PUBLIC_ADDRESS.val U256.one).run zeroEnv s).final := ⟨_, rfl⟩
    rw [← es] at q1 hs' hmain
    have hle : last.info.timestamp ≤ 1597924800 + 600 * 1000000 := by
      rw [UInt64.le_iff_toNat_le, k4]; decide
    have := (C40_exact_partial zeroEnv s' last (BytesN.fill 32 0) ROOT_PUBLIC_ADDRESS []
      (1597924800 + 600 * 1000000) hs' (by rw [hmain]; exact hm) (by rw [hmain]; exact k3) (.inl hle)).2
      ((checkPow_iff ..).mp (checkPow_zero ..))
    have hh : s'.main.getHeight.val = 1000000 := by rw [hmain]; exact k2
    obtain ⟨b, hb, _⟩ := this.2.2 (by rw [hh]; simp)
    have hr' := runWith_run hs'
    have hi' := run_storeInv (.call s' (.emitMain (BytesN.fill 32 0) ROOT_PUBLIC_ADDRESS []
      (1597924800 + 600 * 1000000)) hr' trivial)
    refine ⟨s', b, hr', hh, ⟨_, q1, total_onlyRoot _⟩, hb, ?_⟩
    have hsh := shows_amt hi'.summary.1
    refine ⟨_, hsh, ?_⟩
    have := C94_exact_partial zeroEnv s' _ _ _ _ b _ _ _ _ hr' (by rw [hh]; decide) (by rw [hh]) hb q1 (total_onlyRoot _)
      hsh (supply_total hi'.summary.1 hsh)
    have hroot : onlyRoot 50010000000000000000000001 ROOT_PUBLIC_ADDRESS.val = 50010000000000000000000001 := by
      unfold onlyRoot Spec.Accounts.update; rw [if_pos rfl]
    rw [hroot] at this
    have e := supply_total hi'.summary.1 hsh
    rw [show KV.supply _ = 50010000000000000000000000 by omega] at e
    exact e
  refine ⟨h1, h2, fun hfull => ?_⟩
  obtain ⟨s, b, g1, g2, ⟨f, g3, g4⟩, g5, f', g6, g7⟩ := h2
  have := hfull zeroEnv s _ _ _ _ b f f' _ _ g1 (by rw [g2]; decide) (by rw [g2]) g5 g3 g4 g6 g7
  omega

/-! ## C95 -/

/-- The calls that do not write a balance directly. -/
def NoMint : Op → Prop
  | .addAmount _ _ => False
  | .setAmount _ _ => False
  | _ => True

/-- The calls that do not touch the coins. -/
def CoinFree : Op → Prop
  | .addAmount _ _ => False
  | .setAmount _ _ => False
  | .subAmount _ _ => False
  | .sendAmount _ _ _ => False
  | .sendTransaction _ => False
  | .emitMain _ _ _ _ => False
  | _ => True

theorem coinFree_same {E : Env} {op : Op} (ho : CoinFree op) (s : Tree) :
    (op.run E s).final.summary.cur = s.summary.cur := by
  have hT : Act.PreOrd (fun s t : Tree => t.summary.cur = s.summary.cur) := ⟨fun _ => rfl, fun a b => b.trans a⟩
  have C := Act.relF_closed hT
  have M : ∀ {α : Type} (x : Act MainChain α), Act.RelF (fun s t : Tree => t.summary.cur = s.summary.cur) (Tree.onMain x) :=
    fun x => Act.relF_zoom (Act.rel_true _).relF fun _ _ _ => rfl
  have G : ∀ x : Act Db Unit, Act.RelF (fun s t : Tree => t.summary.cur = s.summary.cur) (Tree.onGas x) :=
    fun x => Act.relF_zoom (Act.rel_true _).relF fun _ _ _ => rfl
  have D : ∀ o, Act.RelF (fun s t : Tree => t.summary.cur = s.summary.cur) (Tree.getDerivativeChain E o) := fun o =>
    (Tree.getDeriv_rel (R := fun s t : Tree => t.summary.cur = s.summary.cur) (fun _ => rfl) E o
      fun _ _ _ _ _ _ => rfl).relF
  have DD : ∀ o (x : Act DerivativeChain Unit), Act.RelF (fun s t : Tree => t.summary.cur = s.summary.cur)
      (Tree.onDeriv o x) := fun o x => Act.relF_zoom (Act.rel_true _).relF fun _ _ _ => rfl
  have key : Act.RelF (fun s t : Tree => t.summary.cur = s.summary.cur) (op.run E) := by
    cases op with
    | addBlock b => exact M _
    | addNewBlock b txs => exact C.bind (M _) fun _ => M _
    | addTransaction t => exact M _
    | addTransactions ts => exact M _
    | addGas o a => exact G _
    | subGas o a => exact G _
    | sendGas s t a => exact G _
    | emitDerivative p f ts => exact fun s => congrArg Db.cur (C44_isolation E s p f ts).2.1
    | getDerivativeChain o => exact D o
    | derivAddBlock o b => exact C.bind (D o) fun _ => DD o _
    | derivFlush o => exact C.bind (D o) fun _ => DD o _
    | mainFlush => exact M _
    | flush =>
      change Act.RelF _ Tree.flush
      unfold Tree.flush
      exact C.bind (M _) fun _ => C.bind (Act.relF_step fun _ => rfl) fun _ =>
        C.bind (Act.relF_step fun _ => rfl) fun _ => C.bind (Act.relF_step fun _ => rfl) fun _ =>
          Act.relF_step fun _ => rfl
    | _ => exact ho.elim
  exact key s

theorem epochs_mono {a b : Nat} (h : a ≤ b) : (a - 1) / 1000000 ≤ (b - 1) / 1000000 :=
  Nat.div_le_div_right (by omega)

theorem noMint_supply {E : Env} {s : Tree} (hr : RunWith E NoMint s) (hm : s.main.chain.height.val + 1 < U256.size) :
    1 ≤ s.main.chain.height.val ∧
    s.summary.cur.supply ≤ 50010000000000000000000000 * (1 + (s.main.chain.height.val - 1) / 1000000) := by
  induction hr with
  | fresh =>
    rw [(openTree_fresh E).2]
    refine ⟨Nat.le_refl _, ?_⟩
    have := KV.supply_insert KV.empty ROOT_PUBLIC_ADDRESS.val COINS_PER_CYCLE
    have h0 : KV.empty.supply = 0 := rfl
    have h1 : (COINS_PER_CYCLE : U256).val = 50010000000000000000000000 := by decide +kernel
    rw [h0, h1] at this
    change (KV.empty.insert ROOT_PUBLIC_ADDRESS.val (Ledger.encode COINS_PER_CYCLE)).supply ≤ _
    omega
  | call s op hs ho ih =>
    have hgr := (Op.sat (mainGrows_prims E (fun _ => True)) (Act.relF_closed (mainGrows_preord E _)) op op.adds_true s).1
    have hms : s.main.chain.height.val + 1 < U256.size := by omega
    obtain ⟨i1, i2⟩ := ih hms
    have hi := run_storeInv (runWith_run hs)
    have key : (op.run E s).final.summary.cur.supply ≤ s.summary.cur.supply →
        1 ≤ (op.run E s).final.main.chain.height.val ∧ (op.run E s).final.summary.cur.supply ≤
          50010000000000000000000000 * (1 + ((op.run E s).final.main.chain.height.val - 1) / 1000000) := by
      intro hle
      have := epochs_mono hgr
      refine ⟨by omega, ?_⟩
      have : 50010000000000000000000000 * (1 + (s.main.chain.height.val - 1) / 1000000) ≤
        50010000000000000000000000 * (1 + ((op.run E s).final.main.chain.height.val - 1) / 1000000) :=
        Nat.mul_le_mul_left _ (by omega)
      omega
    by_cases hf : CoinFree op
    · exact key (Nat.le_of_eq (by rw [coinFree_same hf]))
    · cases op with
      | sendAmount a b n => exact key (Nat.le_of_eq (transfer_supply_inv (op := .sendAmount a b n) hi trivial _ (.inl rfl)))
      | sendTransaction tx => exact key (Nat.le_of_eq (transfer_supply_inv (op := .sendTransaction tx) hi trivial _ (.inl rfl)))
      | subAmount o a =>
        refine key ?_
        change ((Tree.onSummary (Ledger.sub o a)) s).final.summary.cur.supply ≤ _
        unfold Tree.onSummary
        rw [Act.zoom_run]
        rcases Ledger.sub_run hi.summary.1 o a with ⟨h, e⟩ | ⟨h, e⟩
        · rw [e]
          have := KV.supply_insert s.summary.cur o ⟨(s.summary.cur.amt o).val - a.val, Ledger.sub_lt⟩
          change (s.summary.cur.insert o _).supply ≤ _
          simp only at this
          omega
        · rw [e]; exact Nat.le_refl _
      | emitMain p f txs ts =>
        obtain ⟨bs, h⟩ := run_holds (runWith_run hs) hms
        rw [emitMain_op]
        rcases emitMain_cases h hms p f txs ts with ⟨out, _, e, _⟩ |
          ⟨l, r, b', s0, c, tr, _, _, _, _, _, k6, k7, _, k9, _, k11⟩
        · rw [e]; exact ⟨i1, i2⟩
        · rw [k7]
          have hh : c.height.val = s.main.chain.height.val + 1 := by rw [k9]; rfl
          change 1 ≤ c.height.val ∧ s0.summary.cur.supply ≤ 50010000000000000000000000 * (1 + (c.height.val - 1) / 1000000)
          rw [hh]
          refine ⟨by omega, ?_⟩
          rcases k11 with ⟨_, _, _, rfl⟩ | ⟨h0, _, _, rfl⟩
          · have : (s0.main.chain.height.val - 1) / 1000000 ≤ s0.main.chain.height.val / 1000000 :=
              Nat.div_le_div_right (by omega)
            simp only [Nat.add_sub_cancel]
            omega
          · have h0' : s.main.chain.height.val % 1000000 = 0 := by rw [← k6]; exact h0
            have := rotated_supply s
            have : (s.main.chain.height.val - 1) / 1000000 + 1 = s.main.chain.height.val / 1000000 := by omega
            simp only [Nat.add_sub_cancel]
            omega
      | addAmount _ _ => exact ho.elim
      | setAmount _ _ => exact ho.elim
      | _ => exact absurd trivial hf

/-- C95. As long as balances are not written directly, a node whose main chain has `height` blocks holds at most the
emission of one cycle for the start and one for every full epoch, however the other calls are mixed. -/
theorem C95_supply (E : Env) (s : Tree) (f : Spec.Accounts) (n : Nat) (hr : RunWith E NoMint s)
    (hm : s.main.getHeight.val + 1 < 2 ^ 256) (hf : Shows s.summary f) (hn : Spec.Total f n) :
    n ≤ 50010000000000000000000000 * (1 + (s.main.getHeight.val - 1) / 1000000) := by
  rw [(total_iff (run_storeInv (runWith_run hr)).summary.1 hf).mp hn]
  exact (noMint_supply hr hm).2

theorem total_pair {f : Spec.Accounts} {n : Nat} (h : Spec.Total f n) {a b : Bytes} (hab : a ≠ b) : f a + f b ≤ n := by
  obtain ⟨l, hl, hc, rfl⟩ := h
  have one : ∀ (l : List Bytes) (a : Bytes), (f a ≠ 0 → a ∈ l) → f a ≤ (l.map f).sum := by
    intro l a h
    by_cases h0 : f a = 0
    · omega
    · have := h h0
      clear hc hl h
      induction l with
      | nil => simp at this
      | cons x l ih =>
        rw [List.map_cons, List.sum_cons]
        rcases List.mem_cons.mp this with rfl | h
        · omega
        · have := ih h; omega
  have two : ∀ l : List Bytes, l.Nodup → (f a ≠ 0 → a ∈ l) → (f b ≠ 0 → b ∈ l) → f a + f b ≤ (l.map f).sum := by
    intro l
    induction l with
    | nil =>
      intro _ h1 h2
      have : f a = 0 := Classical.byContradiction fun h => by simpa using h1 h
      have : f b = 0 := Classical.byContradiction fun h => by simpa using h2 h
      omega
    | cons x l ih =>
      intro hd h1 h2
      rw [List.map_cons, List.sum_cons]
      by_cases ha : a = x
      · subst ha
        have := one l b fun h => (List.mem_cons.mp (h2 h)).resolve_left (Ne.symm hab)
        omega
      · by_cases hb : b = x
        · subst hb
          have := one l a fun h => (List.mem_cons.mp (h1 h)).resolve_left hab
          omega
        · have := ih (List.nodup_cons.mp hd).2 (fun h => (List.mem_cons.mp (h1 h)).resolve_left ha)
            (fun h => (List.mem_cons.mp (h2 h)).resolve_left hb)
          omega
  exact two l hl (hc a) (hc b)

/-- C95, consequence: up to `10 ^ 57` blocks no transfer of coins can overflow; it succeeds exactly when the sender has
the amount. -/
theorem C95_no_overflow (E : Env) (s : Tree) (f : Spec.Accounts) (a b : Bytes) (n : U256) (hr : RunWith E NoMint s)
    (hm : s.main.getHeight.val ≤ 10 ^ 57) (hf : Shows s.summary f) (hab : a ≠ b) :
    (((Op.sendAmount a b n).run E s).out = .ok () ↔ n.val ≤ f a) ∧
    (n.val ≤ f a → Shows ((Op.sendAmount a b n).run E s).final.summary
      ((f.update a (f a - n.val)).update b (f b + n.val))) := by
  have hrun := runWith_run hr
  have hsize : (10 : Nat) ^ 57 + 1 < 2 ^ 256 := by decide +kernel
  have ht := supply_total (run_storeInv hrun).summary.1 hf
  have hs := C95_supply E s f _ hr (by omega) hf ht
  have hp := total_pair ht hab
  have hdiv : (s.main.getHeight.val - 1) / 1000000 ≤ 10 ^ 51 := by
    have : (s.main.getHeight.val - 1) / 1000000 ≤ 10 ^ 57 / 1000000 := Nat.div_le_div_right (by omega)
    have h2 : (10 : Nat) ^ 57 / 1000000 = 10 ^ 51 := by decide +kernel
    omega
  have hbound : 50010000000000000000000000 * (1 + 10 ^ 51) < 2 ^ 256 := by decide +kernel
  have hmul : 50010000000000000000000000 * (1 + (s.main.getHeight.val - 1) / 1000000) ≤
    50010000000000000000000000 * (1 + 10 ^ 51) := Nat.mul_le_mul_left _ (by omega)
  obtain ⟨c1, c2, _⟩ := C47_coin_call E s (.sendAmount a b n) _ f hrun rfl hf
  have happ : n.val ≤ f a → Spec.LedgerCall.apply (.send a b n.val) f =
      some ((f.update a (f a - n.val)).update b (f b + n.val)) := fun h => by
    rw [Spec.LedgerCall.apply_send, if_neg hab, if_pos ⟨h, by omega⟩]
  refine ⟨?_, fun h => ?_⟩
  · rw [c2]
    by_cases h : n.val ≤ f a
    · rw [happ h]; simp [h]
    · rw [Spec.LedgerCall.apply_send, if_neg hab, if_neg (fun k => h k.1)]; simp [h]
  · unfold Spec.LedgerCall.run at c1
    rw [happ h] at c1
    exact c1

/-- The hypotheses are met, with more than one account holding coins: on a fresh node the root account pays. -/
example : ∃ s, RunWith zeroEnv NoMint s ∧ s.main.getHeight.val = 1 ∧ ∃ f, Shows s.summary f ∧ f exA = 7 ∧
    f ROOT_PUBLIC_ADDRESS.val = 50009999999999999999999993 := by
  have h := (C47_start zeroEnv).1
  have hr : RunWith zeroEnv NoMint (openTree zeroEnv Disk.empty).final := .fresh
  have hh : (openTree zeroEnv Disk.empty).final.main.getHeight.val = 1 := by
    rw [(openTree_fresh zeroEnv).2]; rfl
  have hne : ROOT_PUBLIC_ADDRESS.val ≠ exA := by decide +kernel
  have := (C95_no_overflow zeroEnv _ _ ROOT_PUBLIC_ADDRESS.val exA ⟨7, by decide⟩ hr (by rw [hh]; decide) h hne).2
    (by simp [Spec.Accounts.update])
  refine ⟨_, .call _ (.sendAmount ROOT_PUBLIC_ADDRESS.val exA ⟨7, by decide⟩) hr trivial, ?_, _, this, ?_, ?_⟩
  · rw [(C47_coin_call zeroEnv _ (.sendAmount ROOT_PUBLIC_ADDRESS.val exA ⟨7, by decide⟩) _ _ (runWith_run hr) rfl h).2.2.2]
    exact hh
  · simp [Spec.Accounts.update, hne.symm]
  · simp [Spec.Accounts.update, hne]

/-- And after an epoch. -/
example : ∃ s, RunWith zeroEnv NoMint s ∧ s.main.getHeight.val = 1000002 ∧ ∃ f, Shows s.summary f := by
  obtain ⟨s, _, h1, h2, _⟩ := steady_just 1000001 (by omega)
  exact ⟨s, RunWith.mono (fun op h => by cases op <;> first | trivial | exact h.elim) h1, h2,
    _, justEmit_coins h1 (by rw [h2]; decide)⟩

end BCT.Props
