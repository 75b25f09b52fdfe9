import Verif.Lemmas.Emit
import Verif.Lemmas.Deriv
/-!
# `emmit_new_derivative_block`, case by case
-/

namespace BCT
open BCT.Props

/-- The block `emmit_new_derivative_block` builds once the chain is open. -/
def derivChecks (E : Env) (t : Tree) (pow : BytesN 32) (founder : Address) (ts : UInt64) : Outcome DerivativeBlock := do
  let last ← (t.handle founder).getLastBlock
  let r ← (match last with
    | some block => do
      let h ← block.defaultInfo.height.add U256.one
      Outcome.ok (block.hash E, block.defaultInfo.difficulty, block.defaultInfo.timestamp, h)
    | none => do
      let found ← t.main.findByHash (t.handle founder).genesisHash
      match found with
      | none => Outcome.err .chainFindByHashE
      | some block => Outcome.ok (block.hash E, BEGINNING_DIFFICULTY, block.info.timestamp, U256.zero))
  let good ← checkPow E r.1 r.2.1 [] pow.val
  if !good then .err .treeWrongPow
  else do
    let difficulty ← recalculateDifficulty E r.2.2.1 ts r.2.1
    .ok ⟨{ timestamp := ts, pow, previousHash := r.1, height := r.2.2.2, difficulty, founder }⟩

theorem emitDerivative_checks (E : Env) (pow : BytesN 32) (founder : Address) (ts : UInt64) :
    Tree.emitDerivative E pow founder ts = (Tree.getDerivativeChain E founder >>= fun _ => Act.get >>= fun t =>
      Act.lift (derivChecks E t pow founder ts) >>= fun b =>
        Tree.onDeriv founder (DerivativeChain.addBlock E b) >>= fun _ => pure (Block.derivative b)) := by
  unfold Tree.emitDerivative derivChecks
  congr 1
  funext _
  congr 1
  funext t
  simp only [lift_bind_assoc, Act.bind_assoc']
  congr 1
  funext last
  congr 1
  funext r
  congr 1
  funext good
  cases good with
  | false => simp only [Bool.not_false, if_true, Act.lift_err_bind]
  | true =>
    simp only [Bool.not_true, Bool.false_eq_true, if_false, lift_bind_assoc, Act.bind_assoc', Act.lift_ok_bind]

/-- The first block of a derivative chain on top of a main chain with the blocks `main`. -/
def Anchored (E : Env) (main : List Block) (d : DerivativeBlock) : Prop :=
  ∃ a ∈ main, a.IsMain ∧ d.defaultInfo.previousHash = a.hash E ∧ d.defaultInfo.height.val = 0 ∧
    recalculateDifficulty E a.info.timestamp d.defaultInfo.timestamp BEGINNING_DIFFICULTY = .ok d.defaultInfo.difficulty

/-- A derivative chain as `emmit_new_derivative_block` builds it. -/
structure DLinked (E : Env) (main : List Block) (ds : List DerivativeBlock) : Prop where
  first : ∀ d, ds[0]? = some d → Anchored E main d
  next : ∀ i a b, ds[i]? = some a → ds[i + 1]? = some b → NextInfo E (.derivative a) b.defaultInfo

theorem DLinked.mono {E : Env} {m m' : List Block} {ds : List DerivativeBlock} (h : DLinked E m ds)
    (hm : ∀ b ∈ m, b ∈ m') : DLinked E m' ds :=
  ⟨fun d hd => by obtain ⟨a, ha, h'⟩ := h.first d hd; exact ⟨a, hm a ha, h'⟩, h.next⟩

theorem DLinked.snoc {E : Env} {m : List Block} {ds : List DerivativeBlock} {d : DerivativeBlock} (h : DLinked E m ds)
    (hd : (ds = [] ∧ Anchored E m d) ∨ ∃ a, ds.getLast? = some a ∧ NextInfo E (.derivative a) d.defaultInfo) :
    DLinked E m (ds ++ [d]) := by
  refine ⟨fun x hx => ?_, fun i a b ha hb => ?_⟩
  · rcases hd with ⟨rfl, hA⟩ | ⟨a, ha, _⟩
    · simp at hx; subst hx; exact hA
    · cases ds with
      | nil => simp at ha
      | cons y l => exact h.first x (by simpa using hx)
  · by_cases hi : i + 1 < ds.length
    · rw [List.getElem?_append_left hi] at hb
      rw [List.getElem?_append_left (by omega)] at ha
      exact h.next i a b ha hb
    · have hlt : i + 1 < (ds ++ [d]).length := (List.getElem?_eq_some_iff.mp hb).1
      simp only [List.length_append, List.length_singleton] at hlt
      have hl : i + 1 = ds.length := by omega
      rw [hl, List.getElem?_append_right (Nat.le_refl _)] at hb
      simp at hb
      subst hb
      rw [List.getElem?_append_left (by omega)] at ha
      rcases hd with ⟨rfl, _⟩ | ⟨a', ha', hn⟩
      · simp at hl
      · rw [List.getLast?_eq_getElem?, show ds.length - 1 = i from by omega, ha] at ha'
        cases ha'; exact hn

/-- A block found by hash on the main chain is one of its blocks. -/
theorem Chain.Holds.found_mem {E : Env} {m : MainChain} {bs : List Block} (h : Chain.Holds E m.chain (genesis E :: bs))
    {q : Hash} {b : Block} (hf : m.findByHash q = .ok (some b)) : b ∈ genesis E :: bs ∧ b.IsMain := by
  unfold MainChain.findByHash MainChain.findRawByHash at hf
  rcases h.findByHash q with ⟨i, hi, _, e⟩ | ⟨_, e⟩
  · rw [e, Outcome.ok_bind] at hf
    cases hb : (genesis E :: bs)[i] with
    | derivative d =>
      rw [hb] at hf
      obtain ⟨e', he'⟩ := C11_main_block_read_back_partial.2.1 d
      simp [MainChain.decode, Block.dump, he'] at hf
    | transaction t =>
      have hm : (genesis E :: bs)[i].IsMain := by rw [hb]; trivial
      have hz : i ≠ 0 := by rintro rfl; cases hb
      rw [decode_main _ hm (.inl (by rw [h.heights i hi]; exact hz))] at hf
      cases hf; exact ⟨List.getElem_mem hi, hm⟩
    | summarize t =>
      have hm : (genesis E :: bs)[i].IsMain := by rw [hb]; trivial
      rw [decode_main _ hm (.inr ⟨t, hb⟩)] at hf
      cases hf; exact ⟨List.getElem_mem hi, hm⟩
  · rw [e, Outcome.ok_bind] at hf
    simp [MainChain.decode] at hf

theorem derivLast {E : Env} {c : DerivativeChain} {ds : List DerivativeBlock}
    (h : Chain.Holds E c.chain (ds.map Block.derivative)) : c.getLastBlock = .ok ds.getLast? := by
  have hl := h.len
  rw [List.length_map] at hl
  unfold DerivativeChain.getLastBlock DerivativeChain.getLastRawBlock
  by_cases hz : c.chain.height.val = 0
  · rw [if_pos hz]
    have : ds = [] := List.length_eq_zero_iff.mp (by omega)
    subst this; rfl
  · rw [if_neg hz, lastIndex (by omega)]
    simp only [Outcome.ok_bind]
    rw [h.findRaw, List.getElem?_map]
    show DerivativeChain.decode (Option.map Block.dump (Option.map Block.derivative ds[c.chain.height.val - 1]?)) = _
    rw [← hl, ← List.getLast?_eq_getElem?]
    cases hg : ds.getLast? with
    | none => rfl
    | some d => exact decode_deriv d

theorem derivChecks_ok {E : Env} {t : Tree} {pow : BytesN 32} {founder : Address} {ts : UInt64} {d : DerivativeBlock}
    {bs : List Block} {ds : List DerivativeBlock} (hm : Chain.Holds E t.main.chain (genesis E :: bs))
    (hd : Chain.Holds E (t.handle founder).chain (ds.map Block.derivative))
    (h : derivChecks E t pow founder ts = .ok d) :
    d.defaultInfo.height = (t.handle founder).chain.height ∧
    ((ds = [] ∧ Anchored E (genesis E :: bs) d) ∨
      ∃ a, ds.getLast? = some a ∧ NextInfo E (.derivative a) d.defaultInfo) := by
  have hlen := hd.len
  rw [List.length_map] at hlen
  unfold derivChecks at h
  rw [derivLast hd] at h
  simp only [Outcome.ok_bind] at h
  have tail : ∀ (ph df : Hash) (pts : UInt64) (ht : U256),
      (do
        let good ← checkPow E ph df [] pow.val
        if !good then Outcome.err .treeWrongPow
        else do
          let difficulty ← recalculateDifficulty E pts ts df
          Outcome.ok (⟨{ timestamp := ts, pow, previousHash := ph, height := ht, difficulty, founder }⟩ : DerivativeBlock)) =
        .ok d → d.defaultInfo.previousHash = ph ∧ d.defaultInfo.height = ht ∧
          recalculateDifficulty E pts d.defaultInfo.timestamp df = .ok d.defaultInfo.difficulty := by
    intro ph df pts ht h
    cases hc : checkPow E ph df [] pow.val with
    | err e => simp [hc] at h
    | panic e => simp [hc] at h
    | ub => simp [hc] at h
    | ok g =>
      cases g with
      | false => simp [hc] at h
      | true =>
        simp only [hc, Outcome.ok_bind, Bool.not_true, Bool.false_eq_true, if_false] at h
        cases hr : recalculateDifficulty E pts ts df with
        | err e => simp [hr] at h
        | panic e => simp [hr] at h
        | ub => simp [hr] at h
        | ok dd =>
          simp only [hr, Outcome.ok_bind, Outcome.ok.injEq] at h
          subst h
          exact ⟨rfl, rfl, hr⟩
  cases hg : ds.getLast? with
  | none =>
    have hnil : ds = [] := List.getLast?_eq_none_iff.mp hg
    subst hnil
    simp only [List.getLast?_nil] at h
    cases hf : t.main.findByHash (t.handle founder).genesisHash with
    | err e => simp [hf] at h
    | panic e => simp [hf] at h
    | ub => simp [hf] at h
    | ok o =>
      cases o with
      | none => simp [hf] at h
      | some a =>
        simp only [hf, Outcome.ok_bind] at h
        obtain ⟨h1, h2, h3⟩ := tail _ _ _ _ h
        have hz : (t.handle founder).chain.height.val = 0 := hlen.symm
        exact ⟨by rw [h2]; exact U256.ext hz.symm, .inl ⟨rfl, a, (hm.found_mem hf).1, (hm.found_mem hf).2, h1, by rw [h2]; rfl, h3⟩⟩
  | some a =>
    rw [hg] at h
    simp only at h
    cases hh : a.defaultInfo.height.add U256.one with
    | err e => simp [hh] at h
    | panic e => simp [hh] at h
    | ub => simp [hh] at h
    | ok x =>
      simp only [hh, Outcome.ok_bind] at h
      obtain ⟨h1, h2, h3⟩ := tail _ _ _ _ h
      have hx : x.val = a.defaultInfo.height.val + 1 := by
        unfold U256.add at hh
        split at hh
        · cases hh; rfl
        · cases hh
      have hal : a.defaultInfo.height.val + 1 = (t.handle founder).chain.height.val := by
        rw [List.getLast?_eq_getElem?] at hg
        obtain ⟨hi, e⟩ := List.getElem?_eq_some_iff.mp hg
        have := hd.heights (ds.length - 1) (by rw [List.length_map]; exact hi)
        rw [List.getElem_map, e] at this
        change a.defaultInfo.height.val = _ at this
        omega
      refine ⟨by rw [h2]; exact U256.ext (by omega), .inr ⟨a, rfl, h1, ?_, h3⟩⟩
      rw [h2]; exact hx

/-- Nothing but the record of open derivative chains may differ. -/
structure Opened (s t : Tree) : Prop where
  main : t.main = s.main
  summary : t.summary = s.summary
  gas : t.gas = s.gas
  oldSummary : t.oldSummary = s.oldSummary
  oldGas : t.oldGas = s.oldGas
  chains : ∀ o, (t.handle o).chain = (s.handle o).chain

theorem getDeriv_opened {E : Env} {s : Tree} (hc : DerivClean s) (o : Address) :
    Opened s (Tree.getDerivativeChain E o s).final ∧
    ∀ o', o' ≠ o → (Tree.getDerivativeChain E o s).final.handle o' = s.handle o' := by
  rcases Tree.getDeriv_cases E o s with ⟨_, h⟩ | ⟨hm, ⟨out, _, h⟩ | ⟨b, c, _, hn, h⟩⟩
  · rw [h]; exact ⟨⟨rfl, rfl, rfl, rfl, rfl, fun _ => rfl⟩, fun _ _ => rfl⟩
  · rw [h]; exact ⟨⟨rfl, rfl, rfl, rfl, rfl, fun _ => rfl⟩, fun _ _ => rfl⟩
  · rw [h]
    refine ⟨⟨rfl, rfl, rfl, rfl, rfl, fun o' => ?_⟩, fun o' ho => Tree.handle_put_other c s ho⟩
    by_cases ho : o' = o
    · subst ho
      rw [hc o' hm, DerivativeChain.new_fresh] at hn
      cases hn
      show ((Tree.putHandle o' _ s).handle o').chain = _
      rw [Tree.handle_put_self, Tree.handle_closed hm (hc o' hm)]
    · show ((Tree.putHandle o _ s).handle o').chain = _
      rw [Tree.handle_put_other c s ho]

/-- Emitting for one owner leaves everything else alone, whatever the outcome. -/
theorem emitDerivative_frame (E : Env) (s : Tree) (p : BytesN 32) (f : Address) (ts : UInt64) :
    let t := (Tree.emitDerivative E p f ts s).final
    t.main = s.main ∧ t.summary = s.summary ∧ t.gas = s.gas ∧ t.oldSummary = s.oldSummary ∧ t.oldGas = s.oldGas ∧
      ∀ o, o ≠ f → t.handle o = s.handle o := by
  have P : Act.PreOrd (fun a b : Tree => b.main = a.main ∧ b.summary = a.summary ∧ b.gas = a.gas ∧
      b.oldSummary = a.oldSummary ∧ b.oldGas = a.oldGas ∧ ∀ o, o ≠ f → b.handle o = a.handle o) :=
    ⟨fun _ => ⟨rfl, rfl, rfl, rfl, rfl, fun _ _ => rfl⟩, fun h1 h2 =>
      ⟨h2.1.trans h1.1, h2.2.1.trans h1.2.1, h2.2.2.1.trans h1.2.2.1, h2.2.2.2.1.trans h1.2.2.2.1,
        h2.2.2.2.2.1.trans h1.2.2.2.2.1, fun o ho => (h2.2.2.2.2.2 o ho).trans (h1.2.2.2.2.2 o ho)⟩⟩
  have C := Act.relF_closed P
  rw [emitDerivative_checks]
  have hx : Act.RelF (fun a b : Tree => b.main = a.main ∧ b.summary = a.summary ∧ b.gas = a.gas ∧
      b.oldSummary = a.oldSummary ∧ b.oldGas = a.oldGas ∧ ∀ o, o ≠ f → b.handle o = a.handle o)
      (Tree.getDerivativeChain E f) := by
    intro s
    rcases Tree.getDeriv_cases E f s with ⟨_, h⟩ | ⟨hm, ⟨out, _, h⟩ | ⟨b, c, _, hn, h⟩⟩
    · rw [h]; exact P.refl _
    · rw [h]; exact P.refl _
    · rw [h]; exact ⟨rfl, rfl, rfl, rfl, rfl, fun o ho => Tree.handle_put_other c s ho⟩
  refine C.bind hx (fun _ => C.bind C.get fun t => C.bind (C.lift _) fun b => C.bind ?_ fun _ => C.pure _) s
  intro s
  exact ⟨rfl, rfl, rfl, rfl, rfl, fun o ho => Tree.handle_put_other _ s ho⟩

theorem emitDerivative_other (E : Env) (s : Tree) (p : BytesN 32) (f : Address) (ts : UInt64)
    (o : Address) (ho : o ≠ f) : (Tree.emitDerivative E p f ts s).final.handle o = s.handle o :=
  (emitDerivative_frame E s p f ts).2.2.2.2.2 o ho

/-- Everything `emmit_new_derivative_block` can do. -/
theorem emitDerivative_cases {E : Env} {s : Tree} {bs : List Block} {ds : List DerivativeBlock} {f : Address}
    (hc : DerivClean s) (hm : Chain.Holds E s.main.chain (genesis E :: bs))
    (hd : Chain.Holds E (s.handle f).chain (ds.map Block.derivative))
    (hh : (s.handle f).chain.height.val + 1 < U256.size) (pow : BytesN 32) (ts : UInt64) :
    ((∀ b, (Tree.emitDerivative E pow f ts s).out ≠ .ok b) ∧ Opened s (Tree.emitDerivative E pow f ts s).final ∧
      ∀ o', o' ≠ f → (Tree.emitDerivative E pow f ts s).final.handle o' = s.handle o') ∨
    ∃ d : DerivativeBlock, (Tree.emitDerivative E pow f ts s).out = .ok (.derivative d) ∧
      (let t := (Tree.emitDerivative E pow f ts s).final
       t.main = s.main ∧ t.summary = s.summary ∧ t.gas = s.gas ∧ t.oldSummary = s.oldSummary ∧ t.oldGas = s.oldGas ∧
       (∀ o', o' ≠ f → t.handle o' = s.handle o') ∧
       Chain.Holds E (t.handle f).chain ((ds ++ [d]).map Block.derivative)) ∧
      ((ds = [] ∧ Anchored E (genesis E :: bs) d) ∨
        ∃ a, ds.getLast? = some a ∧ NextInfo E (.derivative a) d.defaultInfo) := by
  rw [emitDerivative_checks]
  obtain ⟨ho, hoth⟩ := getDeriv_opened (E := E) hc f
  obtain ⟨s1, hs1⟩ : ∃ s1, s1 = (Tree.getDerivativeChain E f s).final := ⟨_, rfl⟩
  rw [← hs1] at ho hoth
  cases hout : (Tree.getDerivativeChain E f s).out with
  | err e => rw [Act.bind_err (s := s) (by rw [← hout])]; left; rw [← hs1]; exact ⟨by simp, ho, hoth⟩
  | panic e => rw [Act.bind_panic (s := s) (by rw [← hout])]; left; rw [← hs1]; exact ⟨by simp, ho, hoth⟩
  | ub => rw [Act.bind_ub (s := s) (by rw [← hout])]; left; rw [← hs1]; exact ⟨by simp, ho, hoth⟩
  | ok u =>
    rw [Act.bind_ok (s := s) (a := u) (s' := s1) (by rw [hs1, ← hout]), Act.get_bind]
    cases hk : derivChecks E s1 pow f ts with
    | err e => left; simp only [Act.lift_err_bind]; exact ⟨fun _ h => (by cases h), ho, hoth⟩
    | panic e => left; simp only [Act.lift_panic_bind]; exact ⟨fun _ h => (by cases h), ho, hoth⟩
    | ub => left; simp only [Act.lift_ub_bind]; exact ⟨fun _ h => (by cases h), ho, hoth⟩
    | ok d =>
      right
      have hd1 : Chain.Holds E (s1.handle f).chain (ds.map Block.derivative) := by rw [ho.chains]; exact hd
      obtain ⟨k1, k2⟩ := derivChecks_ok (by rw [ho.main]; exact hm) hd1 hk
      have hh1 : (s1.handle f).chain.height.val + 1 < U256.size := by rw [ho.chains]; exact hh
      have hadd : ∃ tr, Tree.onDeriv f (DerivativeChain.addBlock E d) s1 = ⟨.ok (),
          Tree.putHandle f { s1.handle f with
            chain := (s1.handle f).chain.put3 E d.dump ⟨(s1.handle f).chain.height.val + 1, hh1⟩ } s1, tr⟩ := by
        unfold Tree.onDeriv DerivativeChain.addBlock DerivativeChain.onChain
        rw [Act.zoom_run, Act.zoom_run, k1, Chain.addBlock_right hh1]
        exact ⟨_, rfl⟩
      obtain ⟨tr, hadd⟩ := hadd
      rw [Act.lift_ok_bind, Act.bind_ok hadd]
      refine ⟨d, rfl, ⟨ho.main, ho.summary, ho.gas, ho.oldSummary, ho.oldGas, fun o' ho' => ?_, ?_⟩, k2⟩
      · show (Tree.putHandle f _ s1).handle o' = _
        rw [Tree.handle_put_other _ _ ho', hoth o' ho']
      · show Chain.Holds E ((Tree.putHandle f _ s1).handle f).chain _
        rw [Tree.handle_put_self]
        have := hd1.addBlock (b := .derivative d) k1 hh1
        change Chain.Holds E (Chain.addBlock E d.defaultInfo.height d.dump _).final _ at this
        rw [k1, Chain.addBlock_right hh1] at this
        rw [List.map_append]
        exact this

/-- Histories in which derivative-chain blocks come from `emmit_new_derivative_block` only. -/
def DerivEmitOnly : Op → Prop
  | .derivAddBlock _ _ => False
  | _ => True

theorem emitMain_derivSame (E : Env) (p : BytesN 32) (f : Address) (txs : List Hash) (ts : UInt64) :
    Act.Rel DerivSame (Tree.emitMain E p f txs ts) := by
  have C := Act.rel_closed derivSame_preord
  unfold Tree.emitMain
  refine C.bind C.get fun t => C.bind (C.lift _) fun _ => C.bind (C.lift _) fun _ => C.bind (C.lift _) fun _ => ?_
  split
  · exact C.lift _
  · refine C.bind (C.lift _) fun _ => C.bind (C.lift _) fun _ => C.bind (C.lift _) fun _ => ?_
    split
    · split
      · rw [Act.lift_err_bind]; exact C.lift _
      · simp only [Act.bind_assoc', Act.pure_bind']
        exact C.bind (C.lift _) fun _ => C.bind Tree.rotate_derivSame fun _ =>
          C.bind (Tree.onSummary_derivSame _) fun _ => C.bind (Tree.onMain_derivSame _) fun _ => C.pure _
    · split
      · rw [Act.lift_err_bind]; exact C.lift _
      · simp only [Act.bind_assoc', Act.pure_bind']
        exact C.bind (C.lift _) fun _ => C.bind (Tree.onMain_derivSame _) fun _ => C.pure _

theorem sendTransaction_derivSame (E : Env) (tx : Transaction) : Act.Rel DerivSame (Tree.sendTransaction E tx) := by
  have C := Act.rel_closed derivSame_preord
  unfold Tree.sendTransaction
  refine C.bind C.get fun t => C.bind (C.lift _) fun g => C.bind (C.lift _) fun a => C.bind (C.lift _) fun r => ?_
  split
  · exact C.lift _
  · refine C.bind (C.lift _) fun _ => C.bind (C.lift _) fun _ => C.bind (C.lift _) fun _ => C.bind (C.lift _) fun _ => ?_
    split
    · exact C.lift _
    · refine C.bind (Tree.onMain_derivSame _) fun _ => C.bind ?_ fun _ => Tree.onGas_derivSame _
      unfold Tree.sendAmount
      split
      · exact C.pure ()
      · exact Tree.onSummary_derivSame _

/-- The contents of every derivative chain stay. -/
def ChainsSame (s t : Tree) : Prop := ∀ o, Chain.Same (s.handle o).chain (t.handle o).chain

/-- Calls other than emitting derivative blocks and adding them keep the contents of all derivative chains. -/
theorem other_chainsSame {E : Env} {s : Tree} (hc : DerivClean s) (op : Op) (h : DerivEmitOnly op)
    (hne : ∀ p f ts, op ≠ .emitDerivative p f ts) : ChainsSame s (op.run E s).final := by
  have C := Act.rel_closed derivSame_preord
  have key : Act.Rel DerivSame (op.run E) → ChainsSame s (op.run E s).final := fun hx o => by
    rw [DerivSame.handle (hx s).1 o]; exact Chain.same_preord.refl _
  cases op with
  | addBlock b => exact key (Tree.onMain_derivSame _)
  | addNewBlock b txs => exact key (C.bind (Tree.onMain_derivSame _) fun _ => Tree.onMain_derivSame _)
  | addTransaction t => exact key (Tree.onMain_derivSame _)
  | addTransactions ts => exact key (Tree.onMain_derivSame _)
  | addAmount o a => exact key (Tree.onSummary_derivSame _)
  | setAmount o a => exact key (Tree.onSummary_derivSame _)
  | subAmount o a => exact key (Tree.onSummary_derivSame _)
  | sendAmount a b n =>
    refine key ?_
    show Act.Rel DerivSame (Tree.sendAmount a b n)
    unfold Tree.sendAmount
    split
    · exact C.pure ()
    · exact Tree.onSummary_derivSame _
  | addGas o a => exact key (Tree.onGas_derivSame _)
  | subGas o a => exact key (Tree.onGas_derivSame _)
  | sendGas a b n => exact key (Tree.onGas_derivSame _)
  | sendTransaction t => exact key (sendTransaction_derivSame E t)
  | emitMain p f txs ts => exact key (C.void (emitMain_derivSame E p f txs ts))
  | emitDerivative p f ts => exact absurd rfl (hne p f ts)
  | getDerivativeChain o => 
    intro o'
    rw [show ((Op.getDerivativeChain o).run E s).final = (Tree.getDerivativeChain E o s).final from rfl,
      (getDeriv_opened hc o).1.chains]
    exact Chain.same_preord.refl _
  | derivAddBlock o b => exact absurd h id
  | derivFlush o =>
    intro o'
    have hrun : ((Op.derivFlush o).run E s) = (Tree.getDerivativeChain E o >>= fun _ =>
      Tree.onDeriv o DerivativeChain.flush) s := rfl
    rw [hrun]
    obtain ⟨ho, _⟩ := getDeriv_opened (E := E) hc o
    obtain ⟨s1, hs1⟩ : ∃ s1, s1 = (Tree.getDerivativeChain E o s).final := ⟨_, rfl⟩
    rw [← hs1] at ho
    rw [← ho.chains o']
    cases hout : (Tree.getDerivativeChain E o s).out with
    | err e => rw [Act.bind_err (s := s) (by rw [← hout]), ← hs1]; exact Chain.same_preord.refl _
    | panic e => rw [Act.bind_panic (s := s) (by rw [← hout]), ← hs1]; exact Chain.same_preord.refl _
    | ub => rw [Act.bind_ub (s := s) (by rw [← hout]), ← hs1]; exact Chain.same_preord.refl _
    | ok u =>
      rw [Act.bind_ok (s := s) (a := u) (s' := s1) (by rw [hs1, ← hout])]
      show Chain.Same (s1.handle o').chain ((Tree.putHandle o (DerivativeChain.flush (s1.handle o)).final s1).handle o').chain
      by_cases he : o' = o
      · subst he
        rw [Tree.handle_put_self]
        exact (DerivativeChain.flush_same (s1.handle o')).1
      · rw [Tree.handle_put_other _ _ he]; exact Chain.same_preord.refl _
  | mainFlush => exact key (Tree.onMain_derivSame _)
  | flush => exact key Tree.flush_derivSame

theorem emitDerivative_op (E : Env) (s : Tree) (p : BytesN 32) (f : Address) (ts : UInt64) :
    ((Op.emitDerivative p f ts).run E s).final = (Tree.emitDerivative E p f ts s).final := rfl

/-- Derivative chains grown by emitting only. -/
theorem derivEmitOnly_linked {E : Env} {s : Tree} (hr : RunWith E DerivEmitOnly s)
    (hm : s.main.chain.height.val + 1 < U256.size) : ∃ bs, Chain.Holds E s.main.chain (genesis E :: bs) ∧
    ∀ o, (s.handle o).chain.height.val + 1 < U256.size →
      ∃ ds, Chain.Holds E (s.handle o).chain (ds.map Block.derivative) ∧ DLinked E (genesis E :: bs) ds := by
  induction hr with
  | fresh =>
    refine ⟨[], by rw [(openTree_fresh E).2]; exact bootChain_holds E _ _, fun o _ => ⟨[], ?_, ?_⟩⟩
    · have h0 : DerivClean (openTree E Disk.empty).final := run_derivClean (E := E) (A := DerivEmitOnly) .fresh
      rw [Tree.handle_closed (by rw [(openTree_fresh E).2]; rfl) (h0 o (by rw [(openTree_fresh E).2]; rfl))]
      exact emptyChain_holds E _ _
    · exact ⟨by simp, by simp⟩
  | call s op hrs ho ih =>
    have hgr := (Op.sat (mainGrows_prims E (fun _ => True)) (Act.relF_closed (mainGrows_preord E _)) op op.adds_true s)
    obtain ⟨bs, h1, h2⟩ := ih (by have := hgr.1; omega)
    obtain ⟨new, g1, _⟩ := hgr.2 hm _ h1
    refine ⟨bs ++ new, g1, fun o hoh => ?_⟩
    have hc := run_derivClean hrs
    have hdg := ((Op.derivGrows E op s hc).2 o).1
    obtain ⟨ds, d1, d2⟩ := h2 o (by omega)
    have hmono : ∀ b ∈ genesis E :: bs, b ∈ genesis E :: (bs ++ new) := fun b hb => by
      rw [show genesis E :: (bs ++ new) = (genesis E :: bs) ++ new from rfl]
      exact List.mem_append_left _ hb
    by_cases hem : ∃ p f ts, op = .emitDerivative p f ts
    · obtain ⟨p, f, ts, rfl⟩ := hem
      rw [emitDerivative_op] at hoh hdg ⊢
      by_cases hof : o = f
      · subst hof
        rcases emitDerivative_cases hc h1 d1 (by omega) p ts with ⟨_, k, _⟩ | ⟨d, _, ⟨_, _, _, _, _, _, k⟩, k2⟩
        · exact ⟨ds, by rw [k.chains]; exact d1, d2.mono hmono⟩
        · exact ⟨ds ++ [d], k, (d2.snoc k2).mono hmono⟩
      · exact ⟨ds, by rw [emitDerivative_other E s p f ts o hof]; exact d1, d2.mono hmono⟩
    · have hs := other_chainsSame (E := E) hc op ho (fun p f ts e => hem ⟨p, f, ts, e⟩)
      exact ⟨ds, d1.same (hs o), d2.mono hmono⟩

end BCT
