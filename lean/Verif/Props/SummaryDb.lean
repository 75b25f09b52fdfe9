import Verif.Model.SummaryDb
import Verif.Spec.SummaryDb
import Verif.Props.ThreadsEmit
/-!
# C76-C78: `SummaryDB` (summary_db.rs)
-/

namespace BCT.Props
open BCT

/-- The address is UTF-8 text: the encoding of some characters. -/
def IsText (a : Address) : Prop := ∃ cs : List Char, a.val = cs.flatMap String.utf8EncodeChar

theorem addrText_text {a : Address} (h : IsText a) : SummaryDb.addrText a = .ok () := by
  unfold SummaryDb.addrText
  rw [if_pos]
  rw [ByteArray.validateUTF8_eq_true_iff]
  obtain ⟨cs, h⟩ := h
  refine ⟨cs, ?_⟩
  apply ByteArray.ext
  simp [List.utf8Encode, h]

theorem addrText_not {a : Address} (h : ¬ IsText a) : SummaryDb.addrText a = .panic .unwrap := by
  unfold SummaryDb.addrText
  rw [if_neg]
  rw [ByteArray.validateUTF8_eq_true_iff]
  rintro ⟨cs, hc⟩
  refine h ⟨cs, ?_⟩
  have := congrArg (fun b => b.data.toList) hc
  simpa [List.utf8Encode] using this

/-- The database holds the map. -/
def Holds (d : Db) (f : Spec.FundsMap) : Prop := ∀ q, (f q = none ∧ d.get q = none) ∨
  ∃ a : U256, f q = some a.val ∧ d.get q = some (dumpU256 a [])

/-- A call that changes funds. -/
inductive FundsOp where
  | add (a : Address) (v : U256)
  | decrease (a : Address) (v : U256)

/-- Its steps. -/
def FundsOp.prog : FundsOp → Prog Db Unit
  | .add a v => SummaryDb.addFunds a v
  | .decrease a v => SummaryDb.decreaseFunds a v

/-- The call as the specification sees it. -/
def FundsOp.spec : FundsOp → Spec.FundsCall
  | .add a v => .add a.val v.val
  | .decrease a v => .decrease a.val v.val

/-- The database after a call, whether it returned, failed or panicked. -/
def FundsOp.after (d : Db) (k : FundsOp) : Db := ((k.prog.solo d).map (·.2)).getD d

theorem load_dump (a : U256) : loadU256 (dumpU256 a []) = .ok (a, (minBE a).length) := by
  have := loadU256_encU256 a []
  rwa [List.append_nil] at this

theorem loadBiguint_dump (a : U256) : loadBiguint (dumpU256 a []) = .ok (a.val, (minBE a).length + 1) := by
  have h := loadBiguint_cons (minBE a) [] (by have := minBE_length a; omega)
  rw [List.append_nil, beNat_minBE] at h
  rw [dumpU256_eq]
  exact h

theorem Holds.insert {d : Db} {f : Spec.FundsMap} (h : Holds d f) (q : Bytes) (a : U256) :
    Holds (d.insert q (dumpU256 a [])) (f.update q a.val) := by
  intro k
  unfold Spec.FundsMap.update Db.get Db.insert Db.commit
  simp only [KV.get_insert]
  by_cases hk : k = q
  · subst hk
    exact .inr ⟨a, by simp, by simp⟩
  · rw [if_neg hk, if_neg (Ne.symm hk)]
    exact h k

theorem Holds.flush {d : Db} {f : Spec.FundsMap} (h : Holds d f) : Holds d.flush f := h

/-- Everything `add_funds` does. -/
theorem add_solo {d : Db} {f : Spec.FundsMap} (h : Holds d f) (a : Address) (v : U256) :
    (v.val = 0 → (SummaryDb.addFunds a v).solo d = some (.ok (), d)) ∧
    (v.val ≠ 0 → ¬ f.funds a.val + v.val < 2 ^ 256 → (SummaryDb.addFunds a v).solo d = some (.panic .overflow, d)) ∧
    (v.val ≠ 0 → f.funds a.val + v.val < 2 ^ 256 → ∃ d', (SummaryDb.addFunds a v).solo d = some (SummaryDb.addrText a, d') ∧
      Holds d' (f.update a.val (f.funds a.val + v.val))) := by
  have tail : ∀ (w : U256), ∃ d', (do
      SummaryDb.insert a (dumpU256 w [])
      Prog.lift (SummaryDb.addrText a)
      SummaryDb.flush
      Prog.lift (SummaryDb.addrText a) : Prog Db Unit).solo d = some (SummaryDb.addrText a, d') ∧
      Holds d' (f.update a.val w.val) := by
    intro w
    by_cases ht : IsText a
    · rw [addrText_text ht]
      exact ⟨_, rfl, (h.insert a.val w).flush⟩
    · rw [addrText_not ht]
      exact ⟨_, rfl, h.insert a.val w⟩
  have hsize : U256.size = 2 ^ 256 := rfl
  have hget : ∀ (k : Option Bytes → Prog Db Unit), (SummaryDb.get a >>= k).solo d = (k (d.get a.val)).solo d :=
    fun k => rfl
  unfold SummaryDb.addFunds
  refine ⟨fun h0 => by rw [if_pos h0]; rfl, fun h0 hv => ?_, fun h0 hv => ?_⟩
  · rw [if_neg h0, hget]
    rcases h a.val with ⟨h1, h2⟩ | ⟨w, h1, h2⟩
    · have := v.lt
      simp [Spec.FundsMap.funds, h1] at hv
      omega
    · simp only [Spec.FundsMap.funds, h1, Option.getD_some] at hv
      have : w.add v = .panic .overflow := by
        unfold U256.add; rw [dif_neg (by rw [hsize]; exact hv)]
      rw [h2]
      simp only [load_dump, Outcome.mapErr]
      change (Prog.lift (w.add v) >>= _).solo d = _
      rw [this]
      rfl
  · rw [if_neg h0, hget]
    rcases h a.val with ⟨h1, h2⟩ | ⟨w, h1, h2⟩
    · rw [h2]
      have := tail v
      simpa [Spec.FundsMap.funds, h1] using this
    · simp only [Spec.FundsMap.funds, h1, Option.getD_some] at hv ⊢
      have hlt : w.val + v.val < U256.size := hv
      have : w.add v = .ok ⟨_, hlt⟩ := by
        unfold U256.add; rw [dif_pos hlt]
      rw [h2]
      simp only [load_dump, Outcome.mapErr]
      change ∃ d', (Prog.lift (w.add v) >>= _).solo d = _ ∧ _
      rw [this]
      exact tail ⟨_, hlt⟩

open Classical in
/-- Everything `decrease_funds` does. -/
theorem decrease_solo {d : Db} {f : Spec.FundsMap} (h : Holds d f) (a : Address) (v : U256) :
    (f a.val = none → (SummaryDb.decreaseFunds a v).solo d =
      some (if IsText a then .err .treeDecreaseFunds else .panic .unwrap, d)) ∧
    (∀ n, f a.val = some n → n < v.val → (SummaryDb.decreaseFunds a v).solo d = some (.err .treeDecreaseFunds, d)) ∧
    (∀ n, f a.val = some n → v.val ≤ n → ∃ d', (SummaryDb.decreaseFunds a v).solo d = some (.ok (), d') ∧
      Holds d' (f.update a.val (n - v.val))) := by
  have hget : ∀ (k : Option Bytes → Prog Db Unit), (SummaryDb.get a >>= k).solo d = (k (d.get a.val)).solo d :=
    fun k => rfl
  unfold SummaryDb.decreaseFunds
  rw [hget]
  rcases h a.val with ⟨h1, h2⟩ | ⟨w, h1, h2⟩
  · rw [h2]
    refine ⟨fun _ => ?_, fun n hn => (by rw [h1] at hn; cases hn),
      fun n hn => (by rw [h1] at hn; cases hn)⟩
    by_cases ht : IsText a
    · rw [addrText_text ht, if_pos ht]; rfl
    · rw [addrText_not ht, if_neg ht]; rfl
  · refine ⟨fun hn => (by rw [h1] at hn; cases hn), fun n hn hv => ?_, fun n hn hv => ?_⟩
    all_goals
      rw [h1] at hn
      cases hn
      rw [h2]
      simp only [load_dump, Outcome.mapErr]
    · change (if w.val < v.val then Prog.lift (.err .treeDecreaseFunds) else _ : Prog Db Unit).solo d = _
      rw [if_pos hv]; rfl
    · change ∃ d', (if w.val < v.val then Prog.lift (.err .treeDecreaseFunds) else _ : Prog Db Unit).solo d = _ ∧ _
      rw [if_neg (by omega)]
      have hlt : w.val - v.val < U256.size := by have := w.lt; omega
      have : w.sub v = .ok ⟨_, hlt⟩ := by
        unfold U256.sub; rw [if_pos hv]
      rw [this]
      exact ⟨_, rfl, (h.insert a.val ⟨_, hlt⟩).flush⟩

/-! ## C76 -/

theorem after_holds {d : Db} {f : Spec.FundsMap} (h : Holds d f) (k : FundsOp) : Holds (k.after d) (k.spec.run f) := by
  cases k with
  | add a v =>
    obtain ⟨h1, h2, h3⟩ := add_solo h a v
    unfold FundsOp.after FundsOp.prog FundsOp.spec Spec.FundsCall.run
    by_cases h0 : v.val = 0
    · simp only [h1 h0, if_pos h0]; exact h
    · by_cases hv : f.funds a.val + v.val < 2 ^ 256
      · obtain ⟨d', e, hd⟩ := h3 h0 hv
        simp only [e, if_neg h0, if_pos hv]; exact hd
      · simp only [h2 h0 hv, if_neg h0, if_neg hv]; exact h
  | decrease a v =>
    obtain ⟨h1, h2, h3⟩ := decrease_solo h a v
    unfold FundsOp.after FundsOp.prog FundsOp.spec Spec.FundsCall.run
    cases hn : f a.val with
    | none => simp only [h1 hn, hn]; exact h
    | some n =>
      by_cases hv : v.val ≤ n
      · obtain ⟨d', e, hd⟩ := h3 n hn hv
        simp only [e, hn, if_pos hv]; exact hd
      · simp only [h2 n hn (by omega), hn, if_neg hv]; exact h

theorem history_holds {d : Db} {f : Spec.FundsMap} (h : Holds d f) (calls : List FundsOp) :
    Holds (calls.foldl (fun d k => k.after d) d) (calls.foldl (fun f k => k.spec.run f) f) := by
  induction calls generalizing d f with
  | nil => exact h
  | cons k ks ih => exact ih (after_holds h k)

/-- The map a new database holds after some calls. -/
def mapAfter (calls : List FundsOp) : Spec.FundsMap := calls.foldl (fun f k => k.spec.run f) (fun _ => none)

/-- A new database after some calls. -/
def dbAfter (calls : List FundsOp) : Db := calls.foldl (fun d k => k.after d) (Db.open' KV.empty)

theorem dbAfter_holds (calls : List FundsOp) : Holds (dbAfter calls) (mapAfter calls) :=
  history_holds (fun q => .inl ⟨rfl, by simp [Db.open', Db.get]⟩) calls

theorem getFunds_solo {d : Db} {f : Spec.FundsMap} (h : Holds d f) (a : Address) :
    (SummaryDb.getFunds a).solo d = some (.ok (f.funds a.val), d) := by
  have hget : ∀ (k : Option Bytes → Prog Db Nat), (SummaryDb.get a >>= k).solo d = (k (d.get a.val)).solo d := fun k => rfl
  unfold SummaryDb.getFunds
  rw [hget]
  rcases h a.val with ⟨h1, h2⟩ | ⟨w, h1, h2⟩
  · rw [h2]; simp only [Spec.FundsMap.funds, h1]; rfl
  · rw [h2]
    simp only [loadBiguint_dump, Outcome.mapErr, Spec.FundsMap.funds, h1]
    rfl

/-- C76. After any sequence of calls `get_funds` returns, without an effect, what the map contains. A call that panics
because the address is not text has been made nevertheless (C77); one that panics because the sum does not fit has not. -/
theorem C76_get_funds (calls : List FundsOp) (a : Address) :
    (SummaryDb.getFunds a).solo (dbAfter calls) = some (.ok ((mapAfter calls).funds a.val), dbAfter calls) :=
  getFunds_solo (dbAfter_holds calls) a

/-- C76. `decrease_funds` succeeds exactly if the address is known and holds enough; otherwise it has no effect. -/
theorem C76_decrease (calls : List FundsOp) (a : Address) (v : U256) :
    ((∃ n, mapAfter calls a.val = some n ∧ v.val ≤ n) →
      ((SummaryDb.decreaseFunds a v).solo (dbAfter calls)).map (·.1) = some (.ok ())) ∧
    (¬ (∃ n, mapAfter calls a.val = some n ∧ v.val ≤ n) →
      ∃ o, o ≠ .ok () ∧ (SummaryDb.decreaseFunds a v).solo (dbAfter calls) = some (o, dbAfter calls)) := by
  obtain ⟨h1, h2, h3⟩ := decrease_solo (dbAfter_holds calls) a v
  refine ⟨?_, fun h => ?_⟩
  · rintro ⟨n, hn, hv⟩
    obtain ⟨d', e, _⟩ := h3 n hn hv
    rw [e]; rfl
  · cases hn : mapAfter calls a.val with
    | none => exact ⟨_, by split <;> simp, h1 hn⟩
    | some n => exact ⟨_, by simp, h2 n hn (Nat.lt_of_not_le fun hv => h ⟨n, hn, hv⟩)⟩

/-- A few calls: some funds come, some go, too much does not. -/
example : (mapAfter [.add (BytesN.fill 33 65) (U256.ofNat 10), .decrease (BytesN.fill 33 65) (U256.ofNat 3),
    .decrease (BytesN.fill 33 65) (U256.ofNat 8), .decrease (BytesN.fill 33 66) (U256.ofNat 1)]).funds
      (BytesN.fill 33 65).val = 7 ∧
    mapAfter [.add (BytesN.fill 33 65) (U256.ofNat 10)] (BytesN.fill 33 66).val = none := by decide +kernel

/-! ## C77 -/

/-- C77 at full strength. -/
def C77_full : Prop := ∀ (calls : List FundsOp) (k : FundsOp), ∃ o d, (k.prog).solo (dbAfter calls) = some (o, d) ∧
  (o = .ok () ∨ ∃ e, o = .err e)

/-- C77, what holds: `add_funds` of an amount that fits and `decrease_funds` do not panic if the address is text, and
nor does `decrease_funds` from an address that is known.
Missing: other addresses, and sums that do not fit (`C77_refuted`). -/
theorem C77_no_panic_partial (calls : List FundsOp) (a : Address) (v : U256) :
    (IsText a → (mapAfter calls).funds a.val + v.val < 2 ^ 256 →
      ((SummaryDb.addFunds a v).solo (dbAfter calls)).map (·.1) = some (.ok ())) ∧
    (IsText a ∨ mapAfter calls a.val ≠ none →
      ((SummaryDb.decreaseFunds a v).solo (dbAfter calls)).map (·.1) = some (.ok ()) ∨
      ((SummaryDb.decreaseFunds a v).solo (dbAfter calls)).map (·.1) = some (.err .treeDecreaseFunds)) := by
  obtain ⟨a1, a2, a3⟩ := add_solo (dbAfter_holds calls) a v
  obtain ⟨h1, h2, h3⟩ := decrease_solo (dbAfter_holds calls) a v
  refine ⟨fun ht hv => ?_, fun ht => ?_⟩
  · by_cases h0 : v.val = 0
    · rw [a1 h0]; rfl
    · obtain ⟨d', e, _⟩ := a3 h0 hv
      rw [e, addrText_text ht]; rfl
  · cases hn : mapAfter calls a.val with
    | none =>
      right
      rw [h1 hn]
      rcases ht with ht | ht
      · rw [if_pos ht]; rfl
      · exact absurd hn ht
    | some n =>
      by_cases hv : v.val ≤ n
      · obtain ⟨d', e, _⟩ := h3 n hn hv
        left; rw [e]; rfl
      · right; rw [h2 n hn (by omega)]; rfl

/-- C77 is false of the code: adding any funds to an address that is not text panics, after the funds were stored; so
does taking funds from such an address if it is not known; and adding more than fits panics. The root address is not
text. -/
theorem C77_refuted :
    (∀ (calls : List FundsOp) (a : Address) (v : U256), ¬ IsText a → v.val ≠ 0 →
      (mapAfter calls).funds a.val + v.val < 2 ^ 256 →
      ∃ d, (SummaryDb.addFunds a v).solo (dbAfter calls) = some (.panic .unwrap, d) ∧
        (SummaryDb.getFunds a).solo d = some (.ok ((mapAfter calls).funds a.val + v.val), d)) ∧
    (∀ (calls : List FundsOp) (a : Address) (v : U256), ¬ IsText a → mapAfter calls a.val = none →
      (SummaryDb.decreaseFunds a v).solo (dbAfter calls) = some (.panic .unwrap, dbAfter calls)) ∧
    (∀ (calls : List FundsOp) (a : Address) (v : U256), v.val ≠ 0 → ¬ (mapAfter calls).funds a.val + v.val < 2 ^ 256 →
      (SummaryDb.addFunds a v).solo (dbAfter calls) = some (.panic .overflow, dbAfter calls)) ∧
    ¬ IsText ROOT_PUBLIC_ADDRESS ∧ ¬ C77_full := by
  have hroot : ¬ IsText ROOT_PUBLIC_ADDRESS := by
    intro h
    have h1 := addrText_text h
    have h2 : SummaryDb.addrText ROOT_PUBLIC_ADDRESS = .panic .unwrap := by decide +kernel
    rw [h2] at h1; cases h1
  have key : ∀ (calls : List FundsOp) (a : Address) (v : U256), ¬ IsText a → mapAfter calls a.val = none →
      (SummaryDb.decreaseFunds a v).solo (dbAfter calls) = some (.panic .unwrap, dbAfter calls) := by
    intro calls a v ht hn
    rw [(decrease_solo (dbAfter_holds calls) a v).1 hn, if_neg ht]
  refine ⟨fun calls a v ht h0 hv => ?_, key, fun calls a v h0 hv =>
    (add_solo (dbAfter_holds calls) a v).2.1 h0 hv, hroot, fun hf => ?_⟩
  · obtain ⟨d, e, hd⟩ := (add_solo (dbAfter_holds calls) a v).2.2 h0 hv
    rw [addrText_not ht] at e
    refine ⟨d, e, ?_⟩
    have h := C76_get_funds (calls ++ [.add a v]) a
    have e1 : dbAfter (calls ++ [.add a v]) = d := by
      unfold dbAfter
      rw [List.foldl_append]
      show FundsOp.after (dbAfter calls) (.add a v) = d
      unfold FundsOp.after FundsOp.prog
      simp only [e]; rfl
    have e2 : (mapAfter (calls ++ [.add a v])).funds a.val = (mapAfter calls).funds a.val + v.val := by
      conv => lhs; unfold mapAfter
      rw [List.foldl_append]
      show (Spec.FundsCall.run (.add a.val v.val) (mapAfter calls)).funds a.val = _
      unfold Spec.FundsCall.run
      simp only [if_neg h0, if_pos hv]
      simp only [Spec.FundsMap.update, Spec.FundsMap.funds, if_pos, Option.getD_some]
    rwa [e1, e2] at h
  · obtain ⟨o, d, h1, h2⟩ := hf [] (.decrease ROOT_PUBLIC_ADDRESS U256.one)
    have h3 := key [] ROOT_PUBLIC_ADDRESS U256.one hroot rfl
    change (SummaryDb.decreaseFunds _ _).solo _ = _ at h1
    rw [h3] at h1
    cases h1
    rcases h2 with h2 | ⟨e, h2⟩ <;> cases h2

/-- An address that is text. -/
example : IsText (BytesN.fill 33 65) := ⟨List.replicate 33 'A', by decide +kernel⟩

/-! ## C78 -/

section
variable {ι : Type} [Fintype ι] [DecidableEq ι]

/-- Threads that each add funds once. -/
def deposits (a : ι → Address) (v : ι → U256) : ι → Prog Db Unit := fun i => SummaryDb.addFunds (a i) (v i)

/-- The sum of what is added to an address. -/
def deposited (a : ι → Address) (v : ι → U256) (q : Address) : Nat := ∑ i, if a i = q then (v i).val else 0

/-- `add_funds` after its write. -/
def addTail (a : Address) : Prog Db Unit := do
  .lift (SummaryDb.addrText a)
  SummaryDb.flush
  .lift (SummaryDb.addrText a)

/-- `add_funds` after its read, if the sum fits. -/
def addWrite (a : Address) (w : U256) : Prog Db Unit := do
  SummaryDb.insert a (dumpU256 w [])
  addTail a

/-- `add_funds` after its read. -/
def addRest (a : Address) (v : U256) : Option Bytes → Prog Db Unit
  | none => addWrite a v
  | some prev => do
    let res ← .lift ((loadU256 prev).mapErr .treeAddFunds)
    let previous ← .lift (res.1.add v)
    addWrite a previous

theorem addFunds_eq (a : Address) (v : U256) (h : v.val ≠ 0) :
    SummaryDb.addFunds a v = (SummaryDb.get a >>= addRest a v) := by
  unfold SummaryDb.addFunds
  rw [if_neg h]
  rfl

theorem addFunds_zero (a : Address) (v : U256) (h : v.val = 0) : SummaryDb.addFunds a v = .done (.ok ()) := by
  unfold SummaryDb.addFunds
  rw [if_pos h]
  rfl

theorem addRest_eq {d : Db} {f : Spec.FundsMap} (h : Holds d f) (a : Address) (v : U256)
    (hv : f.funds a.val + v.val < 2 ^ 256) : addRest a v (d.get a.val) = addWrite a ⟨_, hv⟩ := by
  rcases h a.val with ⟨h1, h2⟩ | ⟨w, h1, h2⟩
  · rw [h2]
    show addWrite a v = _
    congr 1
    exact U256.ext (by simp [Spec.FundsMap.funds, h1])
  · rw [h2]
    have hf : f.funds a.val = w.val := by simp [Spec.FundsMap.funds, h1]
    have hlt : w.val + v.val < U256.size := by rw [← hf]; exact hv
    have : w.add v = .ok ⟨_, hlt⟩ := by
      unfold U256.add; rw [dif_pos hlt]
    unfold addRest
    simp only [load_dump, Outcome.mapErr]
    change (Prog.lift (w.add v) >>= _) = _
    rw [this]
    show addWrite a _ = _
    congr 1
    exact U256.ext (by simp [hf])

/-- Steps that change nothing readers see. -/
def SameCur (d d' : Db) : Prop := d'.cur = d.cur

theorem addTail_guar (a : Address) : Prog.Guar SameCur (addTail a) := by
  unfold addTail
  refine .bind (Prog.guar_lift _) fun _ => .bind (fun s s' h => ?_) fun _ => Prog.guar_lift _
  cases h
  exact ⟨rfl, trivial⟩

/-- How far a thread is, if the threads `W` have written. -/
inductive AddStage (a : ι → Address) (v : ι → U256) (f : Spec.FundsMap) (W : Finset ι) (i : ι) : Prog Db Unit → Prop where
  | fresh : i ∉ W → (v i).val ≠ 0 → AddStage a v f W i (SummaryDb.get (a i) >>= addRest (a i) (v i))
  | pending (w : U256) : i ∉ W → f.funds (a i).val ≤ w.val →
      w.val ≤ f.funds (a i).val + ∑ j ∈ W, (if a j = a i then (v j).val else 0) + (v i).val →
      AddStage a v f W i (addWrite (a i) w)
  | rest {p} : p.Guar SameCur → AddStage a v f W i p

omit [Fintype ι] in
theorem AddStage.grow {a : ι → Address} {v : ι → U256} {f : Spec.FundsMap} {W : Finset ι} {i j : ι} {p : Prog Db Unit}
    (h : AddStage a v f W i p) (hij : i ≠ j) (hj : j ∉ W) : AddStage a v f (insert j W) i p := by
  cases h with
  | fresh h1 h2 => exact .fresh (by simp [hij, h1]) h2
  | pending w h1 h2 h3 =>
    refine .pending w (by simp [hij, h1]) h2 ?_
    rw [Finset.sum_insert hj]
    omega
  | rest h => exact .rest h

omit [DecidableEq ι] in
theorem sum_le_deposited (a : ι → Address) (v : ι → U256) (W : Finset ι) (q : Address) :
    ∑ j ∈ W, (if a j = q then (v j).val else 0) ≤ deposited a v q :=
  Finset.sum_le_sum_of_subset (Finset.subset_univ W)

theorem sum_lt_deposited (a : ι → Address) (v : ι → U256) (W : Finset ι) {i : ι} (hi : i ∉ W) :
    ∑ j ∈ W, (if a j = a i then (v j).val else 0) + (v i).val ≤ deposited a v (a i) := by
  have := sum_le_deposited a v (insert i W) (a i)
  rw [Finset.sum_insert hi, if_pos rfl] at this
  omega

/-- The invariant. -/
theorem add_stages {d : Db} {f : Spec.FundsMap} (h : Holds d f) {a : ι → Address} {v : ι → U256}
    (hfit : ∀ q : Address, f.funds q.val + deposited a v q < 2 ^ 256) {log : List (Event ι Db)} {c : Config ι Db Unit}
    (hx : Exec ⟨d, deposits a v⟩ log c) :
    ∃ (W : Finset ι) (g : Spec.FundsMap), Holds c.shared g ∧
      (∀ q : Address, f.funds q.val ≤ g.funds q.val ∧
        g.funds q.val ≤ f.funds q.val + ∑ j ∈ W, (if a j = q then (v j).val else 0)) ∧
      ∀ i, AddStage a v f W i (c.threads i) := by
  induction hx with
  | refl =>
    refine ⟨∅, f, h, fun q => by simp, fun i => ?_⟩
    by_cases h0 : (v i).val = 0
    · show AddStage a v f ∅ i (SummaryDb.addFunds (a i) (v i))
      rw [addFunds_zero _ _ h0]
      exact .rest trivial
    · show AddStage a v f ∅ i (SummaryDb.addFunds (a i) (v i))
      rw [addFunds_eq _ _ h0]
      exact .fresh (by simp) h0
  | @step log c i next rest s' hprev hi hn ih =>
    obtain ⟨W, g, hg, hb, hst⟩ := ih
    have hs := hst i
    rw [hi] at hs
    generalize hp : Prog.step next rest = p at hs
    cases hs with
    | fresh h1 h2 =>
      cases hp
      cases hn
      refine ⟨W, g, hg, hb, fun j => ?_⟩
      by_cases hj : j = i
      · subst hj
        simp only [Function.update_self]
        have hle := sum_lt_deposited a v W h1
        have := hfit (a j)
        have hbj := hb (a j)
        have hlt : g.funds (a j).val + (v j).val < 2 ^ 256 := by omega
        show AddStage a v f W j (addRest (a j) (v j) (c.shared.get (a j).val))
        rw [addRest_eq hg (a j) (v j) hlt]
        exact .pending _ h1 (by show _ ≤ g.funds (a j).val + (v j).val; omega)
          (by show g.funds (a j).val + (v j).val ≤ _; omega)
      · simp only [Function.update_of_ne hj]
        exact hst j
    | pending w h1 h2 h3 =>
      cases hp
      cases hn
      refine ⟨insert i W, g.update (a i).val w.val, hg.insert _ _, fun q => ?_, fun j => ?_⟩
      · rw [Finset.sum_insert h1]
        by_cases hq : q = a i
        · subst hq
          have : (g.update (a i).val w.val).funds (a i).val = w.val := by simp [Spec.FundsMap.update, Spec.FundsMap.funds]
          rw [this, if_pos rfl]
          omega
        · have : (g.update (a i).val w.val).funds q.val = g.funds q.val := by
            have : q.val ≠ (a i).val := fun h => hq (Subtype.ext h)
            simp [Spec.FundsMap.update, Spec.FundsMap.funds, this]
          rw [this]
          have := hb q
          omega
      · by_cases hj : j = i
        · subst hj
          simp only [Function.update_self]
          exact .rest (addTail_guar _)
        · simp only [Function.update_of_ne hj]
          exact (hst j).grow hj h1
    | rest hgu =>
      subst hp
      obtain ⟨k1, k2⟩ := hgu c.shared s' hn
      refine ⟨W, g, fun q => ?_, hb, fun j => ?_⟩
      · have := hg q
        unfold Db.get at this ⊢
        rw [k1]; exact this
      · by_cases hj : j = i
        · subst hj
          simp only [Function.update_self]
          exact .rest k2
        · simp only [Function.update_of_ne hj]
          exact hst j

theorem addFunds_elsewhere (a : Address) (v : U256) (q : Bytes) (hq : a.val ≠ q) :
    Prog.Guar (fun d d' => d'.get q = d.get q) (SummaryDb.addFunds a v) := by
  by_cases h0 : v.val = 0
  · rw [addFunds_zero _ _ h0]; trivial
  · rw [addFunds_eq _ _ h0]
    have hw : ∀ w, Prog.Guar (fun d d' => d'.get q = d.get q) (addWrite a w) := by
      intro w
      refine .bind (fun s s' h => ?_) fun _ => (addTail_guar a).mono fun d d' h => get_of_cur h q
      cases h
      refine ⟨?_, trivial⟩
      show KV.get (s.cur.insert a.val (dumpU256 w [])) q = _
      rw [KV.get_insert, if_neg hq]
      rfl
    refine .bind (fun s s' h => ?_) fun o => ?_
    · cases h; exact ⟨rfl, trivial⟩
    · cases o with
      | none => exact hw v
      | some prev => exact .bind (Prog.guar_lift _) fun _ => .bind (Prog.guar_lift _) fun _ => hw _

theorem addFunds_tracks (a : Address) (v : U256) {d : Db} {f : Spec.FundsMap} (h : Holds d f)
    (hfit : f.funds a.val + v.val < 2 ^ 256) :
    Prog.Tracks (fun d : Db => d.get a.val) (fun _ m => (m = none ∧ f.funds a.val + v.val = 0) ∨
      ∃ w : U256, m = some (dumpU256 w []) ∧ w.val = f.funds a.val + v.val) (SummaryDb.addFunds a v) (d.get a.val) := by
  by_cases h0 : v.val = 0
  · rw [addFunds_zero _ _ h0]
    rcases h a.val with ⟨h1, h2⟩ | ⟨w, h1, h2⟩
    · exact .inl ⟨h2, by simp [Spec.FundsMap.funds, h1, h0]⟩
    · exact .inr ⟨w, h2, by simp [Spec.FundsMap.funds, h1, h0]⟩
  · rw [addFunds_eq _ _ h0]
    intro s s' hs hn
    cases hn
    show Prog.Tracks _ _ (addRest a v (s.get a.val)) (s.get a.val)
    have hs : s.get a.val = d.get a.val := hs
    rw [hs, addRest_eq h a v hfit]
    intro s1 s1' _ hn
    cases hn
    refine ((Prog.Tracks.same (v := fun d : Db => d.get a.val) ((addTail_guar a).mono fun d d' h => get_of_cur h _)
      (D := fun _ => True) ?_ _).mono ?_)
    · have : ∀ p : Prog Db Unit, p.Ends (fun _ => True) := by
        intro p
        induction p with
        | done o => trivial
        | step _ _ ih => exact ih
      exact this _
    · rintro o m ⟨rfl, _⟩
      refine .inr ⟨⟨_, hfit⟩, ?_, rfl⟩
      show KV.get (s1.cur.insert a.val _) a.val = _
      rw [KV.get_insert, if_pos rfl]

/-- C78 at full strength. -/
def C78_full : Prop := ∀ (ι : Type) [Fintype ι] [DecidableEq ι] (calls : List FundsOp) (a : ι → Address) (v : ι → U256)
  (log : List (Event ι Db)) (c : Config ι Db Unit),
  (∀ q : Address, (mapAfter calls).funds q.val + deposited a v q < 2 ^ 256) →
  Exec ⟨dbAfter calls, deposits a v⟩ log c → (∀ i, hasEnded (c.threads i)) →
  ∀ q : Address, (SummaryDb.getFunds q).solo c.shared =
    some (.ok ((mapAfter calls).funds q.val + deposited a v q), c.shared)

/-- C78, what holds under every schedule, if the sums fit: at every moment, an address holds at least what it held and
at most what it held plus all that is added; and once a thread has ended that was the only one to add to its address,
the address holds what it held plus what the thread added.
Missing: two threads that add to one address (`C78_refuted`). -/
theorem C78_bounds_partial (calls : List FundsOp) (a : ι → Address) (v : ι → U256)
    (log : List (Event ι Db)) (c : Config ι Db Unit)
    (hfit : ∀ q : Address, (mapAfter calls).funds q.val + deposited a v q < 2 ^ 256)
    (hx : Exec ⟨dbAfter calls, deposits a v⟩ log c) :
    (∀ q : Address, ∃ n, (SummaryDb.getFunds q).solo c.shared = some (.ok n, c.shared) ∧
      (mapAfter calls).funds q.val ≤ n ∧ n ≤ (mapAfter calls).funds q.val + deposited a v q) ∧
    (∀ i, hasEnded (c.threads i) → (∀ j, a j = a i → j = i) →
      (SummaryDb.getFunds (a i)).solo c.shared =
        some (.ok ((mapAfter calls).funds (a i).val + (v i).val), c.shared)) := by
  have h := dbAfter_holds calls
  obtain ⟨W, g, hg, hb, _⟩ := add_stages h hfit hx
  refine ⟨fun q => ⟨_, getFunds_solo hg q, (hb q).1, ?_⟩, fun i hi hone => ?_⟩
  · have := (hb q).2
    have := sum_le_deposited a v W q
    omega
  · rw [getFunds_solo hg]
    have hdep : deposited a v (a i) = (v i).val := by
      unfold deposited
      rw [Finset.sum_eq_single i]
      · simp
      · intro j _ hj
        rw [if_neg fun h => hj (hone j h)]
      · simp
    have hf := hfit (a i)
    rw [hdep] at hf
    have ht := hx.tracks i (v := fun d : Db => d.get (a i).val) (addFunds_tracks (a i) (v i) h hf) fun j hj =>
      addFunds_elsewhere (a j) (v j) (a i).val fun e => hj (hone j (Subtype.ext e))
    obtain ⟨o, ho⟩ := hi
    rw [ho] at ht
    have : g.funds (a i).val = (mapAfter calls).funds (a i).val + (v i).val := by
      unfold Spec.FundsMap.funds at *
      rcases hg (a i).val with ⟨h1, h2⟩ | ⟨w, h1, h2⟩
      · rcases ht with ⟨_, k2⟩ | ⟨w', k1, _⟩
        · rw [h1, k2]; rfl
        · have k1 : c.shared.get (a i).val = _ := k1
          rw [h2] at k1; cases k1
      · rcases ht with ⟨k1, _⟩ | ⟨w', k1, k2⟩
        · have k1 : c.shared.get (a i).val = _ := k1
          rw [h2] at k1; cases k1
        · have k1 : c.shared.get (a i).val = _ := k1
          rw [h2] at k1
          have : w = w' := by
            have e := congrArg loadU256 (Option.some.inj k1)
            rw [load_dump, load_dump] at e
            exact (Prod.mk.inj (Outcome.ok.inj e)).1
          rw [h1, this, ← k2]; rfl
    rw [this]

end

/-- C78 is false of the code: whenever two threads add funds to the same address, there is a schedule in which both
calls succeed and only one of the amounts arrives. -/
theorem C78_refuted :
    (∀ (calls : List FundsOp) (a : Address) (v : Bool → U256), IsText a → (∀ b, (v b).val ≠ 0) →
      (mapAfter calls).funds a.val + (v true).val + (v false).val < 2 ^ 256 →
      ∃ log c, Exec ⟨dbAfter calls, deposits (fun _ => a) v⟩ log c ∧ (∀ b, c.threads b = .done (.ok ())) ∧
        (SummaryDb.getFunds a).solo c.shared = some (.ok ((mapAfter calls).funds a.val + (v false).val), c.shared)) ∧
    ¬ C78_full := by
  have key : ∀ (calls : List FundsOp) (a : Address) (v : Bool → U256), IsText a → (∀ b, (v b).val ≠ 0) →
      (mapAfter calls).funds a.val + (v true).val + (v false).val < 2 ^ 256 →
      ∃ log c, Exec ⟨dbAfter calls, deposits (fun _ => a) v⟩ log c ∧ (∀ b, c.threads b = .done (.ok ())) ∧
        (SummaryDb.getFunds a).solo c.shared = some (.ok ((mapAfter calls).funds a.val + (v false).val), c.shared) := by
    intro calls a v ht h0 hfit
    have h := dbAfter_holds calls
    have hf : ∀ b, (mapAfter calls).funds a.val + (v b).val < 2 ^ 256 := by
      intro b; cases b <;> omega
    have hread : ∀ b, Prog.Runs (SummaryDb.addFunds a (v b)) (dbAfter calls) (addWrite a ⟨_, hf b⟩) (dbAfter calls) := by
      intro b
      rw [addFunds_eq _ _ (h0 b), ← addRest_eq h a (v b) (hf b)]
      exact .step rfl .refl
    have hwrite : ∀ (w : U256) (d : Db), Prog.Runs (addWrite a w) d (.done (.ok ())) (d.insert a.val (dumpU256 w [])).flush := by
      intro w d
      apply Prog.runs_of_solo
      unfold addWrite addTail
      rw [addrText_text ht]
      rfl
    have x0 : Exec ⟨dbAfter calls, deposits (fun _ => a) v⟩ [] ⟨dbAfter calls, deposits (fun _ : Bool => a) v⟩ := .refl
    obtain ⟨l1, x1⟩ := x0.go true rfl (hread true)
    obtain ⟨l2, x2⟩ := x1.go false (by rw [Function.update_of_ne (by simp)]; rfl) (hread false)
    obtain ⟨l3, x3⟩ := x2.go true (by rw [Function.update_of_ne (by simp), Function.update_self]) (hwrite _ _)
    obtain ⟨l4, x4⟩ := x3.go false (by rw [Function.update_of_ne (by simp), Function.update_self]) (hwrite _ _)
    refine ⟨_, _, x4, fun b => by cases b <;> simp, ?_⟩
    have hh := ((((h.insert a.val ⟨_, hf true⟩).flush).insert a.val ⟨_, hf false⟩).flush)
    rw [getFunds_solo hh]
    simp [Spec.FundsMap.update, Spec.FundsMap.funds]
  refine ⟨key, fun hfull => ?_⟩
  have ht : IsText (BytesN.fill 33 65) := ⟨List.replicate 33 'A', by decide +kernel⟩
  obtain ⟨log, c, h1, h2, h3⟩ := key [] (BytesN.fill 33 65) (fun _ => U256.one) ht (fun _ => by decide) (by decide)
  have := hfull Bool [] _ _ log c (fun q => ?_) h1 (fun b => ⟨_, h2 b⟩) (BytesN.fill 33 65)
  · rw [h3] at this
    simp [deposited, Spec.FundsMap.funds, mapAfter] at this
    revert this
    decide
  · unfold deposited
    rw [Fintype.sum_bool]
    have : (mapAfter []).funds q.val = 0 := rfl
    rw [this]
    split <;> decide

/-- The hypotheses of `C78_bounds_partial`: two threads, two addresses. -/
example : (∀ q : Address, (mapAfter []).funds q.val +
      deposited (fun b : Bool => if b then BytesN.fill 33 65 else ROOT_PUBLIC_ADDRESS) (fun _ => U256.one) q < 2 ^ 256) ∧
    ∀ i j : Bool, (if i then (BytesN.fill 33 65 : Address) else ROOT_PUBLIC_ADDRESS) =
      (if j then BytesN.fill 33 65 else ROOT_PUBLIC_ADDRESS) → i = j := by
  constructor
  · intro q
    unfold deposited
    rw [Fintype.sum_bool]
    have : (mapAfter []).funds q.val = 0 := rfl
    rw [this]
    have h1 : U256.one.val = 1 := rfl
    simp only [h1]
    have hle : ∀ (p : Prop) [Decidable p], (if p then 1 else 0 : Nat) ≤ 1 := by intro p _; split <;> omega
    exact Nat.lt_of_le_of_lt (Nat.add_le_add_left (Nat.add_le_add (hle _) (hle _)) 0) (by decide)
  · decide +kernel

end BCT.Props
