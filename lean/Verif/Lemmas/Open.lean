import Verif.Lemmas.Chain
import Verif.Lemmas.Codec
/-!
# Opening a node
-/

namespace BCT

namespace Ledger

theorem transact_ok {closure : KV → Outcome KV} {d : Db} {m : KV} (h : closure d.cur = .ok m) :
    transact closure d = ⟨.ok (), d.commit (fun _ => m), [d.commit (fun _ => m)]⟩ := by
  unfold transact
  simp [h]

theorem transact_err {closure : KV → Outcome KV} {d : Db} {e : Err} (h : closure d.cur = .err e) :
    transact closure d = ⟨.panic .unwrap, d, []⟩ := by
  unfold transact
  simp [h]

theorem transact_panic {closure : KV → Outcome KV} {d : Db} {p : Panic} (h : closure d.cur = .panic p) :
    transact closure d = ⟨.panic p, d, []⟩ := by
  unfold transact
  simp [h, Outcome.unwrap]

theorem transact_ub {closure : KV → Outcome KV} {d : Db} (h : closure d.cur = .ub) :
    transact closure d = ⟨.ub, d, []⟩ := by
  unfold transact
  simp [h, Outcome.unwrap]

theorem set_run (owner : Bytes) (amount : U256) (d : Db) :
    set owner amount d = ⟨.ok (), d.insert owner (encode amount), [d.insert owner (encode amount)]⟩ := by
  unfold set
  rw [transact_ok (m := d.cur.insert owner (encode amount)) rfl]
  rfl

theorem balance_encode (a : U256) : balance (some (encode a)) = .ok a := by
  unfold balance encode
  have := loadU256_encU256 a []
  rw [List.append_nil] at this
  simp [dumpU256_append, this]

end Ledger

/-- What `BlockChainTree::new` does to the coin database. -/
def seedSummary (height : U256) (d : Db) : Db :=
  if height = U256.one then d.insert ROOT_PUBLIC_ADDRESS.val (Ledger.encode COINS_PER_CYCLE) else d

theorem openTree_of_new {E : Env} {d : Disk} {m : MainChain} {tr : List MainChain}
    (h : MainChain.new E d.boot.main = ⟨.ok (), m, tr⟩) :
    openTree E d = ⟨.ok (), { d.boot with main := m, summary := seedSummary m.getHeight d.boot.summary },
      d.boot :: (tr.map (fun x => { d.boot with main := x }) ++
        (if m.getHeight = U256.one then
          [{ d.boot with main := m, summary := seedSummary m.getHeight d.boot.summary }] else []))⟩ := by
  unfold openTree Tree.new
  rw [Act.step_bind]
  have hm : Tree.onMain (MainChain.new E) d.boot =
      ⟨.ok (), { d.boot with main := m }, tr.map (fun x => { d.boot with main := x })⟩ := by
    unfold Tree.onMain
    rw [Act.zoom_run, h]
  change Res.mk _ _ _ = _
  rw [show ({ d.boot with derivMem := fun _ => none } : Tree) = d.boot from rfl]
  rw [Act.bind_ok hm]
  simp only [Act.get_bind]
  by_cases ho : m.getHeight = U256.one
  · simp only [if_pos ho, seedSummary]
    unfold Tree.onSummary
    rw [Act.zoom_run, Ledger.set_run]
    rfl
  · simp only [if_neg ho, seedSummary]
    simp

theorem openTree_of_err {E : Env} {d : Disk} {e : Err} {m : MainChain} {tr : List MainChain}
    (h : MainChain.new E d.boot.main = ⟨.err e, m, tr⟩) :
    openTree E d = ⟨.err e, { d.boot with main := m }, d.boot :: tr.map (fun x => { d.boot with main := x })⟩ := by
  unfold openTree Tree.new
  rw [Act.step_bind]
  have hm : Tree.onMain (MainChain.new E) d.boot =
      ⟨.err e, { d.boot with main := m }, tr.map (fun x => { d.boot with main := x })⟩ := by
    unfold Tree.onMain
    rw [Act.zoom_run, h]
  rw [show ({ d.boot with derivMem := fun _ => none } : Tree) = d.boot from rfl]
  rw [Act.bind_err hm]

/-- Reading the config file never panics. -/
theorem MainChain.readConfig_cases (c : Option Bytes) :
    (∃ h d, readConfig c = .ok (h, d)) ∨ readConfig c = .err .chainInit := by
  unfold readConfig
  cases c with
  | none => left; exact ⟨_, _, rfl⟩
  | some f =>
    simp only
    split
    · split
      · left
        have : U256.fromBE (f.take 32) = .ok ⟨beNat (f.take 32), beNat_lt_size _ (by rw [List.length_take]; omega)⟩ := by
          unfold U256.fromBE; rw [dif_pos (by rw [List.length_take]; omega)]
        rw [this]
        exact ⟨_, _, rfl⟩
      · exact .inr rfl
    · exact .inr rfl

/-- A complete config file is read back. -/
theorem MainChain.readConfig_written (h : U256) (d : Hash) :
    readConfig (some (h.toBE.val ++ d.val)) = .ok (h, d) := by
  have l1 : h.toBE.val.length = 32 := h.toBE.property
  have l2 : d.val.length = 32 := d.property
  unfold readConfig
  simp only
  rw [if_pos (by simp [l1]), dif_pos (by simp [l1, l2])]
  have : (h.toBE.val ++ d.val).take 32 = h.toBE.val := List.take_left' l1
  rw [this, fromBE_toBE, Outcome.ok_bind]
  congr 2
  apply Subtype.ext
  simp only
  rw [show (h.toBE.val ++ d.val).drop 32 = d.val from List.drop_left' l1]
  exact List.take_of_length_le (by omega)

theorem openTree_fresh (E : Env) :
    (openTree E Disk.empty).out = .ok () ∧
    (openTree E Disk.empty).final =
      { Disk.empty.boot with
        main := { chain := bootChain E (Db.open' KV.empty) (Db.open' KV.empty) BEGINNING_DIFFICULTY none,
                  transactions := Db.open' KV.empty },
        summary := (Db.open' KV.empty).insert ROOT_PUBLIC_ADDRESS.val (Ledger.encode COINS_PER_CYCLE) } := by
  have h := MainChain.new_zero E Disk.empty.boot.main BEGINNING_DIFFICULTY rfl
  rw [openTree_of_new h]
  exact ⟨rfl, rfl⟩

/-! ### Chains of running nodes -/

theorem runWith_holds {E : Env} {allowed : Op → Prop} {A : Block → Prop} {s : Tree} (hr : RunWith E allowed s)
    (hA : ∀ op, allowed op → op.Adds A) (hm : s.main.chain.height.val + 1 < U256.size) :
    ∃ new, Chain.Holds E s.main.chain (genesis E :: new) ∧ ∀ b ∈ new, A b := by
  have key : MainGrows E A (openTree E Disk.empty).final s := by
    clear hm
    induction hr with
    | fresh => exact (mainGrows_preord E A).refl _
    | call s op _ ho ih =>
      exact (mainGrows_preord E A).trans ih
        (Op.sat (mainGrows_prims E A) (Act.relF_closed (mainGrows_preord E A)) op (hA op ho) s)
  have h0 : Chain.Holds E (openTree E Disk.empty).final.main.chain [genesis E] := by
    rw [(openTree_fresh E).2]; exact bootChain_holds E _ _
  obtain ⟨new, h1, h2⟩ := key.2 hm _ h0
  exact ⟨new, h1, h2⟩

theorem run_holds {E : Env} {s : Tree} (hr : Run E s) (hm : s.main.chain.height.val + 1 < U256.size) :
    ∃ bs, Chain.Holds E s.main.chain (genesis E :: bs) := by
  obtain ⟨new, h, _⟩ := runWith_holds (A := fun _ => True) hr (fun op _ => by
    cases op <;> simp [Op.Adds]) hm
  exact ⟨new, h⟩

theorem later_grows {E : Env} {s t : Tree} (h : Later E s t) : MainGrows E (fun _ => True) s t := by
  induction h with
  | refl => exact (mainGrows_preord E _).refl _
  | call s' op _ ih =>
    refine (mainGrows_preord E _).trans ih
      (Op.sat (mainGrows_prims E _) (Act.relF_closed (mainGrows_preord E _)) op ?_ s')
    cases op <;> simp [Op.Adds]

end BCT
