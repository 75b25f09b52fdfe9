import Verif.Props.Frame
/-!
# C116: opening a node again, after being interrupted or not
-/

namespace BCT.Props
open BCT

/-- Somebody opens the node on directory `d`, and at some moment of that, or right after, the process stops, leaving
directory `d'`. -/
def StoppedOpening (E : Env) (d d' : Disk) : Prop :=
  ∃ t, (t ∈ (openTree E d).trace ∨ t = (openTree E d).final) ∧ (Crash t d' ∨ d' = t.close)

/-- Any number of such attempts, one after the other. -/
inductive Attempts (E : Env) (d : Disk) : Disk → Prop where
  | none : Attempts E d d
  | more (e f : Disk) : Attempts E d e → StoppedOpening E e f → Attempts E d f

/-- The directory differs from `d` at most in entries that opening `d` makes. -/
structure Near (E : Env) (d e : Disk) : Prop where
  blocks : e.blocks = d.blocks ∨ e.blocks = (openTree E d).final.main.chain.blocks.cur
  heightReference : e.heightReference = d.heightReference ∨ e.heightReference = (openTree E d).final.main.chain.heightReference.cur
  transactions : e.transactions = d.transactions
  config : e.config = d.config
  summary : e.summary = d.summary ∨ e.summary = (openTree E d).final.summary.cur
  oldSummary : e.oldSummary = d.oldSummary
  gas : e.gas = d.gas
  oldGas : e.oldGas = d.oldGas
  deriv : ∀ n, e.deriv n = d.deriv n

theorem insert_insert (m : KV) (k v : Bytes) : (m.insert k v).insert k v = m.insert k v := by
  apply KV.ext_get
  intro q
  simp only [KV.get_insert]
  split <;> rfl

theorem near_reopens {E : Env} {d e : Disk} (h : Near E d e) :
    (openTree E e).out = (openTree E d).out ∧ ∀ p : Part, p.Same (openTree E d).final (openTree E e).final := by
  obtain ⟨b, r, x, c, su, os, g, og, dv⟩ := h
  rcases MainChain.readConfig_cases d.config with ⟨h, df, hc⟩ | hc
  · by_cases hz : h.val = 0
    · obtain rfl : h = U256.zero := U256.ext hz
      rw [openTree_of_new (MainChain.new_zero E d.boot.main df hc)] at b r su ⊢
      rw [openTree_of_new (MainChain.new_zero E e.boot.main df (by show MainChain.readConfig e.config = _; rw [c]; exact hc))]
      have b : e.blocks.insert U256.zero.toBE.val (genesis E).dump = d.blocks.insert U256.zero.toBE.val (genesis E).dump := by
        rcases b with b | b
        · rw [b]
        · rw [b]; exact insert_insert _ _ _
      have r : e.heightReference.insert ((genesis E).hash E).val U256.zero.toBE.val =
          d.heightReference.insert ((genesis E).hash E).val U256.zero.toBE.val := by
        rcases r with b | b
        · rw [b]
        · rw [b]; exact insert_insert _ _ _
      have su : e.summary.insert ROOT_PUBLIC_ADDRESS.val (Ledger.encode COINS_PER_CYCLE) =
          d.summary.insert ROOT_PUBLIC_ADDRESS.val (Ledger.encode COINS_PER_CYCLE) := by
        rcases su with b | b
        · rw [b]
        · rw [b]; exact insert_insert _ _ _
      refine ⟨rfl, fun p => ?_⟩
      cases p with
      | derivBlocks o => simp only [Part.Same, Disk.boot, dv, and_self]
      | derivConfig o => simp only [Part.Same, Disk.boot, dv]
      | _ => first | exact b | exact r | exact su | exact x | exact c | exact os | exact g | exact og | rfl
    · rw [openTree_of_new (MainChain.new_pos E d.boot.main h df hc hz)] at b r su ⊢
      rw [openTree_of_new (MainChain.new_pos E e.boot.main h df (by show MainChain.readConfig e.config = _; rw [c]; exact hc) hz)]
      have b : e.blocks = d.blocks := b.elim id id
      have r : e.heightReference = d.heightReference := r.elim id id
      have su : (seedSummary h e.boot.summary).cur = (seedSummary h d.boot.summary).cur := by
        rcases su with b | b
        · unfold seedSummary Disk.boot; rw [b]
        · have b : e.summary = (seedSummary h d.boot.summary).cur := b
          by_cases ho : h = U256.one
          · unfold seedSummary at b ⊢
            rw [if_pos ho] at b ⊢
            rw [if_pos ho]
            show e.summary.insert _ _ = d.summary.insert _ _
            rw [b]; exact insert_insert _ _ _
          · unfold seedSummary at b ⊢
            rw [if_neg ho] at b ⊢
            rw [if_neg ho]
            exact b
      refine ⟨rfl, fun p => ?_⟩
      cases p with
      | derivBlocks o => simp only [Part.Same, Disk.boot, dv, and_self]
      | derivConfig o => simp only [Part.Same, Disk.boot, dv]
      | _ => first | exact b | exact r | exact su | exact x | exact c | exact os | exact g | exact og | rfl
  · rw [openTree_of_err (MainChain.new_err E d.boot.main .chainInit hc)] at b r su ⊢
    rw [openTree_of_err (MainChain.new_err E e.boot.main .chainInit (by show MainChain.readConfig e.config = _; rw [c]; exact hc))]
    have b : e.blocks = d.blocks := b.elim id id
    have r : e.heightReference = d.heightReference := r.elim id id
    have su : e.summary = d.summary := su.elim id id
    refine ⟨rfl, fun p => ?_⟩
    cases p with
    | derivBlocks o => simp only [Part.Same, Disk.boot, dv, and_self]
    | derivConfig o => simp only [Part.Same, Disk.boot, dv]
    | _ => first | exact b | exact r | exact su | exact x | exact c | exact os | exact g | exact og | rfl

/-- The database holds one of the two contents, and a crash leaves one of the two. -/
def Holds2 (m n : KV) (db : Db) : Prop := (db.cur = m ∨ db.cur = n) ∧ ∀ x ∈ db.recov, x = m ∨ x = n

theorem holds2_open (m n : KV) : Holds2 m n (Db.open' m) := by simp [Holds2, Db.open']

theorem holds2_insert (m : KV) (k v : Bytes) : Holds2 m (m.insert k v) ((Db.open' m).insert k v) := by
  simp [Holds2, Db.open', Db.insert, Db.commit]

/-- A moment of opening `d`. -/
structure OpeningMid (E : Env) (d : Disk) (t : Tree) : Prop where
  blocks : Holds2 d.blocks (openTree E d).final.main.chain.blocks.cur t.main.chain.blocks
  heightReference : Holds2 d.heightReference (openTree E d).final.main.chain.heightReference.cur t.main.chain.heightReference
  transactions : t.main.transactions = Db.open' d.transactions
  config : t.main.chain.config = d.config
  summary : Holds2 d.summary (openTree E d).final.summary.cur t.summary
  oldSummary : t.oldSummary = Db.open' d.oldSummary
  gas : t.gas = Db.open' d.gas
  oldGas : t.oldGas = Db.open' d.oldGas
  deriv : t.derivFiles = d.boot.derivFiles

theorem opening_mid {E : Env} {d : Disk} {t : Tree} (h : t ∈ (openTree E d).trace ∨ t = (openTree E d).final) :
    OpeningMid E d t := by
  rcases openTree_cases d with hc | ⟨h', df, hc, hz⟩ | ⟨df, hc⟩
  · have e := openTree_torn (E := E) hc
    rw [e] at h
    have : t = d.boot := by simpa using h
    subst this
    refine ⟨?_, ?_, rfl, rfl, ?_, rfl, rfl, rfl, rfl⟩ <;> exact holds2_open _ _
  · have e := openTree_of_new (MainChain.new_pos E d.boot.main h' df hc hz)
    have f := (openTree_pos (E := E) hc hz).2
    have su : Holds2 d.summary (openTree E d).final.summary.cur (seedSummary h' d.boot.summary) := by
      rw [f]
      simp only [seedSummary]
      split
      · exact holds2_insert _ _ _
      · exact holds2_open _ _
    rw [e] at h
    simp only [List.map_cons, List.map_nil, List.mem_cons, List.mem_append, List.not_mem_nil, or_false] at h
    rcases h with (rfl | rfl | h) | rfl
    · refine ⟨?_, ?_, rfl, rfl, ?_, rfl, rfl, rfl, rfl⟩ <;> exact holds2_open _ _
    · refine ⟨?_, ?_, rfl, rfl, ?_, rfl, rfl, rfl, rfl⟩ <;> exact holds2_open _ _
    · split at h
      · obtain rfl : t = _ := by simpa using h
        exact ⟨holds2_open _ _, holds2_open _ _, rfl, rfl, su, rfl, rfl, rfl, rfl⟩
      · simp at h
    · exact ⟨holds2_open _ _, holds2_open _ _, rfl, rfl, su, rfl, rfl, rfl, rfl⟩
  · have e := openTree_of_new (MainChain.new_zero E d.boot.main df hc)
    have f := (openTree_zero (E := E) hc).2
    have bl : (openTree E d).final.main.chain.blocks.cur = d.blocks.insert U256.zero.toBE.val (genesis E).dump := by
      rw [f]; rfl
    have rf : (openTree E d).final.main.chain.heightReference.cur =
        d.heightReference.insert ((genesis E).hash E).val U256.zero.toBE.val := by
      rw [f]; rfl
    have su : (openTree E d).final.summary.cur =
        d.summary.insert ROOT_PUBLIC_ADDRESS.val (Ledger.encode COINS_PER_CYCLE) := by
      rw [f]; rfl
    rw [e] at h
    simp only [List.map_cons, List.map_nil, List.mem_cons, List.mem_append, List.not_mem_nil, or_false] at h
    rcases h with (rfl | (rfl | rfl | rfl | rfl) | h) | rfl
    · refine ⟨?_, ?_, rfl, rfl, ?_, rfl, rfl, rfl, rfl⟩ <;> exact holds2_open _ _
    · refine ⟨?_, ?_, rfl, rfl, ?_, rfl, rfl, rfl, rfl⟩ <;> exact holds2_open _ _
    · exact ⟨by rw [bl]; exact holds2_insert _ _ _, holds2_open _ _, rfl, rfl, holds2_open _ _, rfl, rfl, rfl, rfl⟩
    · exact ⟨by rw [bl]; exact holds2_insert _ _ _, by rw [rf]; exact holds2_insert _ _ _, rfl, rfl, holds2_open _ _, rfl, rfl, rfl, rfl⟩
    · exact ⟨by rw [bl]; exact holds2_insert _ _ _, by rw [rf]; exact holds2_insert _ _ _, rfl, rfl, holds2_open _ _, rfl, rfl, rfl, rfl⟩
    · rw [if_pos (by rfl)] at h
      obtain rfl : t = _ := by simpa using h
      exact ⟨by rw [bl]; exact holds2_insert _ _ _, by rw [rf]; exact holds2_insert _ _ _, rfl, rfl,
        by rw [su]; exact holds2_insert _ _ _, rfl, rfl, rfl, rfl⟩
    · exact ⟨by rw [bl]; exact holds2_insert _ _ _, by rw [rf]; exact holds2_insert _ _ _, rfl, rfl,
        by rw [su]; exact holds2_insert _ _ _, rfl, rfl, rfl, rfl⟩

theorem stopped_near {E : Env} {d e : Disk} (h : StoppedOpening E d e) : Near E d e := by
  obtain ⟨t, ht, h⟩ := h
  obtain ⟨b, r, x, c, su, os, g, og, dv⟩ := opening_mid ht
  rcases h with h | rfl
  · refine ⟨b.2 _ h.blocks, r.2 _ h.heightReference, ?_, h.config.trans c, su.2 _ h.summary, ?_, ?_, ?_, fun n => ?_⟩
    · have := h.transactions; rw [x] at this; simpa [Db.open'] using this
    · have := h.oldSummary; rw [os] at this; simpa [Db.open'] using this
    · have := h.gas; rw [g] at this; simpa [Db.open'] using this
    · have := h.oldGas; rw [og] at this; simpa [Db.open'] using this
    · obtain ⟨h1, h2, h3⟩ := h.deriv n
      rw [dv] at h1 h2 h3
      simp only [Disk.boot, Db.open', List.mem_singleton] at h1 h2 h3
      cases hn : e.deriv n
      cases hm : d.deriv n
      simp only [hn, hm] at h1 h2 h3
      rw [h1, h2, h3]
  · exact ⟨b.1, r.1, congrArg Db.cur x, c, su.1, congrArg Db.cur os, congrArg Db.cur g, congrArg Db.cur og, fun n => by
      simp only [Tree.close, dv]; rfl⟩

theorem attempts_near {E : Env} {d e : Disk} (h : Attempts E d e) : Near E d e := by
  induction h with
  | none => exact ⟨.inl rfl, .inl rfl, rfl, rfl, .inl rfl, rfl, rfl, rfl, fun _ => rfl⟩
  | more e f _ hs ih =>
    have k := (near_reopens ih).2
    have n := stopped_near hs
    have kb : (openTree E e).final.main.chain.blocks.cur = (openTree E d).final.main.chain.blocks.cur := k .blocks
    have kr : (openTree E e).final.main.chain.heightReference.cur = (openTree E d).final.main.chain.heightReference.cur :=
      k .references
    have ks : (openTree E e).final.summary.cur = (openTree E d).final.summary.cur := k .coins
    refine ⟨?_, ?_, n.transactions.trans ih.transactions, n.config.trans ih.config, ?_, n.oldSummary.trans ih.oldSummary,
      n.gas.trans ih.gas, n.oldGas.trans ih.oldGas, fun i => (n.deriv i).trans (ih.deriv i)⟩
    · rcases n.blocks with h | h
      · rw [h]; exact ih.blocks
      · rw [h, kb]; exact .inr rfl
    · rcases n.heightReference with h | h
      · rw [h]; exact ih.heightReference
      · rw [h, kr]; exact .inr rfl
    · rcases n.summary with h | h
      · rw [h]; exact ih.summary
      · rw [h, ks]; exact .inr rfl

/-- C116. Opening a directory, any directory, however often it is stopped on the way, by crashes at any moment or by
clean shutdowns once it is done, ends as opening it undisturbed ends: with the same outcome, and if that is success, with
the same contents of every part of the node. -/
theorem C116_open_again (E : Env) (d e : Disk) (h : Attempts E d e) :
    (openTree E e).out = (openTree E d).out ∧ ∀ p : Part, p.Same (openTree E d).final (openTree E e).final :=
  near_reopens (attempts_near h)

/-- A first start stopped after the genesis block is written but before its hash is, then one stopped by a clean
shutdown: neither directory is the one before. -/
example : ∃ d e, StoppedOpening zeroEnv Disk.empty d ∧ StoppedOpening zeroEnv d e ∧ d ≠ Disk.empty ∧ e ≠ d := by
  let t1 : Tree := { Disk.empty.boot with main := { Disk.empty.boot.main with
    chain := (Disk.empty.boot.main.chain.loaded U256.zero BEGINNING_DIFFICULTY).put1 (genesis zeroEnv).dump } }
  let d : Disk := t1.close
  have h0 := openTree_of_new (MainChain.new_zero zeroEnv Disk.empty.boot.main BEGINNING_DIFFICULTY rfl)
  have h1 := openTree_of_new (MainChain.new_zero zeroEnv d.boot.main BEGINNING_DIFFICULTY rfl)
  refine ⟨d, (openTree zeroEnv d).final.close, ⟨t1, .inl ?_, .inr rfl⟩, ⟨_, .inr rfl, .inr rfl⟩, fun h => ?_, fun h => ?_⟩
  · rw [h0]
    simp [t1]
  · have : (KV.empty.insert U256.zero.toBE.val (genesis zeroEnv).dump).get U256.zero.toBE.val = none :=
      congrArg (fun x : Disk => x.blocks.get U256.zero.toBE.val) h
    rw [KV.get_insert, if_pos rfl] at this
    cases this
  · have : (openTree zeroEnv d).final.summary.cur.get ROOT_PUBLIC_ADDRESS.val = none :=
      congrArg (fun x : Disk => x.summary.get ROOT_PUBLIC_ADDRESS.val) h
    rw [h1] at this
    have : (KV.empty.insert ROOT_PUBLIC_ADDRESS.val (Ledger.encode COINS_PER_CYCLE)).get ROOT_PUBLIC_ADDRESS.val = none := this
    rw [KV.get_insert, if_pos rfl] at this
    cases this

end BCT.Props
