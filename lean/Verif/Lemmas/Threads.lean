import Verif.Model.Threads
import Verif.Lemmas.Act
/-!
# Programs without interference are the sequential functions; relations kept by every schedule
-/

namespace BCT

namespace Prog
variable {σ α β : Type}

theorem solo_bind (p : Prog σ α) (f : α → Prog σ β) (s : σ) :
    (p >>= f).solo s = match p.solo s with
      | none => none
      | some (.ok a, s') => (f a).solo s'
      | some (.err e, s') => some (.err e, s')
      | some (.panic q, s') => some (.panic q, s')
      | some (.ub, s') => some (.ub, s') := by
  change (Prog.bind p f).solo s = _
  induction p generalizing s with
  | done o => cases o <;> rfl
  | step next rest ih =>
    simp only [Prog.bind, solo]
    cases next s with
    | none => rfl
    | some s' => exact ih s s'

end Prog

namespace Node
variable {α β : Type}

/-- From state `t`, without interference, the program ends like the sequential call. -/
def ImplAt (p : Prog Node α) (x : Act Tree α) (t : Tree) : Prop :=
  p.solo ⟨t, false⟩ = some ((x t).out, ⟨(x t).final, false⟩)

theorem implAt_bind {p : Prog Node α} {x : Act Tree α} {f : α → Prog Node β} {g : α → Act Tree β} {t : Tree}
    (h : ImplAt p x t) (hf : ∀ a, (x t).out = .ok a → ImplAt (f a) (g a) (x t).final) :
    ImplAt (p >>= f) (x >>= g) t := by
  unfold ImplAt at *
  rw [Prog.solo_bind, h]
  change _ = some ((Act.bind x g t).out, (⟨(Act.bind x g t).final, false⟩ : Node))
  unfold Act.bind
  cases ho : (x t).out with
  | ok a => exact hf a ho
  | err e => rfl
  | panic p => rfl
  | ub => rfl

theorem implAt_lift (o : Outcome α) (t : Tree) : ImplAt (.lift o) (Act.lift o) t := rfl

theorem implAt_pure (a : α) (t : Tree) : ImplAt (pure a) (pure a) t := rfl

theorem implAt_read (f : Tree → Outcome α) (t : Tree) : ImplAt (read f) (Act.lift (f t)) t := rfl

theorem implAt_write (f : Tree → Tree) (t : Tree) : ImplAt (write f) (Act.step f) t := rfl

theorem implAt_onTree (x : Act Tree α) (t : Tree) : ImplAt (onTree x) x t := rfl

theorem implAt_get {p : Prog Node β} {k : Tree → Act Tree β} {t : Tree} (h : ImplAt p (k t) t) :
    ImplAt p (Act.get >>= k) t := h

theorem implAt_ite {c : Prop} [Decidable c] {p q : Prog Node α} {x y : Act Tree α} {t : Tree}
    (h : c → ImplAt p x t) (h' : ¬ c → ImplAt q y t) :
    ImplAt (if c then p else q) (if c then x else y) t := by
  split
  · exact h ‹_›
  · exact h' ‹_›

theorem implAt_readHeight (t : Tree) : ImplAt readHeight (Act.lift (.ok t.main.chain.height)) t := rfl

theorem implAt_congr {p : Prog Node α} {x y : Act Tree α} {t : Tree} (h : ImplAt p x t)
    (ho : (x t).out = (y t).out) (hf : (x t).final = (y t).final) : ImplAt p y t := by
  unfold ImplAt at *
  rw [h, ho, hf]

/-- A step that only reads, then the rest. -/
theorem implAt_reads {p : Prog Node α} {o : Outcome α} {f : α → Prog Node β} {x : Act Tree β} {t : Tree}
    (h : ImplAt p (Act.lift o) t) {g : α → Act Tree β} (hx : x t = (Act.lift o >>= g) t)
    (hf : ∀ a, o = .ok a → ImplAt (f a) (g a) t) : ImplAt (p >>= f) x t :=
  implAt_congr (implAt_bind (g := g) h (fun a ha => hf a ha)) (by rw [hx]) (by rw [hx])

theorem findRawByHeight_impl (i : U256) (t : Tree) :
    ImplAt (findRawByHeight i) (Act.lift (.ok (t.main.findRawByHeight i))) t := by
  refine implAt_reads (implAt_readHeight t) (g := fun h => if h.val < i.val then pure none else
    Act.lift (.ok (t.main.chain.blocks.get i.toBE.val))) ?_ fun h _ => ?_
  · rw [Act.lift_ok_bind]
    simp only [MainChain.findRawByHeight, Chain.findRawByHeight, Db.get]
    split <;> rfl
  · exact implAt_ite (fun _ => implAt_pure _ _) (fun _ => implAt_read _ _)

theorem lift_bind_lift (o : Outcome α) (f : α → Outcome β) :
    (Act.lift o >>= fun a => Act.lift (f a) : Act Tree β) = Act.lift (o >>= f) := by
  cases o <;> simp

theorem getLastBlock_impl (t : Tree) : ImplAt getLastBlock (Act.lift t.main.getLastBlock) t := by
  have raw : ImplAt getLastRawBlock (Act.lift t.main.getLastRawBlock) t := by
    refine implAt_reads (implAt_readHeight t) (g := fun h => Act.lift (h.sub U256.one) >>= fun i =>
      Act.lift (.ok (t.main.findRawByHeight i))) ?_ fun h _ => ?_
    · rw [Act.lift_ok_bind, lift_bind_lift]
      rfl
    · exact implAt_bind (implAt_lift _ _) fun i _ => findRawByHeight_impl i t
  refine implAt_reads raw (g := fun d => Act.lift (MainChain.decode d)) ?_ fun d _ => implAt_lift _ _
  rw [lift_bind_lift]
  rfl

/-- Without interference `findRawByHash` is the sequential `find_raw_by_hash`. -/
theorem findRawByHash_impl (hash : Hash) (t : Tree) :
    ImplAt (findRawByHash hash) (Act.lift (t.main.findRawByHash hash)) t := by
  refine implAt_reads (implAt_read _ t) (g := fun r => match r with
    | none => pure none
    | some h => Act.lift (U256.fromBE h) >>= fun i => Act.lift (.ok (t.main.findRawByHeight i))) ?_ fun r _ => ?_
  · rw [Act.lift_ok_bind]
    unfold MainChain.findRawByHash Chain.findRawByHash
    cases t.main.chain.heightReference.get hash.val with
    | none => rfl
    | some h => simp only [lift_bind_lift]; rfl
  · cases r with
    | none => exact implAt_pure _ _
    | some h => exact implAt_bind (implAt_lift _ _) fun i _ => findRawByHeight_impl i t

/-- Without interference `addBlock` is the sequential `add_block`. -/
theorem addBlock_impl (E : Env) (b : Block) (t : Tree) :
    ImplAt (addBlock E b) (Tree.onMain (MainChain.addBlock E b)) t := by
  unfold ImplAt
  change Prog.solo _ _ = some
    (((Chain.addBlock E b.info.height b.dump) t.main.chain).out,
     (⟨{ t with main := { t.main with
        chain := ((Chain.addBlock E b.info.height b.dump) t.main.chain).final } }, false⟩ : Node))
  have hp : (addBlock E b).solo ⟨t, false⟩ =
      (if b.info.height ≠ t.main.chain.height then do
        unlock
        .lift (.err .chainAddingBlock)
      else do
        write (setChain fun s => { s with blocks := s.blocks.insert t.main.chain.height.toBE.val b.dump })
        write (setChain fun s =>
          { s with heightReference := s.heightReference.insert (E.sha256 b.dump).val t.main.chain.height.toBE.val })
        match t.main.chain.height.add U256.one with
        | .ok h' => do
          write (setChain fun s => { s with height := h' })
          unlock
        | o => do
          unlock
          let _ ← .lift o
          pure () : Prog Node Unit).solo ⟨t, true⟩ := rfl
  rw [hp]
  unfold Chain.addBlock
  simp only [Act.get_bind]
  split
  · rfl
  · simp only [Act.step_bind]
    cases h : t.main.chain.height.add U256.one with
    | ok h' => simp only [Act.lift_ok_bind]; rfl
    | err e => simp only [Act.lift_err_bind]; rfl
    | panic e => simp only [Act.lift_panic_bind]; rfl
    | ub => simp only [Act.lift_ub_bind]; rfl

/-- Without interference `sendTransaction` is the sequential `send_transaction`. -/
theorem sendTransaction_impl (E : Env) (tx : Transaction) (t : Tree) :
    ImplAt (sendTransaction E tx) (Tree.sendTransaction E tx) t := by
  refine implAt_get ?_
  refine implAt_bind (implAt_read _ _) fun gas _ => implAt_bind (implAt_read _ _) fun amount _ =>
    implAt_bind (implAt_lift _ _) fun need _ => implAt_ite (fun _ => implAt_lift _ _) fun _ =>
    implAt_bind (getLastBlock_impl t) fun last _ => implAt_bind (implAt_lift _ _) fun lastBlock _ =>
    implAt_bind (implAt_lift _ _) fun fee _ => implAt_bind (implAt_lift _ _) fun needed _ =>
    implAt_ite (fun _ => implAt_lift _ _) fun _ => implAt_bind (implAt_onTree _ _) fun _ _ =>
    implAt_bind (implAt_onTree _ _) fun _ _ => implAt_onTree _ _

/-- Without interference `addTransaction` is the sequential `add_transaction`. -/
theorem addTransaction_impl (E : Env) (tx : Transaction) (t : Tree) :
    ImplAt (addTransaction E tx) (Tree.onMain (MainChain.addTransaction E tx)) t := rfl

theorem writeAt_zero_nil (b : Bytes) : writeAt 0 b [] = b := by simp [writeAt]

theorem writeAt_end (a b : Bytes) : writeAt a.length b a = a ++ b := by simp [writeAt]

/-- The two writes of `dump_config`, into the file just truncated. -/
theorem writes_config (t : Tree) : writeConfigAt 32 t.main.chain.difficulty.val (writeConfigAt 0 t.main.chain.height.toBE.val
      (setChain (fun c => { c with config := some [] }) t)) =
    setChain (fun c => { c with config := some (t.main.chain.height.toBE.val ++ t.main.chain.difficulty.val) }) t := by
  have h := writeAt_end t.main.chain.height.toBE.val t.main.chain.difficulty.val
  rw [t.main.chain.height.toBE.property] at h
  simp only [writeConfigAt, setChain, Option.map_some, writeAt_zero_nil, h]

/-- Without interference `mainFlush` is the main chain's sequential `flush`. -/
theorem mainFlush_impl (t : Tree) : ImplAt mainFlush (Tree.onMain MainChain.flush) t := by
  have h := writes_config t
  have e : (mainFlush.solo ⟨t, false⟩) = some (.ok (), ⟨(fun t : Tree => { t with main := { t.main with transactions := t.main.transactions.flush } })
    (setChain (fun c => { c with heightReference := c.heightReference.flush })
      (setChain (fun c => { c with blocks := c.blocks.flush }) (writeConfigAt 32 t.main.chain.difficulty.val
        (writeConfigAt 0 t.main.chain.height.toBE.val (setChain (fun c => { c with config := some [] }) t))))), false⟩) := rfl
  unfold ImplAt
  rw [e, h]
  rfl

/-- Without interference `flush` is the sequential `flush`. -/
theorem flush_impl (t : Tree) : ImplAt flush Tree.flush t := by
  refine implAt_bind (mainFlush_impl t) fun _ _ => ?_
  rfl

/-- Without interference `rotateDbs` is the sequential `rotate_dbs`. -/
theorem rotateDbs_impl (t : Tree) : ImplAt rotateDbs Tree.rotateDbs t := by
  refine implAt_bind (flush_impl t) fun _ _ => ?_
  rfl

/-- Without interference `emitMain` is the sequential `emmit_new_main_block`. -/
theorem emitMain_impl (E : Env) (pow : BytesN 32) (founder : Address) (transactions : List Hash)
    (timestamp : UInt64) (t : Tree) :
    ImplAt (emitMain E pow founder transactions timestamp) (Tree.emitMain E pow founder transactions timestamp) t := by
  refine implAt_get ?_
  refine implAt_bind (getLastBlock_impl t) fun last _ => implAt_bind (implAt_lift _ _) fun lastBlock _ =>
    implAt_bind (implAt_lift _ _) fun good _ => implAt_ite (fun _ => implAt_lift _ _) fun _ =>
    implAt_bind (implAt_lift _ _) fun difficulty _ => implAt_bind (implAt_lift _ _) fun fee _ =>
    implAt_bind (implAt_lift _ _) fun height _ => implAt_bind ?_ fun block _ =>
    implAt_bind (addBlock_impl E block _) fun _ _ => implAt_pure _ _
  refine implAt_ite (fun _ => implAt_ite (fun _ => implAt_lift _ _) fun _ => ?_)
    (fun _ => implAt_ite (fun _ => implAt_lift _ _) fun _ =>
      implAt_bind (implAt_lift _ _) fun root _ => implAt_pure _ _)
  exact implAt_bind (implAt_read _ _) fun root _ => implAt_bind (rotateDbs_impl _) fun _ _ =>
    implAt_bind (implAt_onTree _ _) fun _ _ => implAt_pure _ _

end Node
end BCT
