import Verif.Model.Rotate
import Verif.Lemmas.Act
import Verif.Props.Files
/-!
# C125, C126: the files of the old databases
-/

namespace BCT

open Spec

/-- What a sequence does, from what its first part does. -/
theorem Act.then_ok {σ α β : Type} {x : Act σ α} {f : α → Act σ β} {s s' : σ} {a : α} (h1 : (x s).out = .ok a)
    (h2 : (x s).final = s') :
    ((x >>= f) s).out = (f a s').out ∧ ((x >>= f) s).final = (f a s').final ∧
      ((x >>= f) s).trace = (x s).trace ++ (f a s').trace := by
  subst h2
  simp only [Act.bind_def, Act.bind, h1, and_self]

theorem Act.then_not_ok {σ : Type} {x : Act σ Unit} {f : Unit → Act σ Unit} {s : σ} (h : (x s).out ≠ .ok ()) :
    ((x >>= f) s).out = (x s).out ∧ ((x >>= f) s).final = (x s).final ∧ ((x >>= f) s).trace = (x s).trace := by
  simp only [Act.bind_def, Act.bind]
  cases ho : (x s).out with
  | ok u => exact absurd ho h
  | err e => simp
  | panic e => simp
  | ub => simp

namespace FS

theorem get_remove {fs : FS} {p : Path} (hp : p ≠ []) (q : Path) :
    (fs.remove p).get q = if q = p then none else fs.get q := by
  unfold get remove
  by_cases hq : q = []
  · subst hq; simp [Ne.symm hp]
  · by_cases h : q = p
    · subst h; simp [hq]
    · rw [if_neg hq, if_neg hq, if_neg h, List.find?_filter]
      congr 2
      funext e
      by_cases he : e.1 = q
      · simp [he, h]
      · simp [he]

@[simp] theorem call_run (f : FS → Outcome Unit × FS) (fs : FS) :
    call f fs = ⟨(f fs).1, (f fs).2, [(f fs).2]⟩ := rfl

/-- `makeDirs` ends like `createDirs`. -/
theorem makeDirs_eq (base rest : Path) (fs : FS) :
    (makeDirs base rest fs).out = (fs.createDirs base rest).1 ∧
    (makeDirs base rest fs).final = (fs.createDirs base rest).2 := by
  induction rest generalizing base fs with
  | nil => exact ⟨rfl, rfl⟩
  | cons n rest ih =>
    unfold makeDirs createDirs
    match h : fs.mkdir (base ++ [n]) with
    | (.ok u, fs1) =>
      obtain ⟨h1, h2, -⟩ := Act.then_ok (x := call (fun fs => fs.mkdir (base ++ [n])))
        (f := fun _ => makeDirs (base ++ [n]) rest) (s := fs) (s' := fs1) (a := u) (by simp [h]) (by simp [h])
      rw [h1, h2]
      exact ih _ _
    | (.err e, fs1) => rw [Act.bind_err (e := e) (s' := fs1) (t := [fs1]) (by simp [h])]; exact ⟨rfl, rfl⟩
    | (.panic e, fs1) => rw [Act.bind_panic (p := e) (s' := fs1) (t := [fs1]) (by simp [h])]; exact ⟨rfl, rfl⟩
    | (.ub, fs1) => rw [Act.bind_ub (s' := fs1) (t := [fs1]) (by simp [h])]; exact ⟨rfl, rfl⟩

/-- `copyFile` ends like `copy`. -/
theorem copyFile_eq (source target : Path) (fs : FS) :
    (copyFile source target fs).out = (fs.copy source target).1 ∧
    (copyFile source target fs).final = (fs.copy source target).2 := by
  unfold copyFile copy
  cases h : fs.get source with
  | none => exact ⟨rfl, rfl⟩
  | some x =>
    cases x with
    | dir => exact ⟨rfl, rfl⟩
    | file d =>
      obtain ⟨o, fs1⟩ : Outcome Unit × FS := fs.create target
      cases o with
      | ok u =>
        simp only
        cases h2 : fs1.get source with
        | none => exact ⟨rfl, rfl⟩
        | some y => cases y <;> exact ⟨rfl, rfl⟩
      | err e => exact ⟨rfl, rfl⟩
      | panic e => exact ⟨rfl, rfl⟩
      | ub => exact ⟨rfl, rfl⟩

end FS

/-- The body of the loop of `copyTree`. -/
def copyOne (self : Path → Path → Act FS Unit) (src dst : Path) (n : String) : Act FS Unit := do
  let fs ← Act.get
  match fs.get (src ++ [n]) with
  | some .dir => self (src ++ [n]) (dst ++ [n])
  | _ => FS.copyFile (src ++ [n]) (dst ++ [n])

/-- The body of the loop of `removeTree`. -/
def removeOne (self : Path → Act FS Unit) (p : Path) (n : String) : Act FS Unit := do
  let fs ← Act.get
  match fs.get (p ++ [n]) with
  | some .dir => self (p ++ [n])
  | _ => FS.call (fun fs => fs.unlink (p ++ [n]))

theorem copyEntries_eq {self : Path → Path → FS → Option (Outcome Unit × FS)} {self' : Path → Path → Act FS Unit}
    (hself : ∀ src dst fs r, self src dst fs = some r →
      (self' src dst fs).out = r.1 ∧ (self' src dst fs).final = r.2)
    (src dst : Path) (names : List String) (fs : FS) (r : Outcome Unit × FS)
    (h : copyEntries self src dst names fs = some r) :
    (Act.forEach names (copyOne self' src dst) fs).out = r.1 ∧
    (Act.forEach names (copyOne self' src dst) fs).final = r.2 := by
  induction names generalizing fs with
  | nil => rw [copyEntries] at h; cases h; exact ⟨rfl, rfl⟩
  | cons n names ih =>
    rw [copyEntries] at h
    have key : ∀ (r' : Outcome Unit × FS), (copyOne self' src dst n fs).out = r'.1 →
        (copyOne self' src dst n fs).final = r'.2 →
        (∀ fs1, r' = (.ok (), fs1) → copyEntries self src dst names fs1 = some r) →
        (r'.1 ≠ .ok () → r' = r) →
        (Act.forEach (n :: names) (copyOne self' src dst) fs).out = r.1 ∧
        (Act.forEach (n :: names) (copyOne self' src dst) fs).final = r.2 := by
      intro r' h1 h2 h3 h4
      simp only [Act.forEach, ← Act.bind_def]
      by_cases ho : r'.1 = .ok ()
      · obtain ⟨o, fs1⟩ := r'
        simp only at ho h2
        subst ho
        obtain ⟨g1, g2, -⟩ := Act.then_ok (f := fun _ => Act.forEach names (copyOne self' src dst)) h1 h2
        rw [g1, g2]
        exact ih fs1 (h3 fs1 rfl)
      · obtain ⟨g1, g2, -⟩ := Act.then_not_ok (f := fun _ => Act.forEach names (copyOne self' src dst))
          (show (copyOne self' src dst n fs).out ≠ _ by rw [h1]; exact ho)
        rw [g1, g2, h1, h2, h4 ho]
        exact ⟨rfl, rfl⟩
    have hfile : (match fs.copy (src ++ [n]) (dst ++ [n]) with
          | (.ok _, fs) => copyEntries self src dst names fs
          | r => some r) = some r → copyOne self' src dst n fs = FS.copyFile (src ++ [n]) (dst ++ [n]) fs →
        (Act.forEach (n :: names) (copyOne self' src dst) fs).out = r.1 ∧
        (Act.forEach (n :: names) (copyOne self' src dst) fs).final = r.2 := by
      intro h hc
      obtain ⟨g1, g2⟩ := FS.copyFile_eq (src ++ [n]) (dst ++ [n]) fs
      refine key (fs.copy (src ++ [n]) (dst ++ [n])) (by rw [hc]; exact g1) (by rw [hc]; exact g2) ?_ ?_
      · intro fs1 he; rw [he] at h; exact h
      · intro hne
        split at h
        · rename_i he; rw [he] at hne; exact absurd rfl hne
        · simpa using h
    cases hk : fs.get (src ++ [n]) with
    | none => rw [hk] at h; exact hfile h (by simp only [copyOne, Act.get_bind, hk])
    | some x =>
      cases x with
      | file d => rw [hk] at h; exact hfile h (by simp only [copyOne, Act.get_bind, hk])
      | dir =>
        rw [hk] at h
        simp only at h
        cases hs : self (src ++ [n]) (dst ++ [n]) fs with
        | none => rw [hs] at h; cases h
        | some r' =>
          obtain ⟨g1, g2⟩ := hself _ _ _ _ hs
          have hc : copyOne self' src dst n fs = self' (src ++ [n]) (dst ++ [n]) fs := by
            simp only [copyOne, Act.get_bind, hk]
          refine key r' (by rw [hc]; exact g1) (by rw [hc]; exact g2) ?_ ?_
          · rintro fs1 rfl; rw [hs] at h; exact h
          · intro hne
            rw [hs] at h
            obtain ⟨o, fs1⟩ := r'
            cases o with
            | ok u => exact absurd rfl hne
            | err e => simpa using h
            | panic e => simpa using h
            | ub => simpa using h

/-- `copyTree` ends like `copyDirAll`. -/
theorem copyTree_eq (L : Listing) (depth : Nat) (src dst : Path) (fs : FS) (r : Outcome Unit × FS)
    (h : copyDirAll L depth src dst fs = some r) :
    (copyTree L depth src dst fs).out = r.1 ∧ (copyTree L depth src dst fs).final = r.2 := by
  induction depth generalizing src dst fs r with
  | zero => rw [copyDirAll] at h; cases h
  | succ depth ih =>
    rw [copyDirAll] at h
    unfold copyTree
    obtain ⟨g1, g2⟩ := FS.makeDirs_eq [] dst fs
    unfold FS.createDirAll at h
    by_cases ho : (fs.createDirs [] dst).1 = .ok ()
    · obtain ⟨k1, k2, -⟩ := Act.then_ok (f := fun _ => (do
        let fs ← Act.get
        match fs.get src with
        | some .dir => Act.forEach (L.names fs src) (copyOne (copyTree L depth) src dst)
        | _ => Act.lift (.err .io) : Act FS Unit)) (g1.trans ho) g2
      have hr : (match (fs.createDirs [] dst).2.get src with
          | some .dir => copyEntries (copyDirAll L depth) src dst (L.names (fs.createDirs [] dst).2 src)
              (fs.createDirs [] dst).2
          | _ => some (.err .io, (fs.createDirs [] dst).2)) = some r := by
        rw [← h]
        generalize fs.createDirs [] dst = c at ho ⊢
        obtain ⟨o, fs1⟩ := c
        cases ho
        rfl
      have hfin : ((do
          let fs ← Act.get
          match fs.get src with
          | some .dir => Act.forEach (L.names fs src) (copyOne (copyTree L depth) src dst)
          | _ => Act.lift (.err .io) : Act FS Unit) (fs.createDirs [] dst).2).out = r.1 ∧ ((do
          let fs ← Act.get
          match fs.get src with
          | some .dir => Act.forEach (L.names fs src) (copyOne (copyTree L depth) src dst)
          | _ => Act.lift (.err .io) : Act FS Unit) (fs.createDirs [] dst).2).final = r.2 := by
        rw [Act.get_bind]
        cases hs : (fs.createDirs [] dst).2.get src with
        | none => rw [hs] at hr; cases hr; exact ⟨rfl, rfl⟩
        | some x =>
          cases x with
          | file d => rw [hs] at hr; cases hr; exact ⟨rfl, rfl⟩
          | dir =>
            rw [hs] at hr
            exact copyEntries_eq (self := copyDirAll L depth) (self' := copyTree L depth)
              (fun src dst fs r h => ih src dst fs r h) src dst _ _ r hr
      exact ⟨k1.trans hfin.1, k2.trans hfin.2⟩
    · obtain ⟨k1, k2, -⟩ := Act.then_not_ok (f := fun _ => (do
        let fs ← Act.get
        match fs.get src with
        | some .dir => Act.forEach (L.names fs src) (copyOne (copyTree L depth) src dst)
        | _ => Act.lift (.err .io) : Act FS Unit))
        (show (FS.makeDirs [] dst fs).out ≠ _ by rw [g1]; exact ho)
      have hr : r = fs.createDirs [] dst := by
        split at h
        · rename_i he; rw [he] at ho; exact absurd rfl ho
        · simpa using h.symm
      rw [hr]
      exact ⟨k1.trans g1, k2.trans g2⟩

theorem SourceTree.congr {depth : Nat} {src : Path} {fs fs' : FS} (h : SourceTree depth src fs)
    (he : ∀ rel, fs'.get (src ++ rel) = fs.get (src ++ rel)) : SourceTree depth src fs' :=
  ⟨by simpa using (he []).trans (by simpa using h.dir),
    fun rel m hm => by
      rw [he]
      refine h.wf rel m ?_
      rw [List.append_assoc, he, ← List.append_assoc] at hm
      exact hm,
    fun rel hr => h.deep rel (by rwa [he] at hr)⟩

/-- A directory below the one copied or removed. -/
theorem SourceTree.child {depth : Nat} {p : Path} {fs : FS} (h : SourceTree (depth + 1) p fs) {n : String}
    (hn : fs.get (p ++ [n]) = some .dir) : SourceTree depth (p ++ [n]) fs :=
  ⟨hn, fun rel m hm => by simpa using h.wf (n :: rel) m (by simpa using hm),
    fun rel hr => by simpa using h.deep (n :: rel) (by simpa using hr)⟩

/-- Nothing is below a file. -/
theorem SourceTree.leaf {depth : Nat} {p : Path} {fs : FS} (h : SourceTree depth p fs) {n : String} {d : Bytes}
    (hn : fs.get (p ++ [n]) = some (.file d)) (rel : Path) (hrel : rel ≠ []) : fs.get (p ++ n :: rel) = none := by
  have h1 : ∀ r : Path, (fs.get (p ++ n :: r)).isSome → r = [] := by
    intro r
    induction r using List.reverseRecOn with
    | nil => simp
    | append_singleton r m ihr =>
      intro hr
      have h2 := h.wf (n :: r) m (by simpa using hr)
      have h3 : r = [] := ihr (by rw [h2]; rfl)
      subst h3
      rw [hn] at h2
      cases h2
  refine Classical.byContradiction fun hc => hrel (h1 rel (Option.isSome_iff_ne_none.2 hc))

/-- Nothing is below nothing. -/
theorem SourceTree.gone {depth : Nat} {p : Path} {fs : FS} (h : SourceTree depth p fs) {n : String}
    (hn : fs.get (p ++ [n]) = none) (rel : Path) : fs.get (p ++ n :: rel) = none := by
  induction rel using List.reverseRecOn with
  | nil => exact hn
  | append_singleton r m ihr =>
    refine Classical.byContradiction fun hc => ?_
    have h2 := h.wf (n :: r) m (Option.isSome_iff_ne_none.2 (by simpa using hc))
    rw [ihr] at h2
    cases h2

/-- What `remove_dir_all` does. -/
theorem removeTree_spec (L : Listing) (depth : Nat) (p : Path) (hp : p ≠ []) (fs : FS) (ht : SourceTree depth p fs) :
    (removeTree L depth p fs).out = .ok () ∧
    ∀ q, (removeTree L depth p fs).final.get q = if p <+: q then none else fs.get q := by
  induction depth generalizing p fs with
  | zero => exact absurd (ht.deep [] (by rw [List.append_nil, ht.dir]; rfl)) (by simp)
  | succ depth ih =>
    -- the loop over the names
    have loop : ∀ (names : List String) (fs : FS), names.Nodup → SourceTree (depth + 1) p fs →
        (∀ n ∈ names, (fs.get (p ++ [n])).isSome) →
        (Act.forEach names (removeOne (removeTree L depth) p) fs).out = .ok () ∧
          (∀ n ∈ names, ∀ q, p ++ [n] <+: q →
            (Act.forEach names (removeOne (removeTree L depth) p) fs).final.get q = none) ∧
          ∀ q, (∀ n ∈ names, ¬ p ++ [n] <+: q) →
            (Act.forEach names (removeOne (removeTree L depth) p) fs).final.get q = fs.get q := by
      intro names
      induction names with
      | nil => intro fs _ _ _; exact ⟨rfl, by simp, fun _ _ => rfl⟩
      | cons n names ihn =>
        intro fs hnd ht hn
        obtain ⟨hnn, hnd⟩ := List.nodup_cons.1 hnd
        have hne : p ++ [n] ≠ [] := by simp
        obtain ⟨fs1, t1, h1, h1g⟩ : ∃ fs1 t1, removeOne (removeTree L depth) p n fs = ⟨.ok (), fs1, t1⟩ ∧
            ∀ q, fs1.get q = if p ++ [n] <+: q then none else fs.get q := by
          unfold removeOne
          match hk : fs.get (p ++ [n]) with
          | some .dir =>
            obtain ⟨g1, g2⟩ := ih (p ++ [n]) hne fs (ht.child hk)
            refine ⟨_, (removeTree L depth (p ++ [n]) fs).trace, ?_, g2⟩
            simp only [Act.get_bind, hk]
            rw [← g1]
          | some (.file d) =>
            refine ⟨fs.remove (p ++ [n]), [fs.remove (p ++ [n])], ?_, ?_⟩
            · simp only [Act.get_bind, hk, FS.call_run, FS.unlink]
            · intro q
              rw [FS.get_remove hne]
              by_cases hq : p ++ [n] <+: q
              · rw [if_pos hq]
                obtain ⟨rel, rfl⟩ := hq
                by_cases hrel : rel = []
                · subst hrel; simp
                · rw [if_neg (by simpa using hrel), List.append_assoc, List.singleton_append]
                  exact ht.leaf hk rel hrel
              · rw [if_neg hq, if_neg]
                rintro rfl
                exact hq List.prefix_rfl
          | none => have := hn n (by simp); rw [hk] at this; cases this
        have hself : ∀ rel, fs1.get (p ++ rel) = if rel.head? = some n then none else fs.get (p ++ rel) := by
          intro rel
          rw [h1g]
          cases rel with
          | nil =>
            rw [if_neg (by intro h; have := h.length_le; simp at this; omega), if_neg (by simp)]
          | cons m r =>
            by_cases hmn : n = m
            · subst hmn
              rw [if_pos (cons_prefix.2 rfl), if_pos (by simp)]
            · rw [if_neg (fun h => hmn (cons_prefix.1 h)), if_neg (by simp [Ne.symm hmn])]
        have ht1 : SourceTree (depth + 1) p fs1 := by
          refine ⟨?_, fun rel m hm => ?_, fun rel hr => ?_⟩
          · have := hself []
            rw [if_neg (by simp)] at this
            simpa [ht.dir] using this
          · have h2 := hself (rel ++ [m])
            rw [← List.append_assoc] at h2
            rw [h2] at hm
            split at hm
            · cases hm
            · rename_i hno
              rw [hself, if_neg]
              · exact ht.wf rel m (by simpa using hm)
              · intro hr
                exact hno (by rw [List.head?_append, hr]; rfl)
          · rw [hself] at hr
            split at hr
            · cases hr
            · exact ht.deep rel hr
        have hn1 : ∀ m ∈ names, (fs1.get (p ++ [m])).isSome := by
          intro m hm
          rw [hself, if_neg]
          · exact hn m (List.mem_cons_of_mem _ hm)
          · intro hr
            cases (Option.some.inj hr)
            exact hnn hm
        obtain ⟨g1, g2, g3⟩ := ihn fs1 hnd ht1 hn1
        simp only [Act.forEach, ← Act.bind_def]
        rw [Act.bind_ok h1]
        refine ⟨g1, ?_, ?_⟩
        · intro m hm q hq
          by_cases hmn : ∃ m' ∈ names, p ++ [m'] <+: q
          · obtain ⟨m', hm', hq'⟩ := hmn
            exact g2 m' hm' q hq'
          · have := g3 q (fun m' hm' hq' => hmn ⟨m', hm', hq'⟩)
            show FS.get _ q = none
            rw [this, h1g]
            rcases List.mem_cons.1 hm with rfl | hm
            · rw [if_pos hq]
            · exact absurd ⟨m, hm, hq⟩ hmn
        · intro q hq
          show FS.get _ q = _
          rw [g3 q (fun m hm => hq m (List.mem_cons_of_mem _ hm)), h1g, if_neg (hq n (by simp))]
    unfold removeTree
    simp only [Act.get_bind, ht.dir]
    obtain ⟨g1, g2, g3⟩ := loop (L.names fs p) fs (L.nodup _ _) ht (fun n hn => (L.mem _ _ _).1 hn)
    show ((Act.forEach (L.names fs p) (removeOne (removeTree L depth) p) >>= fun _ =>
      FS.call (fun fs => fs.rmdir L p)) fs).out = .ok () ∧ ∀ q, ((Act.forEach (L.names fs p)
      (removeOne (removeTree L depth) p) >>= fun _ => FS.call (fun fs => fs.rmdir L p)) fs).final.get q = _
    generalize Act.forEach (L.names fs p) (removeOne (removeTree L depth) p) = x at g1 g2 g3 ⊢
    have hdir : (x fs).final.get p = some .dir := by
      rw [g3 p, ht.dir]
      intro n _ h
      have := h.length_le
      simp at this
      omega
    have hno : ∀ n rel, (x fs).final.get (p ++ n :: rel) = none := by
      intro n rel
      by_cases hn : n ∈ L.names fs p
      · exact g2 n hn _ (cons_prefix.2 rfl)
      · rw [g3 _ (fun m hm h => hn ((show m = n from cons_prefix.1 h) ▸ hm))]
        refine ht.gone ?_ rel
        refine Classical.byContradiction fun hc => hn ((L.mem _ _ _).2 (Option.isSome_iff_ne_none.2 hc))
    have hempty : L.names (x fs).final p = [] := by
      refine List.eq_nil_iff_forall_not_mem.2 fun n hn => ?_
      have := (L.mem _ _ _).1 hn
      rw [hno n []] at this
      cases this
    have hr : ((x fs).final.rmdir L p) = (.ok (), (x fs).final.remove p) := by
      unfold FS.rmdir
      rw [hdir]
      simp [hempty, hp]
    rw [Act.bind_ok (x := x) (a := ()) (s' := (x fs).final) (t := (x fs).trace) (by rw [← g1])]
    simp only [FS.call_run, hr]
    refine ⟨trivial, fun q => ?_⟩
    rw [FS.get_remove hp]
    by_cases hq : p <+: q
    · rw [if_pos hq]
      obtain ⟨rel, rfl⟩ := hq
      cases rel with
      | nil => simp
      | cons n rel => rw [if_neg (by simp)]; exact hno n rel
    · rw [if_neg hq, if_neg (by rintro rfl; exact hq List.prefix_rfl), g3]
      intro n _ h
      exact hq ((List.prefix_append _ _).trans h)


/-! ## Moments -/

namespace Act
variable {σ α β : Type}

/-- From this state, the state left behind and every state passed through are related to it. -/
def RelAt (R : σ → σ → Prop) (x : Act σ α) (s : σ) : Prop := R s (x s).final ∧ ∀ t ∈ (x s).trace, R s t

theorem RelAt.bind {R : σ → σ → Prop} (h : PreOrd R) {x : Act σ α} {f : α → Act σ β} {s : σ} (hx : RelAt R x s)
    (hf : ∀ a, (x s).out = .ok a → RelAt R (f a) (x s).final) : RelAt R (x >>= f) s := by
  rcases bind_cases x f s with ⟨a, h1, h2, h3, _⟩ | ⟨_, h2, h3, _⟩
  · unfold RelAt
    rw [h2, h3]
    refine ⟨h.trans hx.1 (hf a h1).1, fun t ht => ?_⟩
    rcases List.mem_append.mp ht with ht | ht
    · exact hx.2 t ht
    · exact h.trans hx.1 ((hf a h1).2 t ht)
  · unfold RelAt
    rw [h2, h3]; exact hx

end Act

namespace Spec

/-- What a copy cut short makes of something: a directory, or the beginning of a file. -/
inductive PartOf : Option FileNode → Option FileNode → Prop where
  | dir : PartOf (some .dir) (some .dir)
  | file (data start : Bytes) : start <+: data → PartOf (some (.file data)) (some (.file start))

end Spec

/-- Things below `p` may have gone, nothing else has changed. -/
def Shrinks (p : Path) (fs m : FS) : Prop := ∀ q, m.get q = fs.get q ∨ (p <+: q ∧ m.get q = none)

/-- Things below `D` may have become parts of those below `S`, nothing else has changed. -/
def Grows (S D : Path) (fs m : FS) : Prop :=
  ∀ q, m.get q = fs.get q ∨ ∃ rel, q = D ++ rel ∧ PartOf (fs.get (S ++ rel)) (m.get q)

theorem shrinks_preord (p : Path) : Act.PreOrd (Shrinks p) where
  refl _ _ := .inl rfl
  trans h1 h2 q := by
    rcases h2 q with h | h
    · rw [h]; exact h1 q
    · exact .inr h

theorem Grows.src {S D : Path} (ha : Apart S D) {fs m : FS} (h : Grows S D fs m) (rel : Path) :
    m.get (S ++ rel) = fs.get (S ++ rel) := by
  rcases h (S ++ rel) with h | ⟨r, hr, _⟩
  · exact h
  · exact absurd (hr ▸ List.prefix_append D r) (ha.src rel)

theorem grows_preord {S D : Path} (ha : Apart S D) : Act.PreOrd (Grows S D) where
  refl _ _ := .inl rfl
  trans h1 h2 q := by
    rcases h2 q with h | ⟨rel, hq, hp⟩
    · rw [h]; exact h1 q
    · rw [h1.src ha] at hp; exact .inr ⟨rel, hq, hp⟩

theorem removeTree_moments (L : Listing) (depth : Nat) (p p' : Path) (hp : p <+: p') :
    Act.Rel (Shrinks p) (removeTree L depth p') := by
  have C := Act.rel_closed (shrinks_preord p)
  have hgone : ∀ (fs : FS) (q : Path), q ≠ [] → p <+: q → Shrinks p fs (fs.remove q) := by
    intro fs q hq hpq r
    rw [FS.get_remove hq]
    by_cases h : r = q
    · subst h; exact .inr ⟨hpq, by simp⟩
    · rw [if_neg h]; exact .inl rfl
  have hrefl := (shrinks_preord p).refl
  induction depth generalizing p' with
  | zero => exact C.lift _
  | succ depth ih =>
    unfold removeTree
    refine C.bind C.get fun fs => ?_
    split
    · refine C.bind (C.forEach fun n => C.bind C.get fun fs => ?_) fun _ => ?_
      · have hn : p <+: p' ++ [n] := hp.trans (List.prefix_append _ _)
        split
        · exact ih (p' ++ [n]) hn
        · intro fs
          simp only [FS.call_run, List.mem_singleton, forall_eq, and_self, FS.unlink]
          split
          · exact hgone fs _ (by simp) hn
          · exact hrefl _
      · intro fs
        simp only [FS.call_run, List.mem_singleton, forall_eq, and_self, FS.rmdir]
        split
        · split
          · rename_i hc
            refine hgone fs _ ?_ hp
            rintro rfl
            simp at hc
          · exact hrefl _
        · exact hrefl _
    · exact C.lift _

/-- A call ends where it began or in a state it passed through. -/
def Act.Ends {σ α : Type} (x : Act σ α) : Prop := ∀ s, (x s).final = s ∨ (x s).final ∈ (x s).trace

theorem Act.ends_closed {σ : Type} : Act.Closed (fun {α} (x : Act σ α) => Act.Ends x) where
  pure a s := .inl rfl
  get s := .inl rfl
  lift o s := .inl rfl
  bind := by
    intro α β x f hx hf s
    rcases Act.bind_cases x f s with ⟨a, _, h2, h3, _⟩ | ⟨_, h2, h3, _⟩
    · rw [h2, h3, List.mem_append]
      rcases hf a (x s).final with h | h
      · rw [h]
        rcases hx s with h | h
        · exact .inl h
        · exact .inr (.inl h)
      · exact .inr (.inr h)
    · rw [h2, h3]; exact hx s
  void hx s := hx s
  mapErr e hx s := hx s

theorem removeTree_ends (L : Listing) (depth : Nat) (p : Path) : Act.Ends (removeTree L depth p) := by
  have C := Act.ends_closed (σ := FS)
  have hcall : ∀ g, Act.Ends (FS.call g) := fun g s => .inr (by simp)
  induction depth generalizing p with
  | zero => exact C.lift _
  | succ depth ih =>
    unfold removeTree
    refine C.bind C.get fun fs => ?_
    split
    · refine C.bind (C.forEach fun n => C.bind C.get fun fs => ?_) fun _ => hcall _
      split
      · exact ih _
      · exact hcall _
    · exact C.lift _

theorem makeDirs_moments (base rest : Path) :
    Act.Rel (fun fs m => ∀ q, m.get q = fs.get q ∨ (q <+: base ++ rest ∧ m.get q = some .dir))
      (FS.makeDirs base rest) := by
  have hpre : ∀ p : Path, Act.PreOrd (fun fs m : FS => ∀ q, m.get q = fs.get q ∨ (q <+: p ∧ m.get q = some .dir)) :=
    fun p => ⟨fun _ _ => .inl rfl, fun h1 h2 q => by
      rcases h2 q with h | h
      · rw [h]; exact h1 q
      · exact .inr h⟩
  induction rest generalizing base with
  | nil => exact (Act.rel_closed (hpre _)).pure ()
  | cons n rest ih =>
    unfold FS.makeDirs
    refine (Act.rel_closed (hpre _)).bind ?_ (fun _ => ?_)
    · intro fs
      simp only [FS.call_run, List.mem_singleton, forall_eq, and_self, FS.mkdir]
      split
      · exact fun q => .inl rfl
      · exact fun q => .inl rfl
      · intro q
        simp only
        rw [FS.get_set (by simp)]
        by_cases hq : q = base ++ [n]
        · subst hq
          refine .inr ⟨?_, by simp⟩
          rw [List.prefix_append_right_inj]
          exact List.cons_prefix_cons.2 ⟨rfl, List.nil_prefix⟩
        · rw [if_neg hq]; exact .inl rfl
    · have := ih (base ++ [n])
      simpa using this

theorem copyFile_moments {S D rel : Path} {n : String} (ha : Apart S D) (fs : FS) :
    Act.RelAt (Grows S D) (FS.copyFile (S ++ rel ++ [n]) (D ++ rel ++ [n])) fs := by
  have hrefl := (grows_preord ha).refl fs
  have hne : S ++ rel ++ [n] ≠ D ++ rel ++ [n] := by
    intro hc
    have : S ++ (rel ++ [n]) = D ++ (rel ++ [n]) := by simpa using hc
    have := List.append_cancel_right this
    exact ha.1 (this ▸ List.prefix_rfl)
  have ht : D ++ rel ++ [n] ≠ [] := by simp
  unfold Act.RelAt FS.copyFile
  cases hs : fs.get (S ++ rel ++ [n]) with
  | none => exact ⟨hrefl, by simp⟩
  | some x =>
    cases x with
    | dir => exact ⟨hrefl, by simp⟩
    | file data =>
      simp only
      by_cases hok : fs.get (D ++ rel ++ [n]) ≠ some .dir ∧ fs.get (D ++ rel ++ [n]).dropLast = some .dir
      · rw [FS.create_ok hok.1 hok.2]
        have hwrite : ∀ k, Grows S D fs ((fs.set (D ++ rel ++ [n]) (.file [])).write (D ++ rel ++ [n]) (data.take k)) := by
          intro k q
          simp only [FS.write, FS.get_set ht, if_true, List.drop_nil, List.append_nil]
          by_cases hq : q = D ++ rel ++ [n]
          · subst hq
            refine .inr ⟨rel ++ [n], by simp, ?_⟩
            simp only [if_true]
            rw [← List.append_assoc, hs]
            exact .file _ _ (List.take_prefix _ _)
          · rw [if_neg hq, if_neg hq]; exact .inl rfl
        have hnew : Grows S D fs (fs.set (D ++ rel ++ [n]) (.file [])) := by
          intro q
          rw [FS.get_set ht]
          by_cases hq : q = D ++ rel ++ [n]
          · subst hq
            refine .inr ⟨rel ++ [n], by simp, ?_⟩
            simp only [if_true]
            rw [← List.append_assoc, hs]
            exact .file _ _ List.nil_prefix
          · rw [if_neg hq]; exact .inl rfl
        simp only [FS.get_set ht, if_neg hne, hs]
        refine ⟨?_, ?_⟩
        · have := hwrite data.length
          rwa [List.take_length] at this
        · intro t ht
          rcases List.mem_cons.1 ht with rfl | ht
          · exact hnew
          · obtain ⟨k, _, rfl⟩ := List.mem_map.1 ht
            exact hwrite k
      · have hc : fs.create (D ++ rel ++ [n]) = (.err .io, fs) := by
          by_cases hd : fs.get (D ++ rel ++ [n]) = some .dir
          · exact FS.create_err hd
          · unfold FS.create
            split
            · rfl
            · exact absurd ⟨hd, ‹_›⟩ hok
            · rfl
        rw [hc]
        exact ⟨hrefl, by simpa using hrefl⟩

theorem copyTree_moments {S D : Path} (ha : Apart S D) (L : Listing) (depth : Nat) (rel : Path) (fs : FS)
    (hS : ∀ r, r <+: rel → fs.get (S ++ r) = some .dir) (hD : ∀ p, p <+: D → p ≠ D → fs.get p = some .dir) :
    Act.RelAt (Grows S D) (copyTree L depth (S ++ rel) (D ++ rel)) fs := by
  have P := grows_preord ha
  have keepS : ∀ {rel : Path} {fs m : FS}, Grows S D fs m → (∀ r, r <+: rel → fs.get (S ++ r) = some .dir) →
      ∀ r, r <+: rel → m.get (S ++ r) = some .dir := fun hg h r hr => (hg.src ha r).trans (h r hr)
  have keepD : ∀ {fs m : FS}, Grows S D fs m → (∀ p, p <+: D → p ≠ D → fs.get p = some .dir) →
      ∀ p, p <+: D → p ≠ D → m.get p = some .dir := by
    intro fs m hg h p hp hne
    rcases hg p with hg | ⟨r, rfl, _⟩
    · rw [hg]; exact h p hp hne
    · have := hp.length_le
      have hr : r = [] := List.eq_nil_of_length_eq_zero (by simp at this; omega)
      subst hr
      simp at hne
  induction depth generalizing rel fs with
  | zero => exact ⟨P.refl _, by simp [copyTree]⟩
  | succ depth ih =>
    have loop : ∀ (names : List String) (fs1 : FS), (∀ r, r <+: rel → fs1.get (S ++ r) = some .dir) →
        (∀ p, p <+: D → p ≠ D → fs1.get p = some .dir) →
        Act.RelAt (Grows S D) (Act.forEach names (copyOne (copyTree L depth) (S ++ rel) (D ++ rel))) fs1 := by
      intro names
      induction names with
      | nil => intro fs1 _ _; exact ⟨P.refl _, by simp [Act.forEach, Act.pure]⟩
      | cons n names ihn =>
        intro fs1 hS1 hD1
        have hone : Act.RelAt (Grows S D) (copyOne (copyTree L depth) (S ++ rel) (D ++ rel) n) fs1 := by
          unfold copyOne
          refine Act.RelAt.bind P ⟨P.refl _, by simp⟩ fun fs2 h2 => ?_
          simp only [Act.get_run, Outcome.ok.injEq] at h2
          subst h2
          simp only [Act.get_run]
          split
          · rename_i hk
            have := ih (rel ++ [n]) fs1 (fun r hr => by
              rcases List.prefix_concat_iff.1 hr with rfl | hr
              · simpa using hk
              · exact hS1 r hr) hD1
            simpa using this
          · exact copyFile_moments ha fs1
        show Act.RelAt (Grows S D) (copyOne (copyTree L depth) (S ++ rel) (D ++ rel) n >>= fun _ =>
          Act.forEach names (copyOne (copyTree L depth) (S ++ rel) (D ++ rel))) fs1
        refine Act.RelAt.bind P hone fun _ _ => ?_
        exact ihn _ (keepS hone.1 hS1) (keepD hone.1 hD1)
    unfold copyTree
    have hmk : Act.RelAt (Grows S D) (FS.makeDirs [] (D ++ rel)) fs := by
      have hg : ∀ m : FS, (∀ q, m.get q = fs.get q ∨ (q <+: [] ++ (D ++ rel) ∧ m.get q = some .dir)) →
          Grows S D fs m := by
        intro m hm q
        rcases hm q with h | ⟨hq, h⟩
        · exact .inl h
        · simp only [List.nil_append] at hq
          by_cases hDq : D <+: q
          · obtain ⟨r, rfl⟩ := hDq
            refine .inr ⟨r, rfl, ?_⟩
            rw [h, hS r ((List.prefix_append_right_inj D).1 hq)]
            exact .dir
          · left
            rcases List.prefix_or_prefix_of_prefix hq (List.prefix_append D rel) with h' | h'
            · rw [h, hD q h' (fun e => hDq (e ▸ List.prefix_rfl))]
            · exact absurd h' hDq
      have hmk := makeDirs_moments [] (D ++ rel) fs
      exact ⟨hg _ hmk.1, fun t ht => hg _ (hmk.2 t ht)⟩
    refine Act.RelAt.bind P hmk fun _ _ => ?_
    have hS1 := keepS hmk.1 hS
    have hD1 := keepD hmk.1 hD
    generalize (FS.makeDirs [] (D ++ rel) fs).final = fs1 at hS1 hD1
    refine Act.RelAt.bind P ⟨P.refl _, by simp⟩ fun fs2 _ => ?_
    simp only [Act.get_run]
    split
    · exact loop _ fs1 hS1 hD1
    · exact ⟨P.refl _, by simp⟩

/-! ## The rotation -/

namespace Spec

/-- A node's directory: everything is in directories, and those of the four balance databases are there (opening the
databases makes them). -/
structure Placed (fs : FS) (root : Path) : Prop where
  wf : WellFormed fs
  summary : fs.get (root ++ ["SUMMARY"]) = some .dir
  summaryOld : fs.get (root ++ ["SUMMARYOLD"]) = some .dir
  gas : fs.get (root ++ ["GASSUMMARY"]) = some .dir
  gasOld : fs.get (root ++ ["GASSUMMARYOLD"]) = some .dir

end Spec

theorem apart_names {root : Path} {m n : String} (h : m ≠ n) : Apart (root ++ [m]) (root ++ [n]) := by
  constructor <;> rw [List.prefix_append_right_inj, List.cons_prefix_cons] <;> simp [h, Ne.symm h]

/-- One stage of the rotation, and the rest. -/
theorem stage {x : Act FS Unit} {e : Err} {f : Unit → Act FS Unit} {fs fs' : FS} (h1 : (x fs).out = .ok ())
    (h2 : (x fs).final = fs') :
    ((x.mapErr e >>= f) fs).out = (f () fs').out ∧ ((x.mapErr e >>= f) fs).final = (f () fs').final ∧
      ((x.mapErr e >>= f) fs).trace = (x fs).trace ++ (f () fs').trace :=
  Act.then_ok (x := x.mapErr e) (by simp [Act.mapErr_run, h1]) (by simpa [Act.mapErr_run] using h2)

/-- The stages of the rotation, one by one: what the file system is between them, and the moments of each. -/
structure Stages (L : Listing) (d : Nat) (root : Path) (fs f1 f2 f3 f4 f5 f6 : FS) : Prop where
  g1 : ∀ q, f1.get q = if root ++ ["SUMMARYOLD"] <+: q then none else fs.get q
  g2 : ∀ q, f2.get q = if q = root ++ ["SUMMARYOLD"] then some .dir else f1.get q
  g3 : ∀ q, f3.get q = if root ++ ["GASSUMMARYOLD"] <+: q then none else f2.get q
  g4 : ∀ q, f4.get q = if q = root ++ ["GASSUMMARYOLD"] then some .dir else f3.get q
  g5 : Copied (root ++ ["SUMMARY"]) (root ++ ["SUMMARYOLD"]) f4 f5
  g6 : Copied (root ++ ["GASSUMMARY"]) (root ++ ["GASSUMMARYOLD"]) f5 f6
  out : (rotateFiles L d root fs).out = .ok ()
  final : (rotateFiles L d root fs).final = f6
  trace : (rotateFiles L d root fs).trace =
    (removeTree L d (root ++ ["SUMMARYOLD"]) fs).trace ++ (f2 :: ((removeTree L d (root ++ ["GASSUMMARYOLD"]) f2).trace ++
      (f4 :: ((copyTree L d (root ++ ["SUMMARY"]) (root ++ ["SUMMARYOLD"]) f4).trace ++
        (copyTree L d (root ++ ["GASSUMMARY"]) (root ++ ["GASSUMMARYOLD"]) f5).trace))))
  end1 : (removeTree L d (root ++ ["SUMMARYOLD"]) fs).final = f1

theorem SourceTree.mono {d d' : Nat} {p : Path} {fs : FS} (h : SourceTree d p fs) (hd : d ≤ d') : SourceTree d' p fs :=
  ⟨h.dir, h.wf, fun rel hr => Nat.lt_of_lt_of_le (h.deep rel hr) hd⟩

theorem rotate_stages (L : Listing) (fs : FS) (root : Path) (h : Placed fs root) :
    ∃ depth, ∀ d, depth ≤ d → ∃ f1 f2 f3 f4 f5 f6, Stages L d root fs f1 f2 f3 f4 f5 f6 := by
  obtain ⟨d1, hd1⟩ := SourceTree.of_wf h.wf h.summary
  obtain ⟨d2, hd2⟩ := SourceTree.of_wf h.wf h.summaryOld
  obtain ⟨d3, hd3⟩ := SourceTree.of_wf h.wf h.gas
  obtain ⟨d4, hd4⟩ := SourceTree.of_wf h.wf h.gasOld
  refine ⟨d1 + d2 + d3 + d4, fun d hd => ?_⟩
  have t1 := hd1 d (by omega)
  have t2 := hd2 d (by omega)
  have t3 := hd3 d (by omega)
  have t4 := hd4 d (by omega)
  have aSO : Apart (root ++ ["SUMMARY"]) (root ++ ["SUMMARYOLD"]) := apart_names (by decide)
  have aSP : Apart (root ++ ["SUMMARY"]) (root ++ ["GASSUMMARYOLD"]) := apart_names (by decide)
  have aGO : Apart (root ++ ["GASSUMMARY"]) (root ++ ["SUMMARYOLD"]) := apart_names (by decide)
  have aGP : Apart (root ++ ["GASSUMMARY"]) (root ++ ["GASSUMMARYOLD"]) := apart_names (by decide)
  have aPO : Apart (root ++ ["GASSUMMARYOLD"]) (root ++ ["SUMMARYOLD"]) := apart_names (by decide)
  have nePO : ("GASSUMMARYOLD" : String) ≠ "SUMMARYOLD" := by decide
  have up : ∀ n (p : Path), p <+: root ++ [n] → p ≠ root ++ [n] → p <+: root := fun n p hp hne => by
    rcases List.prefix_concat_iff.1 hp with hp | hp
    · exact absurd hp hne
    · exact hp
  have notbelow : ∀ n (p : Path), p <+: root → ¬ root ++ [n] <+: p := fun n p hp hc => by
    have := (hc.trans hp).length_le
    simp at this
    omega
  have hroot : ∀ p, p <+: root → fs.get p = some .dir := by
    have : ∀ r p : Path, fs.get (p ++ r) = some .dir → fs.get p = some .dir := by
      intro r
      induction r using List.reverseRecOn with
      | nil => intro p hp; simpa using hp
      | append_singleton r n ih =>
        intro p hp
        exact ih p (h.wf (p ++ r) n (by rw [List.append_assoc, hp]; rfl))
    intro p hp
    obtain ⟨r, rfl⟩ := hp
    exact this (r ++ ["SUMMARY"]) p (by simpa using h.summary)
  -- removing and making the first old directory
  obtain ⟨o1, g1⟩ := removeTree_spec L d (root ++ ["SUMMARYOLD"]) (by simp) fs t2
  generalize hf1 : (removeTree L d (root ++ ["SUMMARYOLD"]) fs).final = f1 at g1
  have c2 : f1.createDir (root ++ ["SUMMARYOLD"]) = (.ok (), f1.set (root ++ ["SUMMARYOLD"]) .dir) := by
    unfold FS.createDir
    rw [g1, if_pos List.prefix_rfl, List.dropLast_concat, g1, if_neg (notbelow _ _ List.prefix_rfl),
      hroot _ List.prefix_rfl]
  have g2 : ∀ q, (f1.set (root ++ ["SUMMARYOLD"]) .dir).get q =
      if q = root ++ ["SUMMARYOLD"] then some .dir else f1.get q := fun q => FS.get_set (by simp) _ q
  generalize f1.set (root ++ ["SUMMARYOLD"]) .dir = f2 at c2 g2
  have k2 : ∀ n : String, Apart (root ++ [n]) (root ++ ["SUMMARYOLD"]) → ∀ rel,
      f2.get (root ++ [n] ++ rel) = fs.get (root ++ [n] ++ rel) := by
    intro n ha rel
    rw [g2, if_neg, g1, if_neg (ha.src rel)]
    intro e
    exact ha.src rel (e ▸ List.prefix_rfl)
  have r2 : ∀ p, p <+: root → f2.get p = some .dir := by
    intro p hp
    rw [g2, if_neg, g1, if_neg (notbelow _ _ hp), hroot p hp]
    rintro rfl
    exact notbelow _ _ hp List.prefix_rfl
  -- removing and making the second one
  obtain ⟨o3, g3⟩ := removeTree_spec L d (root ++ ["GASSUMMARYOLD"]) (by simp) f2 (t4.congr (k2 _ aPO))
  generalize hf3 : (removeTree L d (root ++ ["GASSUMMARYOLD"]) f2).final = f3 at g3
  have c4 : f3.createDir (root ++ ["GASSUMMARYOLD"]) = (.ok (), f3.set (root ++ ["GASSUMMARYOLD"]) .dir) := by
    unfold FS.createDir
    rw [g3, if_pos List.prefix_rfl, List.dropLast_concat, g3, if_neg (notbelow _ _ List.prefix_rfl),
      r2 _ List.prefix_rfl]
  have g4 : ∀ q, (f3.set (root ++ ["GASSUMMARYOLD"]) .dir).get q =
      if q = root ++ ["GASSUMMARYOLD"] then some .dir else f3.get q := fun q => FS.get_set (by simp) _ q
  generalize f3.set (root ++ ["GASSUMMARYOLD"]) .dir = f4 at c4 g4
  have k4 : ∀ n : String, Apart (root ++ [n]) (root ++ ["GASSUMMARYOLD"]) → ∀ rel,
      f4.get (root ++ [n] ++ rel) = f2.get (root ++ [n] ++ rel) := by
    intro n ha rel
    rw [g4, if_neg, g3, if_neg (ha.src rel)]
    intro e
    exact ha.src rel (e ▸ List.prefix_rfl)
  have r4 : ∀ p, p <+: root → f4.get p = some .dir := by
    intro p hp
    rw [g4, if_neg, g3, if_neg (notbelow _ _ hp), r2 p hp]
    rintro rfl
    exact notbelow _ _ hp List.prefix_rfl
  -- copying the coins
  have e4 : ∀ rel : Path, f4.get (root ++ ["SUMMARYOLD"] ++ rel) = if rel = [] then some .dir else none := by
    intro rel
    rw [k4 _ aPO.symm, g2]
    by_cases hr : rel = []
    · subst hr; simp
    · rw [if_neg (by simpa using hr), if_neg hr, g1, if_pos (List.prefix_append _ _)]
  have comp : ∀ (f : FS) (S D : Path), f.get S = some .dir →
      (∀ rel : Path, f.get (D ++ rel) = if rel = [] then some .dir else none) → Compatible f S D := by
    intro f S D hS hD rel a b ha hb
    rw [hD] at hb
    by_cases hr : rel = []
    · subst hr
      rw [List.append_nil, hS] at ha
      cases ha; cases hb; simp
    · rw [if_neg hr] at hb; cases hb
  have reach : ∀ (f : FS) n, (∀ p, p <+: root → f.get p = some .dir) → Reachable f (root ++ [n]) := by
    intro f n hf p hp hne b hb
    rw [hf p (up n p hp hne)] at hb
    cases hb
  have t1' : SourceTree d (root ++ ["SUMMARY"]) f4 :=
    t1.congr fun rel => (k4 _ aSP rel).trans (k2 _ aSO rel)
  obtain ⟨f5, h5, g5⟩ := (copyDirAll_spec L d (root ++ ["SUMMARY"]) (root ++ ["SUMMARYOLD"]) f4 aSO t1').1
    (comp _ _ _ t1'.dir e4) (reach f4 _ r4)
  obtain ⟨o5, hf5⟩ := copyTree_eq L d _ _ f4 _ h5
  -- copying the gas
  have k5 : ∀ n : String, Apart (root ++ [n]) (root ++ ["SUMMARYOLD"]) → ∀ rel,
      f5.get (root ++ [n] ++ rel) = f4.get (root ++ [n] ++ rel) :=
    fun n ha rel => g5.outside _ (ha.src rel) (ha.src' rel)
  have e5 : ∀ rel : Path, f5.get (root ++ ["GASSUMMARYOLD"] ++ rel) = if rel = [] then some .dir else none := by
    intro rel
    rw [k5 _ aPO, g4]
    by_cases hr : rel = []
    · subst hr; simp
    · rw [if_neg (by simpa using hr), if_neg hr, g3, if_pos (List.prefix_append _ _)]
  have r5 : ∀ p, p <+: root → f5.get p = some .dir :=
    fun p hp => g5.above p (hp.trans (List.prefix_append _ _))
  have t3' : SourceTree d (root ++ ["GASSUMMARY"]) f5 :=
    t3.congr fun rel => (k5 _ aGO rel).trans ((k4 _ aGP rel).trans (k2 _ aGO rel))
  obtain ⟨f6, h6, g6⟩ := (copyDirAll_spec L d (root ++ ["GASSUMMARY"]) (root ++ ["GASSUMMARYOLD"]) f5 aGP t3').1
    (comp _ _ _ t3'.dir e5) (reach f5 _ r5)
  obtain ⟨o6, hf6⟩ := copyTree_eq L d _ _ f5 _ h6
  -- together
  refine ⟨f1, f2, f3, f4, f5, f6, g1, g2, g3, g4, g5, g6, ?_, ?_, ?_, hf1⟩
  all_goals
    unfold rotateFiles
    simp only [AMOUNT_SUMMARY, OLD_AMOUNT_SUMMARY, GAS_SUMMARY, OLD_GAS_SUMMARY]
  · refine (stage o1 hf1).1.trans ?_
    refine (stage (by simp [c2]) (by simp [c2]; rfl)).1.trans ?_
    refine (stage o3 hf3).1.trans ?_
    refine (stage (by simp [c4]) (by simp [c4]; rfl)).1.trans ?_
    refine (stage o5 hf5).1.trans ?_
    simp [Act.mapErr_run, o6]
  · refine (stage o1 hf1).2.1.trans ?_
    refine (stage (by simp [c2]) (by simp [c2]; rfl)).2.1.trans ?_
    refine (stage o3 hf3).2.1.trans ?_
    refine (stage (by simp [c4]) (by simp [c4]; rfl)).2.1.trans ?_
    refine (stage o5 hf5).2.1.trans ?_
    simp [Act.mapErr_run, hf6]
  · refine (stage o1 hf1).2.2.trans (congrArg _ ?_)
    refine (stage (fs' := f2) (by simp [c2]) (by simp [c2])).2.2.trans ?_
    simp only [FS.call_run, c2, List.singleton_append]
    refine congrArg _ ?_
    refine (stage o3 hf3).2.2.trans (congrArg _ ?_)
    refine (stage (fs' := f4) (by simp [c4]) (by simp [c4])).2.2.trans ?_
    simp only [FS.call_run, c4, List.singleton_append]
    refine congrArg _ ?_
    exact (stage o5 hf5).2.2

namespace Spec

/-- Some of what an old directory held is left, and nothing else. -/
def PartLeft (fs m : FS) (old : Path) : Prop := ∀ rel, m.get (old ++ rel) = fs.get (old ++ rel) ∨ m.get (old ++ rel) = none

/-- Some of the current directory has been copied, of files perhaps only the beginning, and there is nothing else. -/
def PartCopied (fs m : FS) (cur old : Path) : Prop :=
  ∀ rel, m.get (old ++ rel) = none ∨ PartOf (fs.get (cur ++ rel)) (m.get (old ++ rel))

end Spec

/-- What is known of a moment of the rotation. -/
structure Halfway (fs m : FS) (root : Path) : Prop where
  outside : ∀ p, ¬ root ++ ["SUMMARYOLD"] <+: p → ¬ root ++ ["GASSUMMARYOLD"] <+: p → m.get p = fs.get p
  summary : PartLeft fs m (root ++ ["SUMMARYOLD"]) ∨ PartCopied fs m (root ++ ["SUMMARY"]) (root ++ ["SUMMARYOLD"])
  gas : PartLeft fs m (root ++ ["GASSUMMARYOLD"]) ∨
    PartCopied fs m (root ++ ["GASSUMMARY"]) (root ++ ["GASSUMMARYOLD"])

theorem Shrinks.other {p : Path} {fs m : FS} (h : Shrinks p fs m) {q : Path} (hq : ¬ p <+: q) : m.get q = fs.get q := by
  rcases h q with h | h
  · exact h
  · exact absurd h.1 hq

theorem Grows.other {S D : Path} {fs m : FS} (h : Grows S D fs m) {q : Path} (hq : ¬ D <+: q) : m.get q = fs.get q := by
  rcases h q with h | ⟨rel, rfl, _⟩
  · exact h
  · exact absurd (List.prefix_append _ _) hq

theorem Stages.moments {L : Listing} {d : Nat} {root : Path} {fs f1 f2 f3 f4 f5 f6 : FS} (h : Placed fs root)
    (st : Stages L d root fs f1 f2 f3 f4 f5 f6) {m : FS}
    (hm : m = (rotateFiles L d root fs).final ∨ m ∈ (rotateFiles L d root fs).trace) : Halfway fs m root := by
  have aSO : Apart (root ++ ["SUMMARY"]) (root ++ ["SUMMARYOLD"]) := apart_names (by decide)
  have aSP : Apart (root ++ ["SUMMARY"]) (root ++ ["GASSUMMARYOLD"]) := apart_names (by decide)
  have aGO : Apart (root ++ ["GASSUMMARY"]) (root ++ ["SUMMARYOLD"]) := apart_names (by decide)
  have aGP : Apart (root ++ ["GASSUMMARY"]) (root ++ ["GASSUMMARYOLD"]) := apart_names (by decide)
  have aPO : Apart (root ++ ["GASSUMMARYOLD"]) (root ++ ["SUMMARYOLD"]) := apart_names (by decide)
  have aOP : Apart (root ++ ["SUMMARYOLD"]) (root ++ ["GASSUMMARYOLD"]) := aPO.symm
  have hself : ∀ p : Path, p <+: p := fun p => List.prefix_rfl
  -- the states between the stages
  have o1 : ∀ q, ¬ root ++ ["SUMMARYOLD"] <+: q → f1.get q = fs.get q := fun q hq => by rw [st.g1, if_neg hq]
  have o2 : ∀ q, ¬ root ++ ["SUMMARYOLD"] <+: q → f2.get q = fs.get q := fun q hq => by
    rw [st.g2, if_neg, o1 q hq]
    rintro rfl
    exact hq (hself _)
  have o3 : ∀ q, ¬ root ++ ["GASSUMMARYOLD"] <+: q → f3.get q = f2.get q := fun q hq => by rw [st.g3, if_neg hq]
  have o4 : ∀ q, ¬ root ++ ["GASSUMMARYOLD"] <+: q → f4.get q = f2.get q := fun q hq => by
    rw [st.g4, if_neg, o3 q hq]
    rintro rfl
    exact hq (hself _)
  have n2 : PartCopied fs f2 (root ++ ["SUMMARY"]) (root ++ ["SUMMARYOLD"]) := by
    intro rel
    rw [st.g2]
    by_cases hr : rel = []
    · subst hr
      right
      rw [if_pos (by simp), List.append_nil, h.summary]
      exact .dir
    · left
      rw [if_neg (by simpa using hr), st.g1, if_pos (List.prefix_append _ _)]
  have n4 : PartCopied fs f4 (root ++ ["SUMMARY"]) (root ++ ["SUMMARYOLD"]) := by
    intro rel
    rw [o4 _ (aOP.src rel)]
    exact n2 rel
  have p4 : PartCopied fs f4 (root ++ ["GASSUMMARY"]) (root ++ ["GASSUMMARYOLD"]) := by
    intro rel
    rw [st.g4]
    by_cases hr : rel = []
    · subst hr
      right
      rw [if_pos (by simp), List.append_nil, h.gas]
      exact .dir
    · left
      rw [if_neg (by simpa using hr), st.g3, if_pos (List.prefix_append _ _)]
  have w4 : ∀ p, ¬ root ++ ["SUMMARYOLD"] <+: p → ¬ root ++ ["GASSUMMARYOLD"] <+: p → f4.get p = fs.get p :=
    fun p h1 h2 => (o4 p h2).trans (o2 p h1)
  -- what copying makes of a moment
  have grow : ∀ {S D : Path} {a m : FS}, (∀ rel, a.get (S ++ rel) = fs.get (S ++ rel)) → PartCopied fs a S D →
      Grows S D a m → PartCopied fs m S D := by
    intro S D a m hS ha hg rel
    rcases hg (D ++ rel) with hg | ⟨r, hr, hg⟩
    · rw [hg]; exact ha rel
    · obtain rfl := List.append_cancel_left hr
      rw [hS] at hg
      exact .inr hg
  have up : ∀ n (p : Path), p <+: root ++ [n] → p ≠ root ++ [n] → ¬ root ++ ["SUMMARYOLD"] <+: p ∧
      ¬ root ++ ["GASSUMMARYOLD"] <+: p := by
    intro n p hp hne
    have hr : p <+: root := by
      rcases List.prefix_concat_iff.1 hp with hp | hp
      · exact absurd hp hne
      · exact hp
    constructor
    all_goals
      intro hc
      have := (hc.trans hr).length_le
      simp at this
      omega
  have hroot : ∀ p, p <+: root → fs.get p = some .dir := by
    have : ∀ r p : Path, fs.get (p ++ r) = some .dir → fs.get p = some .dir := by
      intro r
      induction r using List.reverseRecOn with
      | nil => intro p hp; simpa using hp
      | append_singleton r n ih =>
        intro p hp
        exact ih p (h.wf (p ++ r) n (by rw [List.append_assoc, hp]; rfl))
    intro p hp
    obtain ⟨r, rfl⟩ := hp
    exact this (r ++ ["SUMMARY"]) p (by simpa using h.summary)
  have above : ∀ n (p : Path), p <+: root ++ [n] → p ≠ root ++ [n] → fs.get p = some .dir := by
    intro n p hp hne
    rcases List.prefix_concat_iff.1 hp with hp | hp
    · exact absurd hp hne
    · exact hroot p hp
  have hS4 : ∀ rel, f4.get (root ++ ["SUMMARY"] ++ rel) = fs.get (root ++ ["SUMMARY"] ++ rel) :=
    fun rel => w4 _ (aSO.src rel) (aSP.src rel)
  have c5 := copyTree_moments aSO L d [] f4
    (fun r hr => by rw [List.prefix_nil.1 hr, hS4, List.append_nil]; exact h.summary)
    (fun p hp hne => by rw [w4 p (up _ p hp hne).1 (up _ p hp hne).2]; exact above _ p hp hne)
  simp only [List.append_nil] at c5
  have half5 : ∀ {m : FS}, Grows (root ++ ["SUMMARY"]) (root ++ ["SUMMARYOLD"]) f4 m → Halfway fs m root ∧
      PartCopied fs m (root ++ ["GASSUMMARY"]) (root ++ ["GASSUMMARYOLD"]) ∧
      PartCopied fs m (root ++ ["SUMMARY"]) (root ++ ["SUMMARYOLD"]) := by
    intro m hg
    have a := grow hS4 n4 hg
    have b : PartCopied fs m (root ++ ["GASSUMMARY"]) (root ++ ["GASSUMMARYOLD"]) := by
      intro rel
      rw [hg.other (aPO.src rel)]
      exact p4 rel
    exact ⟨⟨fun p h1 h2 => (hg.other h1).trans (w4 p h1 h2), .inr a, .inr b⟩, b, a⟩
  -- `f5` is the end of the first copy
  have e5 : Grows (root ++ ["SUMMARY"]) (root ++ ["SUMMARYOLD"]) f4 f5 := by
    intro q
    by_cases hq : root ++ ["SUMMARYOLD"] <+: q
    · obtain ⟨rel, rfl⟩ := hq
      rw [st.g5.inside]
      cases hx : f4.get (root ++ ["SUMMARY"] ++ rel) with
      | none => left; rfl
      | some x =>
        right
        refine ⟨rel, rfl, ?_⟩
        rw [hx]
        cases x with
        | dir => exact .dir
        | file data => exact .file _ _ List.prefix_rfl
    · by_cases hq' : q <+: root ++ ["SUMMARYOLD"]
      · left
        have hne : q ≠ root ++ ["SUMMARYOLD"] := by rintro rfl; exact hq (hself _)
        rw [st.g5.above q hq', w4 q (up _ q hq' hne).1 (up _ q hq' hne).2, above _ q hq' hne]
      · left; exact st.g5.outside q hq hq'
  obtain ⟨h5, b5, a5⟩ := half5 e5
  have hG5 : ∀ rel, f5.get (root ++ ["GASSUMMARY"] ++ rel) = fs.get (root ++ ["GASSUMMARY"] ++ rel) :=
    fun rel => h5.outside _ (aGO.src rel) (aGP.src rel)
  have c6 := copyTree_moments aGP L d [] f5
    (fun r hr => by rw [List.prefix_nil.1 hr, hG5, List.append_nil]; exact h.gas)
    (fun p hp hne => by rw [h5.outside p (up _ p hp hne).1 (up _ p hp hne).2]; exact above _ p hp hne)
  simp only [List.append_nil] at c6
  have half6 : ∀ {m : FS}, Grows (root ++ ["GASSUMMARY"]) (root ++ ["GASSUMMARYOLD"]) f5 m → Halfway fs m root := by
    intro m hg
    refine ⟨fun p h1 h2 => (hg.other h2).trans (h5.outside p h1 h2), .inr ?_, .inr (grow hG5 b5 hg)⟩
    intro rel
    rw [hg.other (aOP.src rel)]
    exact a5 rel
  have e6 : Grows (root ++ ["GASSUMMARY"]) (root ++ ["GASSUMMARYOLD"]) f5 f6 := by
    intro q
    by_cases hq : root ++ ["GASSUMMARYOLD"] <+: q
    · obtain ⟨rel, rfl⟩ := hq
      rw [st.g6.inside]
      cases hx : f5.get (root ++ ["GASSUMMARY"] ++ rel) with
      | none => left; rfl
      | some x =>
        right
        refine ⟨rel, rfl, ?_⟩
        rw [hx]
        cases x with
        | dir => exact .dir
        | file data => exact .file _ _ List.prefix_rfl
    · by_cases hq' : q <+: root ++ ["GASSUMMARYOLD"]
      · left
        have hne : q ≠ root ++ ["GASSUMMARYOLD"] := by rintro rfl; exact hq (hself _)
        rw [st.g6.above q hq', h5.outside q (up _ q hq' hne).1 (up _ q hq' hne).2, above _ q hq' hne]
      · left; exact st.g6.outside q hq hq'
  rcases hm with rfl | hm
  · rw [st.final]; exact half6 e6
  · rw [st.trace] at hm
    simp only [List.mem_append, List.mem_cons] at hm
    rcases hm with hm | rfl | hm | rfl | hm | hm
    · have hs := (removeTree_moments L d _ _ (hself (root ++ ["SUMMARYOLD"])) fs).2 m hm
      refine ⟨fun p h1 _ => hs.other h1, .inl fun rel => ?_, .inl fun rel => .inl (hs.other (aPO.src rel))⟩
      rcases hs (root ++ ["SUMMARYOLD"] ++ rel) with h | h
      · exact .inl h
      · exact .inr h.2
    · exact ⟨fun p h1 _ => o2 p h1, .inr n2, .inl fun rel => .inl (o2 _ (aPO.src rel))⟩
    · have hs := (removeTree_moments L d _ _ (hself (root ++ ["GASSUMMARYOLD"])) f2).2 m hm
      refine ⟨fun p h1 h2 => (hs.other h2).trans (o2 p h1), .inr fun rel => ?_, .inl fun rel => ?_⟩
      · rw [hs.other (aOP.src rel)]; exact n2 rel
      · rcases hs (root ++ ["GASSUMMARYOLD"] ++ rel) with h | h
        · rw [h]; exact .inl (o2 _ (aPO.src rel))
        · exact .inr h.2
    · exact ⟨w4, .inr n4, .inr p4⟩
    · exact (half5 (c5.2 m hm)).1
    · exact half6 (c6.2 m hm)

namespace Props

/-- **C125.** When an epoch ends, the old balances on disk become an exact copy of the current ones, whatever the old
directories held: every file of the current database and nothing else. Nothing else on the disk is different then,
and nothing else is touched even for a moment: whenever the process dies during the rotation, the current databases
and the chain are as they were. -/
theorem C125_rotated (L : Listing) (fs : FS) (root : Path) (h : Placed fs root) :
    ∃ depth, ∀ d, depth ≤ d →
      (rotateFiles L d root fs).out = .ok () ∧
      (∀ rel, (rotateFiles L d root fs).final.get (root ++ "SUMMARYOLD" :: rel) = fs.get (root ++ "SUMMARY" :: rel)) ∧
      (∀ rel, (rotateFiles L d root fs).final.get (root ++ "GASSUMMARYOLD" :: rel) =
        fs.get (root ++ "GASSUMMARY" :: rel)) ∧
      ∀ m, m = (rotateFiles L d root fs).final ∨ m ∈ (rotateFiles L d root fs).trace →
        ∀ p, ¬ root ++ ["SUMMARYOLD"] <+: p → ¬ root ++ ["GASSUMMARYOLD"] <+: p → m.get p = fs.get p := by
  obtain ⟨depth, hd⟩ := rotate_stages L fs root h
  refine ⟨depth, fun d hle => ?_⟩
  obtain ⟨f1, f2, f3, f4, f5, f6, st⟩ := hd d hle
  have aSO : Apart (root ++ ["SUMMARY"]) (root ++ ["SUMMARYOLD"]) := apart_names (by decide)
  have aSP : Apart (root ++ ["SUMMARY"]) (root ++ ["GASSUMMARYOLD"]) := apart_names (by decide)
  have aGO : Apart (root ++ ["GASSUMMARY"]) (root ++ ["SUMMARYOLD"]) := apart_names (by decide)
  have aGP : Apart (root ++ ["GASSUMMARY"]) (root ++ ["GASSUMMARYOLD"]) := apart_names (by decide)
  have aPO : Apart (root ++ ["GASSUMMARYOLD"]) (root ++ ["SUMMARYOLD"]) := apart_names (by decide)
  have aOP : Apart (root ++ ["SUMMARYOLD"]) (root ++ ["GASSUMMARYOLD"]) := aPO.symm
  have k4 : ∀ n : String, Apart (root ++ [n]) (root ++ ["SUMMARYOLD"]) → Apart (root ++ [n]) (root ++ ["GASSUMMARYOLD"]) →
      ∀ rel, f4.get (root ++ [n] ++ rel) = fs.get (root ++ [n] ++ rel) := by
    intro n ha hb rel
    have h1 : root ++ [n] ++ rel ≠ root ++ ["GASSUMMARYOLD"] := fun e => hb.src rel (e ▸ List.prefix_rfl)
    have h2 : root ++ [n] ++ rel ≠ root ++ ["SUMMARYOLD"] := fun e => ha.src rel (e ▸ List.prefix_rfl)
    rw [st.g4, if_neg h1, st.g3, if_neg (hb.src rel), st.g2, if_neg h2, st.g1, if_neg (ha.src rel)]
  refine ⟨st.out, fun rel => ?_, fun rel => ?_, fun m hm => (st.moments h hm).outside⟩
  · have e4 : f4.get (root ++ ["SUMMARYOLD"] ++ rel) = if rel = [] then some .dir else none := by
      have h1 : root ++ ["SUMMARYOLD"] ++ rel ≠ root ++ ["GASSUMMARYOLD"] := fun e => aOP.src rel (e ▸ List.prefix_rfl)
      rw [st.g4, if_neg h1, st.g3, if_neg (aOP.src rel), st.g2]
      by_cases hr : rel = []
      · subst hr; simp
      · rw [if_neg (by simpa using hr), if_neg hr, st.g1, if_pos (List.prefix_append _ _)]
    have := st.g6.outside _ (aOP.src rel) (aOP.src' rel)
    rw [st.g5.inside, e4, k4 _ aSO aSP] at this
    rw [st.final, show root ++ "SUMMARYOLD" :: rel = root ++ ["SUMMARYOLD"] ++ rel by simp, this,
      show root ++ "SUMMARY" :: rel = root ++ ["SUMMARY"] ++ rel by simp]
    by_cases hr : rel = []
    · subst hr; rw [List.append_nil, h.summary]; rfl
    · rw [if_neg hr, Option.or_none]
  · have e5 : f5.get (root ++ ["GASSUMMARYOLD"] ++ rel) = if rel = [] then some .dir else none := by
      rw [st.g5.outside _ (aPO.src rel) (aPO.src' rel), st.g4]
      by_cases hr : rel = []
      · subst hr; simp
      · rw [if_neg (by simpa using hr), if_neg hr, st.g3, if_pos (List.prefix_append _ _)]
    have := st.g6.inside rel
    rw [e5, st.g5.outside _ (aGO.src rel) (aGO.src' rel), k4 _ aGO aGP] at this
    rw [st.final, show root ++ "GASSUMMARYOLD" :: rel = root ++ ["GASSUMMARYOLD"] ++ rel by simp, this,
      show root ++ "GASSUMMARY" :: rel = root ++ ["GASSUMMARY"] ++ rel by simp]
    by_cases hr : rel = []
    · subst hr; rw [List.append_nil, h.gas]; rfl
    · rw [if_neg hr, Option.or_none]

/-- **C126**, the full claim: whenever the process dies during the rotation, the old coin balances on disk are those of
before or those of after. -/
def C126_full : Prop :=
  ∀ (L : Listing) (fs : FS) (root : Path), Placed fs root → ∃ depth, ∀ d, depth ≤ d →
    ∀ m ∈ (rotateFiles L d root fs).trace,
      (∀ rel, m.get (root ++ "SUMMARYOLD" :: rel) = fs.get (root ++ "SUMMARYOLD" :: rel)) ∨
      (∀ rel, m.get (root ++ "SUMMARYOLD" :: rel) = fs.get (root ++ "SUMMARY" :: rel))

/-- A node's directory with two files in each current database and other files in the old ones. -/
def epochEnd : FS := ⟨[(["SUMMARY"], .dir), (["SUMMARY", "conf"], .file [1]), (["SUMMARY", "db"], .file [2, 3]),
  (["SUMMARYOLD"], .dir), (["SUMMARYOLD", "db"], .file [4, 4, 4]), (["SUMMARYOLD", "snap"], .file [5]),
  (["GASSUMMARY"], .dir), (["GASSUMMARY", "db"], .file [6, 7]),
  (["GASSUMMARYOLD"], .dir), (["GASSUMMARYOLD", "db"], .file [8]), (["MAIN"], .dir)]⟩

theorem epochEnd_placed : Placed epochEnd [] := by
  refine ⟨?_, by decide, by decide, by decide, by decide⟩
  intro p n h
  unfold FS.get at h
  rw [if_neg (by simp), Option.isSome_map, List.find?_isSome] at h
  obtain ⟨e, he, hp⟩ := h
  have hp : e.1 = p ++ [n] := by simpa using hp
  have : p = e.1.dropLast := by rw [hp, List.dropLast_concat]
  subst this
  have all : ∀ e ∈ epochEnd.entries, epochEnd.get e.1.dropLast = some .dir := by decide +kernel
  exact all e he

/-- In the middle of the rotation there are moments with a part of the old copy, with nothing, and with the beginning
of a file of the new copy. -/
example :
    let r := rotateFiles latestFirst 3 [] epochEnd
    r.out = .ok () ∧
    ["db", "snap", "conf"].map (fun n => r.final.get ["SUMMARYOLD", n]) =
      [some (.file [2, 3]), none, some (.file [1])] ∧
    (∃ m ∈ r.trace, ["db", "snap", "conf"].map (fun n => m.get ["SUMMARYOLD", n]) = [none, some (.file [5]), none]) ∧
    (∃ m ∈ r.trace, m.get ["SUMMARYOLD"] = none) ∧
    (∃ m ∈ r.trace, ["db", "snap", "conf"].map (fun n => m.get ["SUMMARYOLD", n]) =
      [some (.file [2]), none, some (.file [1])]) := by
  decide +kernel

/-- **C126**, refuted for every node: in the middle of the rotation there is a moment without any old balances, neither
the directory of before nor the copy. -/
theorem C126_refuted :
    (∀ (L : Listing) (fs : FS) (root : Path), Placed fs root → ∃ depth, ∀ d, depth ≤ d →
      ∃ m ∈ (rotateFiles L d root fs).trace, ∀ rel, m.get (root ++ "SUMMARYOLD" :: rel) = none) ∧
    ¬ C126_full := by
  have key : ∀ (L : Listing) (fs : FS) (root : Path), Placed fs root → ∃ depth, ∀ d, depth ≤ d →
      ∃ m ∈ (rotateFiles L d root fs).trace, ∀ rel, m.get (root ++ "SUMMARYOLD" :: rel) = none := by
    intro L fs root h
    obtain ⟨depth, hd⟩ := rotate_stages L fs root h
    refine ⟨depth, fun d hle => ?_⟩
    obtain ⟨f1, f2, f3, f4, f5, f6, st⟩ := hd d hle
    refine ⟨f1, ?_, fun rel => ?_⟩
    · rw [st.trace, List.mem_append]
      left
      rcases removeTree_ends L d (root ++ ["SUMMARYOLD"]) fs with he | he
      · rw [st.end1] at he
        have := st.g1 (root ++ ["SUMMARYOLD"])
        rw [if_pos List.prefix_rfl, he, h.summaryOld] at this
        cases this
      · rwa [st.end1] at he
    · rw [show root ++ "SUMMARYOLD" :: rel = root ++ ["SUMMARYOLD"] ++ rel by simp, st.g1,
        if_pos (List.prefix_append _ _)]
  refine ⟨key, fun hfull => ?_⟩
  obtain ⟨d1, h1⟩ := key latestFirst epochEnd [] epochEnd_placed
  obtain ⟨d2, h2⟩ := hfull latestFirst epochEnd [] epochEnd_placed
  obtain ⟨m, hm, hnone⟩ := h1 (d1 + d2) (by omega)
  rcases h2 (d1 + d2) (by omega) m hm with h | h
  · have := (hnone []).symm.trans (h [])
    revert this
    decide
  · have := (hnone []).symm.trans (h [])
    revert this
    decide

/-- **C126**, what holds: at every moment of the rotation each of the two old directories holds only things it held
before, unchanged, though perhaps not all of them; or it holds only things of the current directory, though perhaps not
all of them, and of files perhaps only the beginning. Old and new are never mixed. (Missing for the full claim: the
copy is not made beside the old directory and put in its place at once.) -/
theorem C126_halfway_partial (L : Listing) (fs : FS) (root : Path) (h : Placed fs root) :
    ∃ depth, ∀ d, depth ≤ d → ∀ m ∈ (rotateFiles L d root fs).trace,
      (PartLeft fs m (root ++ ["SUMMARYOLD"]) ∨ PartCopied fs m (root ++ ["SUMMARY"]) (root ++ ["SUMMARYOLD"])) ∧
      (PartLeft fs m (root ++ ["GASSUMMARYOLD"]) ∨
        PartCopied fs m (root ++ ["GASSUMMARY"]) (root ++ ["GASSUMMARYOLD"])) := by
  obtain ⟨depth, hd⟩ := rotate_stages L fs root h
  refine ⟨depth, fun d hle m hm => ?_⟩
  obtain ⟨f1, f2, f3, f4, f5, f6, st⟩ := hd d hle
  exact ⟨(st.moments h (.inr hm)).summary, (st.moments h (.inr hm)).gas⟩

end Props

end BCT
