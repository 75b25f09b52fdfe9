import Verif.Model.Files
import Mathlib.Data.List.Infix
import Mathlib.Data.List.Dedup
import Mathlib.Data.List.TakeDrop
import Mathlib.Tactic.Common
/-!
# C80, C81: copying directories and compressed files
-/

namespace BCT

namespace FS

theorem get_set {fs : FS} {p : Path} (hp : p ≠ []) (n : FileNode) (q : Path) :
    (fs.set p n).get q = if q = p then some n else fs.get q := by
  unfold get set
  by_cases hq : q = []
  · subst hq; simp [Ne.symm hp]
  · by_cases h : q = p
    · subst h; simp [hq]
    · simp [hq, h, Ne.symm h]

theorem get_nil (fs : FS) : fs.get [] = some .dir := by simp [get]

theorem create_ok {fs : FS} {p : Path} (hd : fs.get p ≠ some .dir) (hp : fs.get p.dropLast = some .dir) :
    fs.create p = (.ok (), fs.set p (.file [])) := by
  unfold create
  rw [hp]
  split
  · exact absurd ‹_› hd
  · rfl
  · simp_all

theorem create_err {fs : FS} {p : Path} (h : fs.get p = some .dir) : fs.create p = (.err .io, fs) := by
  unfold create; rw [h]

theorem copy_ok {fs : FS} {source target : Path} {data : Bytes} (hs : fs.get source = some (.file data))
    (hne : source ≠ target) (ht : target ≠ []) (hd : fs.get target ≠ some .dir)
    (hp : fs.get target.dropLast = some .dir) :
    ∃ fs', fs.copy source target = (.ok (), fs') ∧
      ∀ q, fs'.get q = if q = target then some (.file data) else fs.get q := by
  refine ⟨((fs.set target (.file [])).set target (.file data)), ?_, ?_⟩
  · unfold copy
    rw [hs, create_ok hd hp]
    simp only [get_set ht, hne, if_false, hs, write, if_true, List.drop_nil, List.append_nil]
  · intro q
    simp only [get_set ht]
    split <;> rfl

theorem copy_err {fs : FS} {source target : Path} {data : Bytes} (hs : fs.get source = some (.file data))
    (hd : fs.get target = some .dir) : fs.copy source target = (.err .io, fs) := by
  unfold copy
  rw [hs, create_err hd]

/-- `create_dir_all` makes every directory on the way. -/
theorem createDirs_ok {fs : FS} {base rest : Path} (hb : fs.get base = some .dir)
    (h : ∀ q, q <+: rest → ∀ d, fs.get (base ++ q) ≠ some (.file d)) :
    ∃ fs', fs.createDirs base rest = (.ok (), fs') ∧
      (∀ q, q <+: rest → fs'.get (base ++ q) = some .dir) ∧
      ∀ p, (∀ q, q <+: rest → p ≠ base ++ q) → fs'.get p = fs.get p := by
  induction rest generalizing fs base with
  | nil =>
    refine ⟨fs, rfl, ?_, fun _ _ => rfl⟩
    intro q hq
    rw [List.prefix_nil.1 hq, List.append_nil]; exact hb
  | cons n rest ih =>
    have hne : base ++ [n] ≠ [] := by simp
    have hpre : ∀ {q}, q <+: rest → n :: q <+: n :: rest := fun hq => List.cons_prefix_cons.2 ⟨rfl, hq⟩
    obtain ⟨fs1, h1, h1d, h1o⟩ : ∃ fs1, fs.mkdir (base ++ [n]) = (.ok (), fs1) ∧
        fs1.get (base ++ [n]) = some .dir ∧ ∀ p, p ≠ base ++ [n] → fs1.get p = fs.get p := by
      unfold mkdir
      have hf := h [n] (hpre (List.nil_prefix))
      match hm : fs.get (base ++ [n]) with
      | some .dir => exact ⟨fs, rfl, hm, fun _ _ => rfl⟩
      | some (.file d) => exact absurd hm (hf d)
      | none =>
        exact ⟨_, rfl, by simp [get_set hne], fun p hp => by rw [get_set hne, if_neg hp]⟩
    obtain ⟨fs2, h2, h2d, h2o⟩ := ih (fs := fs1) (base := base ++ [n]) h1d (by
      intro q hq d
      by_cases hq0 : q = []
      · subst hq0; rw [List.append_nil, h1d]; simp
      · rw [h1o _ (by simpa using hq0), List.append_assoc]
        exact h (n :: q) (hpre hq) d)
    refine ⟨fs2, ?_, ?_, ?_⟩
    · unfold createDirs
      rw [h1]
      exact h2
    · intro q hq
      cases q with
      | nil =>
        rw [List.append_nil, h2o, h1o]
        · exact hb
        · simp
        · intro q' _; simp
      | cons m q =>
        obtain ⟨rfl, hq'⟩ := List.cons_prefix_cons.1 hq
        have := h2d q hq'
        rwa [List.append_assoc] at this
    · intro p hp
      rw [h2o, h1o]
      · exact hp [n] (hpre List.nil_prefix)
      · intro q hq hpq
        exact hp (n :: q) (hpre hq) (by rw [hpq, List.append_assoc]; rfl)

/-- `create_dir_all` fails if a file is in the way. -/
theorem createDirs_err {fs : FS} {base rest : Path} (hb : fs.get base = some .dir)
    {q : Path} {d : Bytes} (hq : q <+: rest) (h : fs.get (base ++ q) = some (.file d)) :
    ∃ fs', fs.createDirs base rest = (.err .io, fs') := by
  induction rest generalizing fs base q with
  | nil => rw [List.prefix_nil.1 hq, List.append_nil, hb] at h; cases h
  | cons n rest ih =>
    have hne : base ++ [n] ≠ [] := by simp
    cases q with
    | nil => rw [List.append_nil, hb] at h; cases h
    | cons m q =>
      obtain ⟨rfl, hq'⟩ := List.cons_prefix_cons.1 hq
      unfold createDirs mkdir
      match hm : fs.get (base ++ [m]) with
      | some .dir =>
        exact ih hm hq' (by rwa [List.append_assoc])
      | some (.file d) => exact ⟨_, rfl⟩
      | none =>
        refine ih (fs := fs.set (base ++ [m]) .dir) (by simp [get_set hne]) hq' ?_
        rw [get_set hne, if_neg, List.append_assoc]
        · exact h
        · intro hc
          have : q = [] := by simpa using hc
          subst this
          rw [hm] at h; cases h

end FS

namespace Spec

/-- Everything but the root is in a directory. -/
def WellFormed (fs : FS) : Prop := ∀ p n, (fs.get (p ++ [n])).isSome → fs.get p = some .dir

/-- Neither directory is inside the other. -/
def Apart (a b : Path) : Prop := ¬ a <+: b ∧ ¬ b <+: a

/-- Nothing is a file in one directory and a directory in the other. -/
def Compatible (fs : FS) (src dst : Path) : Prop :=
  ∀ rel a b, fs.get (src ++ rel) = some a → fs.get (dst ++ rel) = some b → (a = .dir ↔ b = .dir)

/-- No file is in the way to a directory. -/
def Reachable (fs : FS) (dst : Path) : Prop := ∀ p, p <+: dst → p ≠ dst → ∀ d, fs.get p ≠ some (.file d)

end Spec

open Spec

/-- What a copy of `src` to `dst` makes of a file system. -/
structure Copied (src dst : Path) (fs fs' : FS) : Prop where
  inside : ∀ rel, fs'.get (dst ++ rel) = (fs.get (src ++ rel)).or (fs.get (dst ++ rel))
  above : ∀ p, p <+: dst → fs'.get p = some .dir
  outside : ∀ p, ¬ dst <+: p → ¬ p <+: dst → fs'.get p = fs.get p

theorem Spec.Apart.child {a b : Path} (h : Apart a b) (m n : String) : Apart (a ++ [m]) (b ++ [n]) := by
  constructor
  · intro hc
    rcases List.prefix_concat_iff.1 hc with hc | hc
    · have := List.append_inj' hc rfl
      exact h.1 (this.1 ▸ List.prefix_rfl)
    · exact h.1 ((List.prefix_append _ _).trans hc)
  · intro hc
    rcases List.prefix_concat_iff.1 hc with hc | hc
    · have := List.append_inj' hc rfl
      exact h.2 (this.1 ▸ List.prefix_rfl)
    · exact h.2 ((List.prefix_append _ _).trans hc)

/-- The source, wherever one looks in it, is not where the copy writes. -/
theorem Spec.Apart.src {a b : Path} (h : Apart a b) (rel : Path) : ¬ b <+: a ++ rel := by
  intro hc
  rcases List.prefix_or_prefix_of_prefix hc (List.prefix_append a rel) with h' | h'
  · exact h.2 h'
  · exact h.1 h'

theorem Spec.Apart.src' {a b : Path} (h : Apart a b) (rel : Path) : ¬ a ++ rel <+: b :=
  fun hc => h.1 ((List.prefix_append a rel).trans hc)

theorem Copied.src {src dst : Path} {fs fs' : FS} (h : Copied src dst fs fs') (ha : Apart src dst) (rel : Path) :
    fs'.get (src ++ rel) = fs.get (src ++ rel) :=
  h.outside _ (ha.src rel) (ha.src' rel)

/-- What one knows of the source: as far as `depth` levels and no further, and everything is in directories. -/
structure SourceTree (depth : Nat) (src : Path) (fs : FS) : Prop where
  dir : fs.get src = some .dir
  wf : ∀ rel n, (fs.get (src ++ rel ++ [n])).isSome → fs.get (src ++ rel) = some .dir
  deep : ∀ rel, (fs.get (src ++ rel)).isSome → rel.length < depth

/-- The promise of `copy_dir_all`. -/
def CopySpec (src dst : Path) (fs : FS) (r : Option (Outcome Unit × FS)) : Prop :=
  (Compatible fs src dst → Reachable fs dst → ∃ fs', r = some (.ok (), fs') ∧ Copied src dst fs fs') ∧
  (¬ (Compatible fs src dst ∧ Reachable fs dst) → ∃ fs', r = some (.err .io, fs'))

/-- What the loop over the names of a directory makes of a file system. -/
structure CopiedNames (src dst : Path) (names : List String) (fs fs' : FS) : Prop where
  inside : ∀ n ∈ names, ∀ rel,
    fs'.get (dst ++ n :: rel) = (fs.get (src ++ n :: rel)).or (fs.get (dst ++ n :: rel))
  outside : ∀ p, (∀ n ∈ names, ¬ dst ++ [n] <+: p) → fs'.get p = fs.get p

theorem cons_prefix {n m : String} {p rel : Path} : p ++ [n] <+: p ++ m :: rel ↔ n = m := by
  rw [List.prefix_append_right_inj, List.cons_prefix_cons]
  simp

theorem copyEntries_spec {depth : Nat} {src dst : Path} (ha : Apart src dst)
    {self : Path → Path → FS → Option (Outcome Unit × FS)}
    (hself : ∀ src dst fs, Apart src dst → SourceTree depth src fs → CopySpec src dst fs (self src dst fs))
    (names : List String) (hnd : names.Nodup) (fs : FS)
    (hup : ∀ p, p <+: dst → fs.get p = some .dir)
    (ht : SourceTree (depth + 1) src fs) (hn : ∀ n ∈ names, (fs.get (src ++ [n])).isSome) :
    ((∀ n ∈ names, Compatible fs (src ++ [n]) (dst ++ [n])) →
      ∃ fs', copyEntries self src dst names fs = some (.ok (), fs') ∧ CopiedNames src dst names fs fs') ∧
    (¬ (∀ n ∈ names, Compatible fs (src ++ [n]) (dst ++ [n])) →
      ∃ fs', copyEntries self src dst names fs = some (.err .io, fs')) := by
  induction names generalizing fs with
  | nil =>
    refine ⟨fun _ => ⟨fs, rfl, ⟨by simp, fun _ _ => rfl⟩⟩, fun h => absurd (by simp) h⟩
  | cons n names ih =>
    obtain ⟨hnn, hnd⟩ := List.nodup_cons.1 hnd
    have hac := ha.child n n
    have hreach : Reachable fs (dst ++ [n]) := by
      intro p hp hne d
      rcases List.prefix_concat_iff.1 hp with hp | hp
      · exact absurd hp hne
      · rw [hup p hp]; simp
    -- what copying the first entry does
    have key : (Compatible fs (src ++ [n]) (dst ++ [n]) →
          ∃ fs1, copyEntries self src dst (n :: names) fs = copyEntries self src dst names fs1 ∧
            Copied (src ++ [n]) (dst ++ [n]) fs fs1 ∨
          ∃ fs1, copyEntries self src dst (n :: names) fs = copyEntries self src dst names fs1 ∧
            CopiedNames src dst [n] fs fs1) ∧
        (¬ Compatible fs (src ++ [n]) (dst ++ [n]) →
          ∃ fs', copyEntries self src dst (n :: names) fs = some (.err .io, fs')) := by
      match hk : fs.get (src ++ [n]) with
      | none => have := hn n (by simp); rw [hk] at this; cases this
      | some .dir =>
        have htc : SourceTree depth (src ++ [n]) fs := ⟨hk,
          fun rel m hm => by
            have := ht.wf (n :: rel) m (by simpa using hm)
            simpa using this,
          fun rel hrel => by
            have := ht.deep (n :: rel) (by simpa using hrel)
            simpa using this⟩
        have hs := hself _ (dst ++ [n]) fs hac htc
        constructor
        · intro hc
          obtain ⟨fs1, h1, h1c⟩ := hs.1 hc hreach
          refine Exists.intro fs1 (Or.inl ⟨?_, h1c⟩)
          rw [copyEntries, hk]
          simp only [h1]
        · intro hc
          obtain ⟨fs1, h1⟩ := hs.2 (fun h => hc h.1)
          refine ⟨fs1, ?_⟩
          rw [copyEntries, hk]
          simp only [h1]
      | some (.file data) =>
        have hleaf : ∀ rel, rel ≠ [] → fs.get (src ++ n :: rel) = none := by
          intro rel hrel
          obtain ⟨rel, m, rfl⟩ : ∃ r m, rel = r ++ [m] :=
            ⟨rel.dropLast, rel.getLast hrel, (List.dropLast_append_getLast hrel).symm⟩
          by_contra hcon
          have h1 : ∀ r : Path, (fs.get (src ++ [n] ++ r)).isSome → r = [] := by
            intro r
            induction r using List.reverseRecOn with
            | nil => simp
            | append_singleton r m ihr =>
              intro hr
              have h2 := ht.wf (n :: r) m (by simpa using hr)
              have h3 : r = [] := ihr (by
                have h2' : fs.get (src ++ [n] ++ r) = some .dir := by simpa using h2
                rw [h2']; rfl)
              subst h3
              rw [show src ++ [n] = src ++ n :: [] from rfl, h2] at hk
              cases hk
          have := h1 (rel ++ [m]) (Option.isSome_iff_ne_none.2 (by simpa using hcon))
          simp at this
        have hne : src ++ [n] ≠ dst ++ [n] := by
          intro hc
          exact hac.1 (hc ▸ List.prefix_rfl)
        constructor
        · intro hc
          have hnd' : fs.get (dst ++ [n]) ≠ some .dir := by
            intro hdd
            have := hc [] (.file data) .dir (by simpa using hk) (by simpa using hdd)
            simp at this
          obtain ⟨fs1, h1, h1g⟩ := FS.copy_ok hk hne (by simp) hnd' (by simpa using hup dst List.prefix_rfl)
          refine Exists.intro fs1 (Or.inr ⟨fs1, ?_, ?_, ?_⟩)
          · rw [copyEntries, hk]
            simp only [h1]
          · intro m hm rel
            obtain rfl : m = n := by simpa using hm
            rw [h1g]
            by_cases hrel : rel = []
            · subst hrel; simp [hk]
            · rw [if_neg (by simpa using hrel), hleaf rel hrel]; rfl
          · intro p hp
            rw [h1g, if_neg]
            intro hpe
            exact hp n (by simp) (hpe ▸ List.prefix_rfl)
        · intro hc
          obtain hdd : fs.get (dst ++ [n]) = some .dir := by
            by_contra hdd
            refine hc ?_
            intro rel a b h1 h2
            by_cases hrel : rel = []
            · subst hrel
              rw [List.append_nil] at h1 h2
              rw [hk] at h1
              cases h1
              constructor
              · intro h; cases h
              · intro h; subst h; exact absurd h2 hdd
            · rw [List.append_assoc, List.singleton_append, hleaf rel hrel] at h1
              cases h1
          refine ⟨fs, ?_⟩
          rw [copyEntries, hk]
          simp only [FS.copy_err hk hdd]
    by_cases hc : Compatible fs (src ++ [n]) (dst ++ [n])
    · -- the rest
      obtain ⟨fs1, h1, h1c⟩ : ∃ fs1, copyEntries self src dst (n :: names) fs = copyEntries self src dst names fs1 ∧
          CopiedNames src dst [n] fs fs1 := by
        obtain ⟨fs1, ⟨h1, h1c⟩ | h1⟩ := key.1 hc
        · refine ⟨fs1, h1, ?_, ?_⟩
          · intro m hm rel
            obtain rfl : m = n := by simpa using hm
            have := h1c.inside rel
            simpa using this
          · intro p hp
            have hp := hp n (by simp)
            by_cases hpu : p <+: dst ++ [n]
            · rw [h1c.above p hpu]
              rcases List.prefix_concat_iff.1 hpu with hpu | hpu
              · exact absurd (hpu ▸ List.prefix_rfl) hp
              · exact (hup p hpu).symm
            · exact h1c.outside p hp hpu
        · exact h1
      have hsrc : ∀ rel, fs1.get (src ++ rel) = fs.get (src ++ rel) := by
        intro rel
        refine h1c.outside _ ?_
        intro m _ hpre
        exact ha.src rel ((List.prefix_append _ _).trans hpre)
      have hother : ∀ m ∈ names, ∀ rel, fs1.get (dst ++ m :: rel) = fs.get (dst ++ m :: rel) := by
        intro m hm rel
        refine h1c.outside _ ?_
        intro n' hn' hpre
        obtain rfl : n' = n := by simpa using hn'
        exact hnn (cons_prefix.1 hpre ▸ hm)
      have hup1 : ∀ p, p <+: dst → fs1.get p = some .dir := by
        intro p hp
        rw [h1c.outside p ?_]
        · exact hup p hp
        · intro m _ hpre
          have h1 := hpre.length_le
          have h2 := hp.length_le
          simp at h1
          omega
      have ht1 : SourceTree (depth + 1) src fs1 := ⟨by simpa using (hsrc []).trans (by simpa using ht.dir),
        fun rel m h => by
          rw [hsrc]
          refine ht.wf rel m ?_
          rw [List.append_assoc, hsrc, ← List.append_assoc] at h
          exact h,
        fun rel h => ht.deep rel (by rwa [hsrc] at h)⟩
      have hcomp : ∀ m ∈ names, (Compatible fs1 (src ++ [m]) (dst ++ [m]) ↔ Compatible fs (src ++ [m]) (dst ++ [m])) := by
        intro m hm
        unfold Compatible
        simp only [List.append_assoc, List.singleton_append, hsrc, hother m hm]
      obtain ⟨ihok, iherr⟩ := ih hnd fs1 hup1 ht1 (fun m hm => by
        rw [hsrc]; exact hn m (List.mem_cons_of_mem _ hm))
      rw [h1]
      constructor
      · intro hall
        obtain ⟨fs', h2, h2c⟩ := ihok (fun m hm => (hcomp m hm).2 (hall m (List.mem_cons_of_mem _ hm)))
        refine ⟨fs', h2, ?_, ?_⟩
        · intro m hm rel
          rcases List.mem_cons.1 hm with rfl | hm
          · rw [h2c.outside, h1c.inside m (by simp)]
            intro m' hm' hpre
            exact hnn (cons_prefix.1 hpre ▸ hm')
          · rw [h2c.inside m hm, hsrc, hother m hm]
        · intro p hp
          rw [h2c.outside p (fun m hm => hp m (List.mem_cons_of_mem _ hm)),
            h1c.outside p (fun m hm => hp m (by
              obtain rfl : m = n := by simpa using hm
              simp))]
      · intro hall
        refine iherr (fun h => hall ?_)
        intro m hm
        rcases List.mem_cons.1 hm with rfl | hm
        · exact hc
        · exact (hcomp m hm).1 (h m hm)
    · refine ⟨fun h => absurd (h n (by simp)) hc, fun _ => key.2 hc⟩

/-- What `copy_dir_all` does with a source of which nothing is deeper than `depth`. -/
theorem copyDirAll_spec (L : Listing) (depth : Nat) (src dst : Path) (fs : FS) (ha : Apart src dst)
    (ht : SourceTree depth src fs) : CopySpec src dst fs (copyDirAll L depth src dst fs) := by
  induction depth generalizing src dst fs with
  | zero => exact absurd (ht.deep [] (by rw [List.append_nil, ht.dir]; rfl)) (by simp)
  | succ depth ih =>
    by_cases hfile : ∃ p, p <+: dst ∧ ∃ d, fs.get p = some (.file d)
    · obtain ⟨p, hp, d, hd⟩ := hfile
      constructor
      · intro hc hr
        by_cases hpd : p = dst
        · subst hpd
          have := hc [] .dir (.file d) (by simpa using ht.dir) (by simpa using hd)
          simp at this
        · exact absurd hd (hr p hp hpd d)
      · intro _
        obtain ⟨fs', h⟩ := FS.createDirs_err fs.get_nil hp (by simpa using hd)
        refine ⟨fs', ?_⟩
        unfold copyDirAll FS.createDirAll
        simp only [h]
    · have hfile' : ∀ p, p <+: dst → ∀ d, fs.get p ≠ some (.file d) := fun p hp d h => hfile ⟨p, hp, d, h⟩
      obtain ⟨fs1, h1, h1d, h1o⟩ := FS.createDirs_ok (rest := dst) fs.get_nil (by simpa using hfile')
      simp only [List.nil_append] at h1d h1o
      have hout : ∀ p, ¬ p <+: dst → fs1.get p = fs.get p :=
        fun p hp => h1o p (fun q hq hpq => hp (hpq ▸ hq))
      have hsrc : ∀ rel, fs1.get (src ++ rel) = fs.get (src ++ rel) := fun rel => hout _ (ha.src' rel)
      have hdst : ∀ n rel, fs1.get (dst ++ n :: rel) = fs.get (dst ++ n :: rel) := by
        intro n rel
        refine hout _ ?_
        intro hc
        have := hc.length_le
        simp at this
        omega
      have ht1 : SourceTree (depth + 1) src fs1 := ⟨by simpa using (hsrc []).trans (by simpa using ht.dir),
        fun rel m h => by
          rw [hsrc]
          refine ht.wf rel m ?_
          rw [List.append_assoc, hsrc, ← List.append_assoc] at h
          exact h,
        fun rel h => ht.deep rel (by rwa [hsrc] at h)⟩
      obtain ⟨hok, herr⟩ := copyEntries_spec ha (self := copyDirAll L depth)
        (fun src dst fs ha ht => ih src dst fs ha ht) (L.names fs1 src) (L.nodup _ _) fs1 h1d ht1
        (fun n hn => (L.mem _ _ _).1 hn)
      have hrun : copyDirAll L (depth + 1) src dst fs =
          copyEntries (copyDirAll L depth) src dst (L.names fs1 src) fs1 := by
        rw [copyDirAll, FS.createDirAll]
        simp only [h1, ht1.dir]
      have hall : (∀ n ∈ L.names fs1 src, Compatible fs1 (src ++ [n]) (dst ++ [n])) ↔ Compatible fs src dst := by
        constructor
        · intro h rel a b hra hrb
          cases rel with
          | nil =>
            rw [List.append_nil] at hra hrb
            rw [ht.dir] at hra
            cases hra
            cases b with
            | dir => simp
            | file d => exact absurd hrb (hfile' dst List.prefix_rfl d)
          | cons n rel =>
            have hn : (fs1.get (src ++ [n])).isSome := by
              have hsub : ∀ r : Path, (fs.get (src ++ [n] ++ r)).isSome → (fs.get (src ++ [n])).isSome := by
                intro r
                induction r using List.reverseRecOn with
                | nil => simp
                | append_singleton r m ihr =>
                  intro hr
                  have h2 := ht.wf (n :: r) m (by simpa using hr)
                  exact ihr (by
                    rw [show src ++ [n] ++ r = src ++ n :: r by simp, h2]; rfl)
              rw [hsrc]
              refine hsub rel ?_
              rw [show src ++ [n] ++ rel = src ++ n :: rel by simp, hra]; rfl
            refine h n ((L.mem _ _ _).2 hn) rel a b ?_ ?_
            · rw [List.append_assoc, List.singleton_append, hsrc]; exact hra
            · rw [List.append_assoc, List.singleton_append, hdst]; exact hrb
        · intro h n _ rel a b hra hrb
          rw [List.append_assoc, List.singleton_append] at hra hrb
          rw [hsrc] at hra
          rw [hdst] at hrb
          exact h (n :: rel) a b hra hrb
      rw [hrun]
      constructor
      · intro hc _
        obtain ⟨fs', h2, h2c⟩ := hok (hall.2 hc)
        refine ⟨fs', h2, ?_, ?_, ?_⟩
        · intro rel
          cases rel with
          | nil =>
            rw [List.append_nil, List.append_nil, ht.dir, h2c.outside]
            · exact h1d dst List.prefix_rfl
            · intro n _ hpre
              have := hpre.length_le
              simp at this
              omega
          | cons n rel =>
            by_cases hn : n ∈ L.names fs1 src
            · rw [h2c.inside n hn, hsrc, hdst]
            · have hnone : ∀ r : Path, fs.get (src ++ [n] ++ r) = none := by
                intro r
                induction r using List.reverseRecOn with
                | nil =>
                  by_contra hcon
                  refine hn ((L.mem _ _ _).2 ?_)
                  rw [hsrc]
                  exact Option.isSome_iff_ne_none.2 (by simpa using hcon)
                | append_singleton r m ihr =>
                  by_contra hcon
                  have h2 := ht.wf (n :: r) m (Option.isSome_iff_ne_none.2 (by simpa using hcon))
                  rw [show src ++ [n] ++ r = src ++ n :: r by simp, h2] at ihr
                  cases ihr
              have hno := hnone rel
              rw [List.append_assoc, List.singleton_append] at hno
              rw [hno, h2c.outside, hdst]
              · rfl
              · intro m hm hpre
                exact hn (cons_prefix.1 hpre ▸ hm)
        · intro p hp
          rw [h2c.outside]
          · exact h1d p hp
          · intro n _ hpre
            have h3 := hpre.length_le
            have h4 := hp.length_le
            simp at h3
            omega
        · intro p hp hp'
          rw [h2c.outside, hout p hp']
          intro n _ hpre
          exact hp ((List.prefix_append _ _).trans hpre)
      · intro hn
        refine herr (fun h => hn ⟨hall.1 h, ?_⟩)
        intro p hp _ d
        exact hfile' p hp d

/-- There is no deeper path in a file system than the longest one. -/
theorem FS.exists_depth (fs : FS) : ∃ m, ∀ p, (fs.get p).isSome → p.length < m := by
  obtain ⟨es⟩ := fs
  induction es with
  | nil =>
    refine ⟨1, fun p hp => ?_⟩
    by_cases h : p = []
    · simp [h]
    · simp [FS.get, h] at hp
  | cons e es ih =>
    obtain ⟨m, hm⟩ := ih
    refine ⟨max m (e.1.length + 1), fun p hp => ?_⟩
    by_cases h : p = []
    · have := hm [] (by simp [FS.get]); subst h; simp; omega
    · by_cases he : e.1 = p
      · subst he; omega
      · have := hm p (by simpa [FS.get, h, he] using hp)
        omega

theorem SourceTree.of_wf {fs : FS} (hwf : WellFormed fs) {src : Path} (hs : fs.get src = some .dir) :
    ∃ depth, ∀ d, depth ≤ d → SourceTree d src fs := by
  obtain ⟨m, hm⟩ := fs.exists_depth
  refine ⟨m, fun d hd => ⟨hs, fun rel n h => hwf _ n h, fun rel h => ?_⟩⟩
  have := hm _ h
  simp at this
  omega

namespace Props

/-- **C80.** `copy_dir_all` makes of the destination what it was, with everything in the source over it: at any depth,
whatever the order the system lists directories in. Nothing else changes, the source least of all, except that the
directories above the destination are made. (If the destination is missing or empty, it becomes equal to the source:
`C80_exact`.) It fails, and only fails, if a file is in the way of a directory or the other way round, or if the source
is not a directory. -/
theorem C80_copy (L : Listing) (fs : FS) (hwf : WellFormed fs) (src dst : Path) (ha : Apart src dst) :
    ∃ depth, ∀ d, depth ≤ d →
      (fs.get src = some .dir → Compatible fs src dst → Reachable fs dst →
        ∃ fs', copyDirAll L d src dst fs = some (.ok (), fs') ∧
          (∀ rel, fs'.get (dst ++ rel) = (fs.get (src ++ rel)).or (fs.get (dst ++ rel))) ∧
          (∀ rel, fs'.get (src ++ rel) = fs.get (src ++ rel)) ∧
          (∀ p, p <+: dst → fs'.get p = some .dir) ∧
          (∀ p, ¬ dst <+: p → ¬ p <+: dst → fs'.get p = fs.get p)) ∧
      (¬ (fs.get src = some .dir ∧ Compatible fs src dst ∧ Reachable fs dst) →
        ∃ fs', copyDirAll L d src dst fs = some (.err .io, fs')) := by
  by_cases hs : fs.get src = some .dir
  · obtain ⟨depth, hd⟩ := SourceTree.of_wf hwf hs
    refine ⟨depth, fun d hle => ?_⟩
    obtain ⟨hok, herr⟩ := copyDirAll_spec L d src dst fs ha (hd d hle)
    refine ⟨fun _ hc hr => ?_, fun hn => herr (fun h => hn ⟨hs, h⟩)⟩
    obtain ⟨fs', h, hcp⟩ := hok hc hr
    exact ⟨fs', h, hcp.inside, hcp.src ha, hcp.above, hcp.outside⟩
  · refine ⟨1, fun d hd => ⟨fun h => absurd h hs, fun _ => ?_⟩⟩
    obtain ⟨d, rfl⟩ : ∃ e, d = e + 1 := ⟨d - 1, by omega⟩
    by_cases hfile : ∃ p, p <+: dst ∧ ∃ d, fs.get p = some (.file d)
    · obtain ⟨p, hp, b, hb⟩ := hfile
      obtain ⟨fs', h⟩ := FS.createDirs_err fs.get_nil hp (by simpa using hb)
      refine ⟨fs', ?_⟩
      unfold copyDirAll FS.createDirAll
      simp only [h]
    · obtain ⟨fs1, h1, _, h1o⟩ := FS.createDirs_ok (rest := dst) fs.get_nil (by
        intro p hp b hb; exact hfile ⟨p, hp, b, by simpa using hb⟩)
      have hsrc : fs1.get src = fs.get src := h1o _ (fun q hq he => by
        simp only [List.nil_append] at he
        exact ha.1 (he ▸ hq))
      refine ⟨fs1, ?_⟩
      unfold copyDirAll FS.createDirAll
      simp only [h1]
      split
      · rename_i h; exact absurd (hsrc ▸ h) hs
      · rfl

/-- **C80**, a fresh destination: if it is missing or an empty directory, it becomes equal to the source. -/
theorem C80_exact (L : Listing) (fs : FS) (hwf : WellFormed fs) (src dst : Path) (ha : Apart src dst)
    (hs : fs.get src = some .dir) (hd : fs.get dst = none ∨ fs.get dst = some .dir)
    (hempty : ∀ n rel, fs.get (dst ++ n :: rel) = none) (hr : Reachable fs dst) :
    ∃ depth, ∀ d, depth ≤ d → ∃ fs', copyDirAll L d src dst fs = some (.ok (), fs') ∧
      (∀ rel, fs'.get (dst ++ rel) = fs.get (src ++ rel)) ∧
      (∀ rel, fs'.get (src ++ rel) = fs.get (src ++ rel)) := by
  obtain ⟨depth, h⟩ := C80_copy L fs hwf src dst ha
  refine ⟨depth, fun d hle => ?_⟩
  obtain ⟨fs', h1, h2, h3, -⟩ := (h d hle).1 hs (by
    intro rel a b hra hrb
    cases rel with
    | nil =>
      rw [List.append_nil] at hra hrb
      rw [hs] at hra
      rcases hd with hd | hd <;> rw [hd] at hrb <;> cases hrb
      cases hra; simp
    | cons n rel => rw [hempty] at hrb; cases hrb) hr
  refine ⟨fs', h1, fun rel => ?_, h3⟩
  rw [h2]
  cases rel with
  | nil => rw [List.append_nil, hs]; rfl
  | cons n rel => rw [hempty, Option.or_none]

/-- A system that lists the latest names first. -/
def latestFirst : Listing where
  names fs p := (fs.entries.filterMap (fun e => if e.1.dropLast = p then e.1.getLast? else none)).dedup
  nodup _ _ := List.nodup_dedup _
  mem fs p n := by
    rw [List.mem_dedup, List.mem_filterMap, FS.get, if_neg (by simp), Option.isSome_map, List.find?_isSome]
    constructor
    · rintro ⟨e, he, h⟩
      split at h
      · rename_i hp
        refine ⟨e, he, ?_⟩
        obtain ⟨h1, h2⟩ := List.getLast?_eq_some_iff.1 h
        rw [← hp, h2]; simp
      · cases h
    · rintro ⟨e, he, h⟩
      have h : e.1 = p ++ [n] := by simpa using h
      exact ⟨e, he, by simp [h]⟩

/-- A database directory with files at two levels, and an old copy of it. -/
def someDisk : FS := ⟨[(["S"], .dir), (["S", "db"], .file [1, 2]), (["S", "blobs"], .dir),
  (["S", "blobs", "7"], .file [7]), (["O"], .dir), (["O", "db"], .file [9, 9, 9]), (["O", "conf"], .file [5])]⟩

/-- Copying over the old copy, and to a directory that does not exist. -/
example :
    (copyDirAll latestFirst 3 ["S"] ["O"] someDisk).map (fun r => (r.1,
      [["O", "db"], ["O", "conf"], ["O", "blobs"], ["O", "blobs", "7"], ["S", "db"]].map r.2.get)) =
      some (.ok (), [some (.file [1, 2]), some (.file [5]), some .dir, some (.file [7]), some (.file [1, 2])]) ∧
    (copyDirAll latestFirst 3 ["S"] ["new", "N"] someDisk).map (fun r => (r.1,
      [["new"], ["new", "N", "db"], ["new", "N", "conf"], ["new", "N", "blobs", "7"]].map r.2.get)) =
      some (.ok (), [some .dir, some (.file [1, 2]), none, some (.file [7])]) := by
  decide +kernel

/-- **C81.** `compress_to_file` works for every file name that is not a directory's, in a directory that exists. After
it `decompress_from_file` returns the data, whatever the file held before; no other file is touched. (For every
compressor that undoes its own output.) -/
theorem C81_compress (Z : Zstd) (fs : FS) (file : Path) (data : Bytes) :
    (fs.get file ≠ some .dir → fs.get file.dropLast = some .dir →
      (compressToFile Z file data fs).1 = .ok ()) ∧
    ((compressToFile Z file data fs).1 = .ok () →
      decompressFromFile Z file (compressToFile Z file data fs).2 = .ok data) ∧
    ∀ q, q ≠ file → (compressToFile Z file data fs).2.get q = fs.get q := by
  by_cases hd : fs.get file = some .dir
  · have h : compressToFile Z file data fs = (.err .zstdCompress, fs) := by
      unfold compressToFile; rw [FS.create_err hd]
    rw [h]
    exact ⟨fun h => absurd hd h, (fun h => by cases h), fun _ _ => rfl⟩
  · have hne : file ≠ [] := fun h => hd (h ▸ fs.get_nil)
    by_cases hp : fs.get file.dropLast = some .dir
    · have h : compressToFile Z file data fs =
          (.ok (), (fs.set file (.file [])).set file (.file (Z.encode data))) := by
        unfold compressToFile
        rw [FS.create_ok hd hp]
        simp only [FS.write, FS.get_set hne, if_true, List.drop_nil, List.append_nil]
      rw [h]
      refine ⟨fun _ _ => rfl, fun _ => ?_, fun q hq => ?_⟩
      · unfold decompressFromFile
        simp only [FS.get_set hne, if_true, Z.roundtrip]
      · simp only [FS.get_set hne, if_neg hq]
    · have h : compressToFile Z file data fs = (.err .zstdCompress, fs) := by
        have : fs.create file = (.err .io, fs) := by
          unfold FS.create
          split
          · rfl
          · exact absurd ‹_› hp
          · rfl
        unfold compressToFile; rw [this]
      rw [h]
      exact ⟨fun _ h => absurd h hp, (fun h => by cases h), fun _ _ => rfl⟩

/-- **C81**, reading: what `decompress_from_file` returns is what the decoder makes of the whole file; a file that is not there,
a directory and a file the decoder refuses are errors. -/
theorem C81_decompress (Z : Zstd) (fs : FS) (file : Path) :
    (∀ data, decompressFromFile Z file fs = .ok data ↔ ∃ bytes, fs.get file = some (.file bytes) ∧ Z.decode bytes = some data) ∧
    ((∀ bytes, fs.get file = some (.file bytes) → Z.decode bytes = none) → decompressFromFile Z file fs = .err .zstdDecompress) := by
  unfold decompressFromFile
  cases fs.get file with
  | none => simp
  | some n =>
    cases n with
    | dir => simp
    | file bytes => cases hd : Z.decode bytes <;> simp [hd]

/-- A compressor that writes a frame: a mark, the data, an end. -/
def framed : Zstd where
  encode data := 40 :: (data ++ [0])
  decode bytes := if bytes.head? = some 40 ∧ bytes.getLast? = some 0 then some bytes.tail.dropLast else none
  roundtrip data := by
    have h : (40 :: (data ++ [0])).getLast? = some (0 : UInt8) := by
      rw [show 40 :: (data ++ [0]) = (40 :: data) ++ [0] from rfl, List.getLast?_concat]
    rw [h]
    simp

/-- A shorter file over a longer one. -/
example :
    (compressToFile framed ["O", "db"] [] someDisk).1 = .ok () ∧
    (compressToFile framed ["O", "db"] [] someDisk).2.get ["O", "db"] = some (.file [40, 0]) ∧
    decompressFromFile framed ["O", "db"] (compressToFile framed ["O", "db"] [] someDisk).2 = .ok [] ∧
    decompressFromFile framed ["O", "db"] someDisk = .err .zstdDecompress := by
  decide +kernel

end Props

end BCT
