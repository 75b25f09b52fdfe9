import Verif.Model.Files
import Verif.Model.Store
/-!
# The files of `rotate_dbs`: blockchaintree.rs:548-590, one system call after the other

`Model/Tree.lean` has the databases' contents, `Model/Files.lean` the outcome of `copy_dir_all`. Here every file system
the disk goes through is recorded, so that the moments at which the process may die can be looked at.

Not modelled: as in `Model/Files.lean`; sled writing to the directories meanwhile (both were flushed, and the calls on
the node wait for `&mut self`).
-/

namespace BCT

/-- static_values.rs:6 (the slash at the end of the name means nothing to `Path::join`). -/
def AMOUNT_SUMMARY : String := "SUMMARY"
/-- static_values.rs:7. -/
def OLD_AMOUNT_SUMMARY : String := "SUMMARYOLD"
/-- static_values.rs:9. -/
def GAS_SUMMARY : String := "GASSUMMARY"
/-- static_values.rs:10. -/
def OLD_GAS_SUMMARY : String := "GASSUMMARYOLD"

namespace FS

/-- One system call: one effect. -/
def call (f : FS → Outcome Unit × FS) : Act FS Unit := fun fs => ⟨(f fs).1, (f fs).2, [(f fs).2]⟩

/-- The file system without what is at a path. -/
def remove (fs : FS) (p : Path) : FS := ⟨fs.entries.filter (fun e => e.1 ≠ p)⟩

/-- `unlink`. -/
def unlink (fs : FS) (p : Path) : Outcome Unit × FS :=
  match fs.get p with
  | some (.file _) => (.ok (), fs.remove p)
  | _ => (.err .io, fs)

/-- `rmdir`: only of empty directories. -/
def rmdir (L : Listing) (fs : FS) (p : Path) : Outcome Unit × FS :=
  match fs.get p with
  | some .dir => if (L.names fs p).isEmpty && !p.isEmpty then (.ok (), fs.remove p) else (.err .io, fs)
  | _ => (.err .io, fs)

/-- `fs::create_dir`: it is an error if there is something, or if the parent is missing. -/
def createDir (fs : FS) (p : Path) : Outcome Unit × FS :=
  match fs.get p, fs.get p.dropLast with
  | none, some .dir => (.ok (), fs.set p .dir)
  | _, _ => (.err .io, fs)

/-- `fs::create_dir_all` below `base`, directory by directory. -/
def makeDirs (base : Path) : Path → Act FS Unit
  | [] => pure ()
  | n :: rest => do
    call (fun fs => fs.mkdir (base ++ [n]))
    makeDirs (base ++ [n]) rest

/-- `fs::copy`: the target is created, then it grows. -/
def copyFile (source target : Path) : Act FS Unit := fun fs =>
  match fs.get source with
  | some (.file _) =>
    match fs.create target with
    | (.ok _, fs) =>
      match fs.get source with
      | some (.file data) =>
        ⟨.ok (), fs.write target data,
          fs :: (List.range (data.length + 1)).map (fun k => fs.write target (data.take k))⟩
      | _ => ⟨.err .io, fs, [fs]⟩
    | r => ⟨r.1, r.2, [r.2]⟩
  | _ => ⟨.err .io, fs, []⟩

end FS

/-- tools.rs:18-31 `copy_dir_all`, call by call; at most `depth` deep (deeper: an error, cf. `copyDirAll`). -/
def copyTree (L : Listing) : Nat → Path → Path → Act FS Unit
  | 0, _, _ => Act.lift (.err .io)
  | depth + 1, src, dst => do
    FS.makeDirs [] dst                                                  -- :19
    let fs ← Act.get
    match fs.get src with
    | some .dir =>                                                      -- :20
      Act.forEach (L.names fs src) (fun n => do
        let fs ← Act.get
        match fs.get (src ++ [n]) with
        | some .dir => copyTree L depth (src ++ [n]) (dst ++ [n])       -- :23-24
        | _ => FS.copyFile (src ++ [n]) (dst ++ [n]))                   -- :25-27
    | _ => Act.lift (.err .io)

/-- `fs::remove_dir_all`: what is in the directory, then the directory. -/
def removeTree (L : Listing) : Nat → Path → Act FS Unit
  | 0, _ => Act.lift (.err .io)
  | depth + 1, p => do
    let fs ← Act.get
    match fs.get p with
    | some .dir => do
      Act.forEach (L.names fs p) (fun n => do
        let fs ← Act.get
        match fs.get (p ++ [n]) with
        | some .dir => removeTree L depth (p ++ [n])
        | _ => FS.call (fun fs => fs.unlink (p ++ [n])))
      FS.call (fun fs => fs.rmdir L p)
    | _ => Act.lift (.err .io)

/-- blockchaintree.rs:548-590, the part of `rotate_dbs` between flushing the databases and opening the copies. -/
def rotateFiles (L : Listing) (depth : Nat) (root : Path) : Act FS Unit := do
  let pathSummary := root ++ [AMOUNT_SUMMARY]                                                        -- :550-553
  let pathSummaryOld := root ++ [OLD_AMOUNT_SUMMARY]
  let pathGas := root ++ [GAS_SUMMARY]
  let pathGasOld := root ++ [OLD_GAS_SUMMARY]
  (removeTree L depth pathSummaryOld).mapErr .treeMoveSummaryDB                                      -- :555-559
  (FS.call (fun fs => fs.createDir pathSummaryOld)).mapErr .treeMoveSummaryDB                        -- :561-565
  (removeTree L depth pathGasOld).mapErr .treeMoveSummaryDB                                          -- :567-571
  (FS.call (fun fs => fs.createDir pathGasOld)).mapErr .treeMoveSummaryDB                            -- :573-577
  (copyTree L depth pathSummary pathSummaryOld).mapErr .treeMoveSummaryDB                            -- :579-583
  (copyTree L depth pathGas pathGasOld).mapErr .treeMoveSummaryDB                                    -- :585-589

end BCT
