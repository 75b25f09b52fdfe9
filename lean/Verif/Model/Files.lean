import Verif.Model.Base
/-!
# Files: tools.rs:18-31 and tools.rs:148-185

Not modelled: symbolic links, permissions, failing devices, other processes.
-/

namespace BCT

/-- A path, from the root of the file system: the names on the way. -/
abbrev Path := List String

/-- What a path can lead to. -/
inductive FileNode where
  | file (data : Bytes)
  | dir
  deriving DecidableEq, Repr

/-- A file system. Later entries for a path hide earlier ones. -/
structure FS where
  entries : List (Path × FileNode)

namespace FS

/-- What is at a path. The root is a directory. -/
def get (fs : FS) (p : Path) : Option FileNode :=
  if p = [] then some .dir else (fs.entries.find? (fun e => e.1 = p)).map (·.2)

/-- The file system with something new at a path. -/
def set (fs : FS) (p : Path) (n : FileNode) : FS := ⟨(p, n) :: fs.entries⟩

/-- `mkdir` of one directory; it is fine if there is one. -/
def mkdir (fs : FS) (p : Path) : Outcome Unit × FS :=
  match fs.get p with
  | some .dir => (.ok (), fs)
  | some (.file _) => (.err .io, fs)
  | none => (.ok (), fs.set p .dir)

/-- `fs::create_dir_all`: `base` exists, the directories `rest` below it are made one after the other. -/
def createDirs (fs : FS) (base : Path) : Path → Outcome Unit × FS
  | [] => (.ok (), fs)
  | n :: rest =>
    match fs.mkdir (base ++ [n]) with
    | (.ok _, fs) => createDirs fs (base ++ [n]) rest
    | r => r

/-- `fs::create_dir_all`. -/
def createDirAll (fs : FS) (p : Path) : Outcome Unit × FS := fs.createDirs [] p

/-- `File::create`: what was there before is truncated. -/
def create (fs : FS) (p : Path) : Outcome Unit × FS :=
  match fs.get p, fs.get p.dropLast with
  | some .dir, _ => (.err .io, fs)
  | _, some .dir => (.ok (), fs.set p (.file []))
  | _, _ => (.err .io, fs)

/-- Writing bytes from the start of an open file; what the file held beyond them stays. -/
def write (fs : FS) (p : Path) (data : Bytes) : FS :=
  match fs.get p with
  | some (.file old) => fs.set p (.file (data ++ old.drop data.length))
  | _ => fs

/-- `fs::copy`: opens the source, creates the target, then copies. (A file copied onto itself is emptied first.) -/
def copy (fs : FS) (source target : Path) : Outcome Unit × FS :=
  match fs.get source with
  | some (.file _) =>
    match fs.create target with
    | (.ok _, fs) =>
      match fs.get source with
      | some (.file data) => (.ok (), fs.write target data)
      | _ => (.err .io, fs)
    | r => r
  | _ => (.err .io, fs)

end FS

/-- `fs::read_dir`: the names in a directory, in whatever order the system lists them. -/
structure Listing where
  names : FS → Path → List String
  nodup : ∀ fs p, (names fs p).Nodup
  mem : ∀ fs p n, n ∈ names fs p ↔ (fs.get (p ++ [n])).isSome

/-- The loop of `copy_dir_all` (tools.rs:20-28), `self` is the recursive call. The directory is listed when the loop
begins. -/
def copyEntries (self : Path → Path → FS → Option (Outcome Unit × FS)) (src dst : Path) :
    List String → FS → Option (Outcome Unit × FS)
  | [], fs => some (.ok (), fs)
  | n :: names, fs =>
    match fs.get (src ++ [n]) with
    | some .dir =>                                                      -- :23-24
      match self (src ++ [n]) (dst ++ [n]) fs with
      | some (.ok _, fs) => copyEntries self src dst names fs
      | r => r
    | _ =>                                                              -- :25-27
      match fs.copy (src ++ [n]) (dst ++ [n]) with
      | (.ok _, fs) => copyEntries self src dst names fs
      | r => some r

/-- tools.rs:18-31 `copy_dir_all`, calling itself at most `depth` deep; `none` if it would have to go deeper. -/
def copyDirAll (L : Listing) : Nat → Path → Path → FS → Option (Outcome Unit × FS)
  | 0, _, _, _ => none
  | depth + 1, src, dst, fs =>
    match fs.createDirAll dst with                                      -- :19
    | (.ok _, fs) =>
      match fs.get src with
      | some .dir => copyEntries (copyDirAll L depth) src dst (L.names fs src) fs
      | _ => some (.err .io, fs)                                        -- :20 `read_dir(src)?`
    | r => some r

/-- zstd, as far as it is relied on: what the encoder writes for some data, and what the decoder reads from some bytes
(`none`: an error). -/
structure Zstd where
  encode : Bytes → Bytes
  decode : Bytes → Option Bytes
  roundtrip : ∀ data, decode (encode data) = some data

/-- tools.rs:148-165 `compress_to_file`. -/
def compressToFile (Z : Zstd) (outputFile : Path) (data : Bytes) (fs : FS) : Outcome Unit × FS :=
  match fs.create outputFile with                                       -- :150-151
  | (.ok _, fs) => (.ok (), fs.write outputFile (Z.encode data))        -- :153-162
  | (_, fs) => (.err .zstdCompress, fs)

/-- tools.rs:167-185 `decompress_from_file`. -/
def decompressFromFile (Z : Zstd) (filename : Path) (fs : FS) : Outcome Bytes :=
  match fs.get filename with
  | some (.file bytes) =>
    match Z.decode bytes with
    | some data => .ok data
    | none => .err .zstdDecompress
  | _ => .err .zstdDecompress

end BCT
