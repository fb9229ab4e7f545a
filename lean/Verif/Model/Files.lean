import Verif.Model.Serialize
/-
`dump` to a file and `load` from a file (itree_json_serialize.py 313-345, 456-484; itree_main.py 3083-3148).
-/
namespace ITree

open Json (J PV Env SErr Style)

/-- The file system as far as it is used: contents of the files by name, and the names of directories.  Simplification: the content of a file is a text (the bytes of the UTF-8 text or of the packed text are not told
apart from their characters); every write succeeds. (itree_json_serialize.py 313-345, 456-484) -/
structure Disk where
  file : String → Option (List Char)
  dir : String → Bool

/-- `os.path.exists` (itree_json_serialize.py 328-345, 468-484) -/
def Disk.has (d : Disk) (p : String) : Bool := (d.file p).isSome || d.dir p

/-- `open(p, 'wb').write(t)` (itree_json_serialize.py 338-345) -/
def Disk.write (d : Disk) (p : String) (t : List Char) : Disk := { d with file := fun q => if q = p then some t else d.file q }

/-- `gzip.compress` and `gzip.decompress` (`none` is the OSError for data that is no gzip data) (itree_json_serialize.py 338-345, 474-484) -/
structure Gzip where
  pack : List Char → List Char
  unpack : List Char → Option (List Char)

/-- exceptions of the file functions: FileExistsError, FileNotFoundError, IsADirectoryError, and those of the serializer (itree_json_serialize.py 328-345, 468-484) -/
inductive IOErr where
  | fileExists | notFound | isDir
  | ser (e : SErr)
  deriving DecidableEq, Repr

/-- `dump(o, file_path, pack, calc_hash, overwrite)` (itree_json_serialize.py 313-345) for a file name: the hash, or None for the result True.  The text is made before the file is opened.  At most `n` rounds. -/
def dumpFile (gz : Gzip) (sha : List Char → List Char) (n : Nat) (N : Names) (E : Env) (st : Style) (typeName : List Char) (pack calcHash overwrite : Bool) (h : Heap) (x : Id) (d : Disk) (path : String) :
    Option (Disk × Except IOErr (Option (List Char))) :=
  if d.has path && !overwrite then some (d, .error .fileExists)
  else if d.dir path then some (d, .error .fileExists)
  else (dataText n N E st h x).map fun r =>
    match r with
    | .error e => (d, .error (.ser e))
    | .ok data =>
      let hash := if calcHash then some (sha data) else none
      let text := withHeader st typeName hash data
      (d.write path (if pack then gz.pack text else text), .ok hash)

/-- `load(file_path, check_hash)` (itree_json_serialize.py 456-484) for a file name; as `loadsText` with `load_links=False` -/
def loadFile {σ ι : Type} (B : Builder σ ι) (gz : Gzip) (sha : List Char → List Char) (N : Names) (E : Env) (checkHash : Bool) (s : σ) (d : Disk) (path : String) : σ × Except IOErr ι :=
  match d.file path with
  | none => (s, .error (if d.dir path then .isDir else .notFound))
  | some b =>
    let r := loadsText B sha N E checkHash s ((gz.unpack b).getD b)
    (r.1, match r.2 with | .ok i => .ok i | .error e => .error (.ser e))

end ITree
