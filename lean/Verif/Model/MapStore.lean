import Verif.Model.IntArrayArray
import Verif.Model.NumberedFolders

/-!
# Array map stores over numbered folders

Models intarrayarray/intarraymapstore.go, intarrayarray/cachedintarraymapstore.go and the parts of
intarrayarray/concretemapstorecreator.go that set them up. The file system is files plus directories;
the only I/O failure modelled is "the parent directory / the file does not exist".
-/

namespace Verif.MapStore

open Verif.IAA (IAA)

/-- A path name. -/
abbrev Path := List Char

/-- A file system: contents of files, and which directories exist. -/
structure FS where
  files : Path → Option Bytes
  dirs : Path → Bool

/-- Directory part of a path: everything before the last separator. -/
def parent (p : Path) : Path := (p.reverse.dropWhile (· ≠ '/')).tail.reverse

/-- `os.MkdirAll`: the directory and all its ancestors exist afterwards. -/
def FS.mkdirAll (fs : FS) (p : Path) : FS :=
  { fs with dirs := fun q => fs.dirs q || q == p || (q ++ ['/']).isPrefixOf p }

/-- `os.WriteFile`: creates or replaces the file; `none` = error, its directory does not exist. -/
def FS.writeFile (fs : FS) (p : Path) (b : Bytes) : Option FS :=
  if fs.dirs (parent p) then some { fs with files := fun q => if q = p then some b else fs.files q }
  else none

/-- Settings: root folder (`folder/name`), digits per file, digits per folder level, element byte size.
intarrayarray/concretemapstorecreator.go:10-28. -/
structure Cfg where
  root : Path
  digitsPerFile : Nat
  digitsPerFolder : Nat
  elementByteSize : Nat

/-- intarrayarray/concretemapstorecreator.go:52,65: `arrayCountPerFile = 10^digitsPerFile`. -/
def Cfg.perFile (c : Cfg) : Nat := 10 ^ c.digitsPerFile

/-- intarraymapstore.go:21-28 `folderPath`, for the folders of array key `k`. -/
def Cfg.folderPath (c : Cfg) (k : Nat) : Path :=
  let fo := NumberedFolders.folders c.digitsPerFile c.digitsPerFolder k
  if fo = [] then c.root else c.root ++ '/' :: fo

/-- intarraymapstore.go:30-33 `filePath`, for array key `k`. -/
def Cfg.filePath (c : Cfg) (k : Nat) : Path :=
  c.folderPath k ++ '/' :: (NumberedFolders.filename c.digitsPerFile c.digitsPerFolder k ++ ".iaa".toList)

/-- intarrayarray/intarrayarray.go:81-114 `LoadFile(filepath)`: the array afterwards and whether an error was
returned; `none` = panic on malformed contents. -/
def loadFile (fs : FS) (a : IAA) (p : Path) : Option (IAA × Bool) :=
  match fs.files p with
  | none => some (IAA.loadMissing a, true)
  | some b =>
    match IAA.loadBytes a b with
    | some a' => some (a', false)
    | none => none

/-- intarraymapstore.go:8-19 `IntArrayMapStore` together with the file system it works on. -/
structure MS where
  fs : FS
  latestPath : Path
  latestNum : Nat
  latest : IAA
  olderPath : Path
  older : IAA

/-- concretemapstorecreator.go:34-45 `CreateMap` (fresh empty directory) followed by `OpenMap` (62-72). -/
def create (c : Cfg) (otherDirs : Path → Bool) : MS :=
  { fs := { files := fun _ => none, dirs := fun q => otherDirs q || q == c.root }
    latestPath := [], latestNum := 0
    latest := IAA.new c.perFile c.elementByteSize
    olderPath := [], older := IAA.new c.perFile c.elementByteSize }

/-- Outcome of a store operation: success, returned error, or panic. -/
inductive Res (α : Type) where
  | ok (a : α)
  | err (a : α)
  | panic

/-- intarraymapstore.go:56-124 `AppendToArray`. -/
def append (c : Cfg) (s : MS) (k : Nat) (v : Int) : Res MS :=
  let num := NumberedFolders.fileNum c.digitsPerFile c.digitsPerFolder k
  let folderPath := c.folderPath k
  let p := c.filePath k
  let i := k % c.perFile
  -- 61-66: already the latest
  if s.latestPath = p then .ok { s with latest := IAA.appendToArray s.latest i v }
  -- 68-89: later than the latest
  else if num > s.latestNum then
    -- 70-72: save the previous latest; the error is ignored
    let fs1 := if s.latestPath ≠ [] then
        (s.fs.writeFile s.latestPath (IAA.saveBytes s.latest)).getD s.fs
      else s.fs
    let fs2 := fs1.mkdirAll folderPath
    match loadFile fs2 s.latest p with
    | none => .panic
    | some (l, _) =>
      .ok { s with fs := fs2, latestPath := p, latestNum := num, latest := IAA.appendToArray l i v }
  -- 94-97: same as the existing older
  else if s.olderPath = p then .ok { s with older := IAA.appendToArray s.older i v }
  else if s.olderPath ≠ [] then
    -- 100-111: make the *new* file's folder, save the previous older
    let fs1 := s.fs.mkdirAll folderPath
    match fs1.writeFile s.olderPath (IAA.saveBytes s.older) with
    | none => .err { s with fs := fs1 }
    | some fs2 =>
      match loadFile fs2 s.older p with
      | none => .panic
      | some (o, _) => .ok { s with fs := fs2, olderPath := p, older := IAA.appendToArray o i v }
  else
    -- 114-121
    match loadFile s.fs s.older p with
    | none => .panic
    | some (o, _) => .ok { s with olderPath := p, older := IAA.appendToArray o i v }

/-- intarraymapstore.go:127-133: `FlushFile`, the older file; `none` = error returned. -/
def flushOlder (s : MS) : Option MS :=
  if s.olderPath ≠ [] then
    match s.fs.writeFile s.olderPath (IAA.saveBytes s.older) with
    | none => none
    | some fs => some { s with fs, olderPath := [] }
  else some s

/-- intarraymapstore.go:126-143 `FlushFile` (also `Sync`, 145-147). -/
def flush (s : MS) : Res MS :=
  match flushOlder s with
  | none => .err s
  | some s1 =>
    if s1.latestPath ≠ [] then
      match s1.fs.writeFile s1.latestPath (IAA.saveBytes s1.latest) with
      | none => .err s1
      | some fs => .ok { s1 with fs, latestPath := [], latestNum := 0 }
    else .ok s1

/-- intarraymapstore.go:35-54 `GetArray`: new state, the slice returned and whether an error was returned;
`none` = panic. -/
def getArray (c : Cfg) (s : MS) (k : Nat) : Option (MS × List Int × Bool) :=
  match flush s with
  | .panic => none
  | .err s1 => some (s1, [], true)
  | .ok s1 =>
    match loadFile s1.fs (IAA.new c.perFile c.elementByteSize) (c.filePath k) with
    | none => none
    | some (_, true) => some (s1, [], true)
    | some (a, false) => some (s1, IAA.getArray a (k % c.perFile), false)

/-- A client call. -/
inductive Op where
  | append (k : Nat) (v : Int)
  | get (k : Nat)
  | flush

/-- What the client sees. -/
inductive Out where
  | done
  | error
  | array (l : List Int) (error : Bool)
deriving DecidableEq

/-- Perform one call; `none` = panic. -/
def step (c : Cfg) (s : MS) : Op → Option (MS × Out)
  | .append k v =>
    match append c s k v with
    | .ok s' => some (s', .done)
    | .err s' => some (s', .error)
    | .panic => none
  | .get k =>
    match getArray c s k with
    | some (s', l, e) => some (s', .array l e)
    | none => none
  | .flush =>
    match flush s with
    | .ok s' => some (s', .done)
    | .err s' => some (s', .error)
    | .panic => none

/-- Perform a session; `none` = panic. -/
def run (c : Cfg) (s : MS) : List Op → Option (MS × List Out)
  | [] => some (s, [])
  | op :: ops =>
    match step c s op with
    | none => none
    | some (s', o) =>
      match run c s' ops with
      | none => none
      | some (s'', os) => some (s'', o :: os)

end Verif.MapStore
