import Verif.Model.CachedMapStore

/-!
# The caching array store on a disk that can fail

intarrayarray/cachedintarraymapstore.go as in Verif.Model.CachedMapStore, with every read and every save at the mercy of
the disk. Line numbers are of that file unless another one is named.
-/

namespace Verif.FaultyArrays

open Verif.IAA (IAA)
open Verif.MapStore (Path FS Cfg Op Out)
open Verif.CachedMapStore (CMS Entry keyOf filePath2 oldest)

/-- What becomes of a save: `os.MkdirAll` fails; `os.WriteFile` cannot open the file; it has emptied it and written `m` bytes
when it fails; all goes well. (`os.MkdirAll` that fails makes nothing here; it may make some of the folders.) -/
inductive Fate where
  | noDir
  | refused
  | cut (m : Nat)
  | ok
deriving DecidableEq, Repr

/-- 8-22 the store, with what will become of the reads and the saves to come; `false` is a read that fails. -/
structure F where
  s : CMS
  reads : Nat → Bool
  saves : Nat → Fate

/-- 112-119 and 158-166: the file system after the save of one cached entry, and whether it returned nil. -/
def save (c : Cfg) (fate : Fate) (fs : FS) (e : Entry) : FS × Bool :=
  match fate with
  | .noDir => (fs, false)
  | .refused => (fs.mkdirAll e.folderPath, false)
  | .cut m =>
    let fs1 := fs.mkdirAll e.folderPath
    ((fs1.writeFile (filePath2 c e.key) ((IAA.saveBytes e.iaa).take m)).getD fs1, false)
  | .ok => (CachedMapStore.save c fs e, true)

/-- 97-126 `trimCache`; the error it returns is not looked at by its caller (92). -/
def trimCache (c : Cfg) (x : F) (exclude : Path) : F :=
  match oldest exclude x.s.counter x.s.cache with
  | none => x
  | some e =>
    let rest := fun n => x.saves (n + 1)
    match save c (x.saves 0) x.s.fs e with
    | (fs, false) => { x with s := { x.s with fs := fs }, saves := rest }
    | (fs, true) =>
      { x with
        s := { x.s with fs := fs, count := x.s.count - e.iaa.elementTally, cache := x.s.cache.filter (fun y => y.key ≠ e.key) }
        saves := rest }

/-- 91-93: the trimming loop, with at most `fuel` iterations; `none`: it is still looping. -/
def trimLoop (c : Cfg) (exclude : Path) : Nat → F → Option F
  | 0, x => if x.s.count ≥ x.s.limit then none else some x
  | fuel+1, x => if x.s.count ≥ x.s.limit then trimLoop c exclude fuel (trimCache c x exclude) else some x

/-- intarrayarray/intarrayarray.go:81-91 `LoadFile` into a new array of arrays: if `os.ReadFile` fails the array is empty and the error is
returned. `none` is a panic on malformed contents. -/
def loadFile (c : Cfg) (read : Bool) (fs : FS) (p : Path) : Option (IAA × Bool) :=
  if read = true then MapStore.loadFile fs (IAA.new c.perFile c.elementByteSize) p
  else some (IAA.loadMissing (IAA.new c.perFile c.elementByteSize), true)

/-- 64-95 `loadIntoCache`. The error of `LoadFile` is not looked at (82-84). -/
def loadIntoCache (c : Cfg) (fuel : Nat) (x : F) (k : Nat) : Option F :=
  if x.s.cache.any (fun e => e.key = keyOf c k) then some x
  else
    match loadFile c (x.reads 0) x.s.fs (c.filePath k) with
    | none => none
    | some (a, _) =>
      trimLoop c (keyOf c k) fuel
        { x with
          s := { x.s with
            cache := x.s.cache ++ [{ key := keyOf c k, folderPath := c.folderPath k, iaa := a, lastAccess := 0 }]
            count := x.s.count + a.elementTally }
          reads := fun n => x.reads (n + 1) }

/-- 128-151 `AppendToArray`, which returns nil whenever it returns. -/
def append (c : Cfg) (fuel : Nat) (x : F) (k : Nat) (v : Int) : Option F :=
  match loadIntoCache c fuel x k with
  | none => none
  | some x1 =>
    some { x1 with
      s := { x1.s with
        count := x1.s.count + 1
        counter := x1.s.counter + 1
        cache := x1.s.cache.map fun e =>
          if e.key = keyOf c k then
            { e with
              iaa := { IAA.appendToArray e.iaa (k % c.perFile) v with elementTally := e.iaa.elementTally }
              lastAccess := x1.s.counter + 1 }
          else e } }

/-- 154-167: the saves of `FlushFile`, up to the first that fails. -/
def saveAll (c : Cfg) : List Entry → FS → (Nat → Fate) → FS × (Nat → Fate) × Bool
  | [], fs, saves => (fs, saves, true)
  | e :: es, fs, saves =>
    match save c (saves 0) fs e with
    | (fs', false) => (fs', fun n => saves (n + 1), false)
    | (fs', true) => saveAll c es fs' fun n => saves (n + 1)

/-- 153-174 `FlushFile`, in the order in which Go happens to walk the map; also `Sync` (176-178). -/
def flush (c : Cfg) (order : List Entry → List Entry) (x : F) : F × Bool :=
  match saveAll c (order x.s.cache) x.s.fs x.saves with
  | (fs, saves, false) => ({ x with s := { x.s with fs := fs }, saves := saves }, false)
  | (fs, saves, true) => ({ x with s := { x.s with fs := fs, cache := [], count := 0, counter := 0 }, saves := saves }, true)

/-- 43-62 `GetArray`. -/
def getArray (c : Cfg) (order : List Entry → List Entry) (x : F) (k : Nat) : Option (F × List Int × Bool) :=
  match flush c order x with
  | (x1, false) => some (x1, [], true)
  | (x1, true) =>
    let x2 := { x1 with reads := fun n => x1.reads (n + 1) }
    match loadFile c (x1.reads 0) x1.s.fs (c.filePath k) with
    | none => none
    | some (_, true) => some (x2, [], true)
    | some (a, false) => some (x2, IAA.getArray a (k % c.perFile), false)

/-- One call. `none`: a panic, or it does not return within `fuel` iterations. -/
def step (c : Cfg) (order : List Entry → List Entry) (fuel : Nat) (x : F) : Op → Option (F × Out)
  | .append k v => (append c fuel x k v).map fun x' => (x', .done)
  | .get k => (getArray c order x k).map fun r => (r.1, .array r.2.1 r.2.2)
  | .flush =>
    match flush c order x with
    | (x', true) => some (x', .done)
    | (x', false) => some (x', .error)

/-- A session; the client goes on after errors. -/
def run (c : Cfg) (order : List Entry → List Entry) (fuel : Nat) (x : F) : List Op → Option (F × List Out)
  | [] => some (x, [])
  | op :: ops =>
    match step c order fuel x op with
    | none => none
    | some (x', o) => (run c order fuel x' ops).map fun r => (r.1, o :: r.2)

/-- concretemapstorecreator.go:47-59 `OpenMap` with caching. -/
def openStore (fs : FS) (limit : Int) (reads : Nat → Bool) (saves : Nat → Fate) : F :=
  ⟨{ fs, limit, count := 0, counter := 0, cache := [] }, reads, saves⟩

/-! ## The store without a cache -/

/-- intarraymapstore.go:56-124 `AppendToArray` with the save of the previous file (71) refused if `refused`; nothing else fails. -/
def appendUncached (refused : Bool) (c : Cfg) (s : MapStore.MS) (k : Nat) (v : Int) : MapStore.Res MapStore.MS :=
  let num := NumberedFolders.fileNum c.digitsPerFile c.digitsPerFolder k
  let p := c.filePath k
  if s.latestPath = p then MapStore.append c s k v
  else if num > s.latestNum then
    let fs1 := if s.latestPath ≠ [] then (if refused = true then s.fs else (s.fs.writeFile s.latestPath (IAA.saveBytes s.latest)).getD s.fs) else s.fs
    let fs2 := fs1.mkdirAll (c.folderPath k)
    match MapStore.loadFile fs2 s.latest p with
    | none => .panic
    | some (l, _) => .ok { s with fs := fs2, latestPath := p, latestNum := num, latest := IAA.appendToArray l (k % c.perFile) v }
  else MapStore.append c s k v

end Verif.FaultyArrays
