import Verif.Model.CachedMapStore

/-!
# Killing the process while the caching array store saves its files

The store of Verif.Model.CachedMapStore, seen one disk operation at a time. Line numbers are of
intarrayarray/cachedintarraymapstore.go unless another file is named.
-/

namespace Verif.KilledSave

open Verif.IAA (IAA)
open Verif.MapStore (Path FS Cfg Op)
open Verif.CachedMapStore

/-- What the store asks of the disk. `os.WriteFile` (intarrayarray/intarrayarray.go:74) opens the file with
`O_CREATE|O_TRUNC`, which empties it, and then writes the bytes. -/
inductive DiskOp where
  | mkdir (p : Path)
  | truncate (p : Path)
  | write (p : Path) (b : Bytes)

/-- The effect of one disk operation that is carried out in full. A file is opened only if its directory
exists. -/
def DiskOp.apply (fs : FS) : DiskOp → FS
  | .mkdir p => fs.mkdirAll p
  | .truncate p => (fs.writeFile p []).getD fs
  | .write p b => (fs.writeFile p b).getD fs

/-- 112-119 and 158-166: the disk operations that save one cached entry. -/
def saveOps (c : Cfg) (e : Entry) : List DiskOp :=
  [.mkdir e.folderPath, .truncate (filePath2 c e.key), .write (filePath2 c e.key) (IAA.saveBytes e.iaa)]

/-- 91-93: the entries saved by the trimming loop, in the order they are saved. -/
def trimSaves (c : Cfg) (exclude : Path) : Nat → CMS → List Entry
  | 0, _ => []
  | fuel+1, s =>
    if s.count ≥ s.limit then
      (oldest exclude s.counter s.cache).toList ++ trimSaves c exclude fuel (trimCache c s exclude)
    else []

/-- 64-95, 128-151: the entries saved by `AppendToArray`. -/
def appendSaves (c : Cfg) (fuel : Nat) (s : CMS) (k : Nat) : List Entry :=
  if s.cache.any (fun e => e.key = keyOf c k) then []
  else
    match MapStore.loadFile s.fs (IAA.new c.perFile c.elementByteSize) (c.filePath k) with
    | none => []
    | some (a, _) =>
      trimSaves c (keyOf c k) fuel
        { s with
          cache := s.cache ++ [{ key := keyOf c k, folderPath := c.folderPath k, iaa := a, lastAccess := 0 }]
          count := s.count + a.elementTally }

/-- The entries saved by one call. `FlushFile` (153-167), and `GetArray` which calls it (44), save the whole
cache in the order in which Go happens to walk the map: `order`. -/
def saves (c : Cfg) (order : List Entry → List Entry) (fuel : Nat) (s : CMS) : Op → List Entry
  | .append k _ => appendSaves c fuel s k
  | .get _ => order s.cache
  | .flush => order s.cache

/-- The disk operations of one call. -/
def diskOps (c : Cfg) (order : List Entry → List Entry) (fuel : Nat) (s : CMS) (op : Op) : List DiskOp :=
  (saves c order fuel s op).flatMap (saveOps c)

/-- The process is killed when `n` of the disk operations `ops` are complete; if the next one writes, the
first `m` bytes of it have reached the file. -/
def crash (fs : FS) (ops : List DiskOp) (n m : Nat) : FS :=
  let fs1 := (ops.take n).foldl DiskOp.apply fs
  match ops[n]? with
  | some (.write p b) => DiskOp.apply fs1 (.write p (b.take m))
  | _ => fs1

/-- The file emptied but not yet written in full when `n` disk operations are complete. -/
def halfWritten (ops : List DiskOp) (n : Nat) : Option Path :=
  match ops[n]? with
  | some (.write p _) => some p
  | _ => none

/-- A session killed when `n` of its disk operations are complete: the disk. -/
def killed (c : Cfg) (order : List Entry → List Entry) (fuel : Nat) : CMS → List Op → Nat → Nat → FS
  | s, [], _, _ => s.fs
  | s, op :: ops, n, m =>
    if n < (diskOps c order fuel s op).length then crash s.fs (diskOps c order fuel s op) n m
    else
      match step c fuel s op with
      | none => s.fs
      | some (s', _) => killed c order fuel s' ops (n - (diskOps c order fuel s op).length) m

/-- A session killed when `n` of its disk operations are complete: the file it was writing, if any. -/
def saving (c : Cfg) (order : List Entry → List Entry) (fuel : Nat) : CMS → List Op → Nat → Option Path
  | _, [], _ => none
  | s, op :: ops, n =>
    if n < (diskOps c order fuel s op).length then halfWritten (diskOps c order fuel s op) n
    else
      match step c fuel s op with
      | none => none
      | some (s', _) => saving c order fuel s' ops (n - (diskOps c order fuel s op).length)

/-- concretemapstorecreator.go:47-59 `OpenMap` with caching on a disk that already holds files. -/
def reopen (fs : FS) (limit : Int) : CMS := { fs, limit, count := 0, counter := 0, cache := [] }

end Verif.KilledSave
