import Verif.Model.MapStore

/-!
# The caching array map store

Models intarrayarray/cachedintarraymapstore.go. Line numbers are of that file.
-/

namespace Verif.CachedMapStore

open Verif.IAA (IAA)
open Verif.MapStore (Path FS Cfg)

/-- 64-72 and 140-146: the cache key `foldersFilename` of array key `k`. -/
def keyOf (c : Cfg) (k : Nat) : Path :=
  let fo := NumberedFolders.folders c.digitsPerFile c.digitsPerFolder k
  let fi := NumberedFolders.filename c.digitsPerFile c.digitsPerFolder k
  if fo = [] then fi else fo ++ '/' :: fi

/-- 38-41 `filePath2`. -/
def filePath2 (c : Cfg) (key : Path) : Path := c.root ++ '/' :: (key ++ ".iaa".toList)

/-- One cached file: the three Go maps (19-21) are filled and emptied together under the same key, so they
are one record here. `iaa` is the `IntArrayArray` *value* stored in the Go map. -/
structure Entry where
  key : Path
  folderPath : Path
  iaa : IAA
  lastAccess : Nat

/-- 8-22 `CachedIntArrayMapStore` with the file system it works on. -/
structure CMS where
  fs : FS
  limit : Int
  count : Int
  counter : Nat
  cache : List Entry

/-- concretemapstorecreator.go:34-45 `CreateMap` then 47-59 `OpenMap` with caching; the limit is a parameter
(the code uses `8000000000 / elementByteSize`). -/
def create (c : Cfg) (otherDirs : Path → Bool) (limit : Int) : CMS :=
  { fs := { files := fun _ => none, dirs := fun q => otherDirs q || q == c.root }
    limit, count := 0, counter := 0, cache := [] }

/-- 98-106: scan for the entry with the smallest last access strictly below the counter, other than the
excluded one. (Go map order is unspecified; the last-access values of eligible entries are distinct.) -/
def oldest (exclude : Path) (counter : Nat) (cache : List Entry) : Option Entry :=
  (cache.foldl (fun (acc : Nat × Option Entry) e =>
    if e.lastAccess < acc.1 ∧ e.key ≠ exclude then (e.lastAccess, some e) else acc) (counter, none)).2

/-- 111-119: `MkdirAll` then `SaveFile` of a cached entry. With its folder just made, the save succeeds. -/
def save (c : Cfg) (fs : FS) (e : Entry) : FS :=
  let fs1 := fs.mkdirAll e.folderPath
  (fs1.writeFile (filePath2 c e.key) (IAA.saveBytes e.iaa)).getD fs1

/-- 97-126 `trimCache`. When no entry is eligible the Go code looks up the empty key, calls
`os.MkdirAll("")`, which fails, and returns that error with nothing changed. -/
def trimCache (c : Cfg) (s : CMS) (exclude : Path) : CMS :=
  match oldest exclude s.counter s.cache with
  | none => s
  | some e =>
    { s with
      fs := save c s.fs e
      count := s.count - e.iaa.elementTally
      cache := s.cache.filter (fun x => x.key ≠ e.key) }

/-- 91-93: `for count >= limit { trimCache }`, with at most `fuel` iterations; `none` = still looping. -/
def trimLoop (c : Cfg) (exclude : Path) : Nat → CMS → Option CMS
  | 0, s => if s.count ≥ s.limit then none else some s
  | fuel+1, s => if s.count ≥ s.limit then trimLoop c exclude fuel (trimCache c s exclude) else some s

/-- 64-95 `loadIntoCache`: afterwards the entry for `k` is in the cache. -/
def loadIntoCache (c : Cfg) (fuel : Nat) (s : CMS) (k : Nat) : Option CMS :=
  if s.cache.any (fun e => e.key = keyOf c k) then some s
  else
    match MapStore.loadFile s.fs (IAA.new c.perFile c.elementByteSize) (c.filePath k) with
    | none => none
    | some (a, _) =>
      trimLoop c (keyOf c k) fuel
        { s with
          cache := s.cache ++ [{ key := keyOf c k, folderPath := c.folderPath k, iaa := a, lastAccess := 0 }]
          count := s.count + a.elementTally }

/-- 128-151 `AppendToArray`. The append is made through a *copy* of the cached value: the map inside is
shared, so the elements are kept, but the copy's incremented `elementTally` is lost. `none` = the trimming
loop does not end within `fuel` iterations (or a malformed file). -/
def append (c : Cfg) (fuel : Nat) (s : CMS) (k : Nat) (v : Int) : Option CMS :=
  match loadIntoCache c fuel s k with
  | none => none
  | some s1 =>
    some { s1 with
      count := s1.count + 1
      counter := s1.counter + 1
      cache := s1.cache.map fun e =>
        if e.key = keyOf c k then
          { e with
            iaa := { IAA.appendToArray e.iaa (k % c.perFile) v with elementTally := e.iaa.elementTally }
            lastAccess := s1.counter + 1 }
        else e }

/-- 153-174 `FlushFile`. -/
def flush (c : Cfg) (s : CMS) : CMS :=
  { s with fs := s.cache.foldl (save c) s.fs, cache := [], count := 0, counter := 0 }

/-- 43-62 `GetArray`. -/
def getArray (c : Cfg) (s : CMS) (k : Nat) : Option (CMS × List Int × Bool) :=
  let s1 := flush c s
  match MapStore.loadFile s1.fs (IAA.new c.perFile c.elementByteSize) (c.filePath k) with
  | none => none
  | some (_, true) => some (s1, [], true)
  | some (a, false) => some (s1, IAA.getArray a (k % c.perFile), false)

/-- Perform one call. -/
def step (c : Cfg) (fuel : Nat) (s : CMS) : MapStore.Op → Option (CMS × MapStore.Out)
  | .append k v =>
    match append c fuel s k v with
    | some s' => some (s', .done)
    | none => none
  | .get k =>
    match getArray c s k with
    | some (s', l, e) => some (s', .array l e)
    | none => none
  | .flush => some (flush c s, .done)

/-- Perform a session; every trimming loop is given `fuel` iterations. -/
def run (c : Cfg) (fuel : Nat) (s : CMS) : List MapStore.Op → Option (CMS × List MapStore.Out)
  | [] => some (s, [])
  | op :: ops =>
    match step c fuel s op with
    | none => none
    | some (s', o) =>
      match run c fuel s' ops with
      | none => none
      | some (s'', os) => some (s'', o :: os)

end Verif.CachedMapStore
