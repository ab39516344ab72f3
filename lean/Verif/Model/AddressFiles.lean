import Verif.Model.ChainStore
import Verif.Model.CachedMapStore

/-!
# The files about addresses, and the address object that reads them

Models the address part of chainstorage/concreteappendablechain.go (`appendTxo`, `appendTxoChi`, `Close`) with the
outputs after the first one of an address kept in the caching array store that the factory sets up
(chainstorage/concreteappendablechainfactory.go:117, 454, 675), `Address` of chainstorage/address.go, and the calls of
chainstorage/concretereadablechain.go that make one.

Simplifications.
* The hash store of the addresses is the list of hashes it was built from, as in `Verif.ChainStore`; `GetHashAtIndex`
  gives the hash at that place of the list (C55 for the places of first occurrences).
* The word file of first outputs is the list of its words, as in `Verif.ChainStore`.
-/

namespace Verif.AddressFiles

open Verif.ChainStore (Fail Words put get count indexOf testPoint)
open Verif.MapStore (Path FS Cfg MS)
open Verif.CachedMapStore (CMS)
open Verif.IAA (IAA)

/-- concreteappendablechainfactory.go:117: five digits per file, two per folder, five bytes per element. -/
def cfg (root : Path) : Cfg := { root, digitsPerFile := 5, digitsPerFolder := 2, elementByteSize := 5 }

/-- concretemapstorecreator.go:54: the number of elements the cache may hold. -/
def limit : Int := 8000000000 / 5

/-- A call that does not complete: it returns an error, panics, or never returns. -/
inductive Stop where
  | err
  | panic
  | hang
deriving DecidableEq, Repr

/-- The hash store of the addresses, the file `firsttxo`, and the array store `additionaltxos`. -/
structure Files where
  adr : List Bytes
  first : Words
  more : CMS

/-- `CreateFromHashStores` and `Open` (concreteappendablechainfactory.go:170-263, 443-457). -/
def start (root : Path) (otherDirs : Path → Bool) (adr : List Bytes) : Files :=
  { adr, first := [], more := CachedMapStore.create (cfg root) otherDirs limit }

/-- concreteappendablechain.go:505-560, 900-956: the output at height `h` pays `addr`. Every trimming loop of the
caching store is given `fuel` iterations. -/
def touch (c : Cfg) (fuel : Nat) (s : Files) (addr : Bytes) (h : Int) : Except Stop Files :=
  let a := indexOf s.adr addr
  if a = -1 then .error .err
  else if ¬ (count s.first > a) then
    match put 5 s.first a h with
    | .error _ => .error .err
    | .ok f =>
      if a = testPoint then
        match get f a with
        | .error _ => .error .err
        | .ok v => if v ≠ h then .error .panic else if v = 0 then .error .panic else .ok { s with first := f }
      else .ok { s with first := f }
  else
    match CachedMapStore.append c fuel s.more a.toNat h with
    | none => .error .hang
    | some m => .ok { s with more := m }

/-- The outputs of a chain, in order of height, from height `h`. -/
def fill (c : Cfg) (fuel : Nat) : List Bytes → Int → Files → Except Stop Files
  | [], _, s => .ok s
  | a :: as, h, s =>
    match touch c fuel s a h with
    | .error e => .error e
    | .ok s' => fill c fuel as (h + 1) s'

/-! ## Reading -/

/-- The array store as it is read: opened for reading only, or by the chain that is still being written. -/
inductive More where
  | closed (m : MS)
  | live (m : CMS)

/-- intarraymapstore.go:35-54 or cachedintarraymapstore.go:43-62 `GetArray`; `none` = panic. -/
def More.getArray (c : Cfg) (m : More) (k : Nat) : Option (More × List Int × Bool) :=
  match m with
  | .closed m => (MapStore.getArray c m k).map fun r => (.closed r.1, r.2.1, r.2.2)
  | .live m => (CachedMapStore.getArray c m k).map fun r => (.live r.1, r.2.1, r.2.2)

/-- The parts of `concreteReadableChain` about addresses. -/
structure Chain where
  adr : List Bytes
  first : Words
  more : More

/-- concreteappendablechain.go:973-996 `Close`, which flushes the array store (986), then
concreteappendablechainfactory.go:510-718 `OpenReadOnly`, with concretemapstorecreator.go:75-84 `OpenMapReadOnly`. -/
def reopen (c : Cfg) (s : Files) : Chain :=
  { adr := s.adr, first := s.first,
    more := .closed
      { fs := (CachedMapStore.flush c s.more).fs
        latestPath := [], latestNum := 0
        latest := IAA.new c.perFile c.elementByteSize
        olderPath := [], older := IAA.new c.perFile c.elementByteSize } }

/-- concreteappendablechain.go:53-81 `GetAsConcreteReadableChain`: reading from the chain that is being written. -/
def live (s : Files) : Chain := { adr := s.adr, first := s.first, more := .live s.more }

/-- address.go:9-14 `Address`, with the fields of its handle (handles.go:9-14). -/
structure Addr where
  hash : Bytes
  hashSpecified : Bool
  height : Int
  heightSpecified : Bool
  populated : Bool
  txos : List Int
deriving DecidableEq, Repr

/-- concretereadablechain.go:263-268 `AddressHandleByHeight` then 149-165 `AddressInterface`. -/
def byHeight (h : Int) : Addr := ⟨zeros 32, false, h, true, false, []⟩

/-- concretereadablechain.go:269-279 `AddressHandleByHash` then `AddressInterface`; `none` = error. -/
def byHash (ch : Chain) (x : Bytes) : Option Addr :=
  let a := indexOf ch.adr x
  if a = -1 then none else some (byHeight a)

/-- `AddressInterface` of a handle that has a hash only (as those of other chain sources do). -/
def ofHash (x : Bytes) : Addr := ⟨x, true, 0, false, false, []⟩

/-- `GetHashAtIndex`; `none` = error. -/
def hashAt (l : List Bytes) (h : Int) : Option Bytes := if h < 0 then none else l[h.toNat]?

/-- address.go:25-31: the handle with its hash; `none` = error. -/
def withHash (ch : Chain) (a : Addr) (h : Int) : Option Addr :=
  if a.hashSpecified then some a
  else (hashAt ch.adr h).map fun x => { a with hash := x, hashSpecified := true }

/-- address.go:16-49 `populate`: the chain and the address afterwards, and whether an error was returned;
`none` = panic. -/
def populate (c : Cfg) (ch : Chain) (a0 : Addr) : Option (Chain × Addr × Bool) :=
  let a1 := { a0 with txos := [] }
  let h := if a1.heightSpecified then a1.height else indexOf ch.adr a1.hash
  match withHash ch a1 h with
  | none => some (ch, a1, true)
  | some a2 =>
    match get ch.first h with
    | .error _ => some (ch, a2, true)
    | .ok f =>
      match ch.more.getArray c h.toNat with
      | none => none
      | some (m, l, e) =>
        if e then some ({ ch with more := m }, { a2 with txos := [f] }, true)
        else some ({ ch with more := m }, { a2 with txos := f :: l, populated := true }, false)

/-- A call on an address object. -/
inductive Call where
  | txoCount
  | nthTxo (n : Int)
  | hash
  | height

/-- What the caller sees: a number, the height in the output handle, a hash, or an error. -/
inductive Out where
  | num (n : Int)
  | txo (h : Int)
  | hash (b : Bytes)
  | error
deriving DecidableEq, Repr

/-- address.go:61-73, the part after the population: `none` = the index is out of range, which panics. -/
def nth (l : List Int) (n : Int) : Option Int := if n < 0 then none else l[n.toNat]?

/-- address.go:51-59 `TxoCount`, 61-73 `NthTxo`, 75-80 `Hash`, 86-88 `Height`; `none` = panic. -/
def call (c : Cfg) (ch : Chain) (a : Addr) : Call → Option (Chain × Addr × Out)
  | .txoCount =>
    if a.populated then some (ch, a, .num a.txos.length)
    else
      match populate c ch a with
      | none => none
      | some (ch', a', e) => some (ch', a', if e then .error else .num a'.txos.length)
  | .nthTxo n =>
    if a.populated then (nth a.txos n).map fun h => (ch, a, .txo h)
    else
      match populate c ch a with
      | none => none
      | some (ch', a', e) => if e then some (ch', a', .error) else (nth a'.txos n).map fun h => (ch', a', .txo h)
  | .hash =>
    if a.populated then some (ch, a, .hash a.hash)
    else (populate c ch a).map fun r => (r.1, r.2.1, .hash r.2.1.hash)
  | .height => some (ch, a, .num a.height)

/-- A sequence of calls on one address object; `none` = panic. -/
def calls (c : Cfg) : Chain → Addr → List Call → Option (List Out)
  | _, _, [] => some []
  | ch, a, x :: xs =>
    match call c ch a x with
    | none => none
    | some (ch', a', o) => (calls c ch' a' xs).map (o :: ·)

end Verif.AddressFiles
