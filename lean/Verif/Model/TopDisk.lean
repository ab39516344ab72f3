import Verif.Model.FaultyFile
import Verif.Model.TierTop

/-!
# The top tier of a cake over its file, on a disk that can fail

weddingcakeback/tiertop.go:74-127, 163-220, 252-337 and wordfile/hashfile.go over `Verif.Model.FaultyFile`.

Simplifications.
* Of a bake only what it does to the top tier is modelled; in it only the `Sync` of the hash file can fail.
* The hashes passed are not changed by the caller afterwards (C68 is about that).
* The file is opened with `O_APPEND`. A write then goes to the end of the file, which is where the position is whenever
  the buffer is written, since the buffer is made after a seek to the end and nothing else is ever written; and
  `os.File.WriteAt` returns an error at once (Go standard library).
* `FirstPresentationIndex.bin` is the number in it.
-/

namespace Verif.TopDisk

open Verif.Faulty Verif.TierTop

/-- tiertop.go:21-33; `count` is the `hashCount` of hashfile.go:7-12. -/
structure FTop where
  first : Int
  slice : List Bytes
  map : Bytes → Option Nat
  count : Nat
  file : FF

/-- The whole hashes in a file. -/
def hashesOf (data : Bytes) : List Bytes := (List.range (data.length / 32)).map fun i => (data.drop (i * 32)).take 32

/-- tiertop.go:74-127 `Open` of a file with the given bytes; `none` is a panic. -/
def openTop (data : Bytes) (first : Int) (fates : Fates) : Option FTop :=
  if data.length / 32 > 65535 then none
  else some ⟨first, hashesOf data, fill (hashesOf data) 0 fun _ => none, data.length / 32, openFile data fates⟩

/-- appendoptimized.go:59-113 `WriteAt` on a file opened with `O_APPEND`. -/
def appendAt (a : FF) (off : Nat) (p : Bytes) : FF × Bool :=
  match a.buf with
  | some _ => if off = a.nextAppend then Faulty.writeAt a off p else ((flush a).1, false)
  | none => if off = a.totalSize then Faulty.writeAt a off p else (a, false)

/-- donutforestwrite.go:28-265 `Write` as far as it touches the top tier: tiertop.go:252-276 `AppendHashesFile` syncs the hash file,
and tiertop.go:280-337 `MakeEmptyAfterBaking` closes it, adds its count to the first index and opens new empty files. -/
def bake (t : FTop) : FTop × Bool :=
  match Faulty.sync t.file with
  | (f, false) => ({ t with file := f }, false)
  | (f, true) =>
    match Faulty.close f with
    | (_, false) => ({ t with file := f }, false)
    | (_, true) => (⟨t.first + t.count, [], fun _ => none, 0, openFile [] f.disk.fates⟩, true)

/-- tiertop.go:180-216 `AppendHash` with room for `cap` hashes (65535 in the code), with hashfile.go:32-45, 62-69; `none` is a panic,
the inner `none` an error. -/
def append (cap : Nat) (t : FTop) (h : Bytes) : Option (FTop × Option Int) :=
  let index := t.slice.length
  if index ≥ cap then none
  else if h.length ≠ 32 then none
  else
    let t' := { t with map := setMap t.map h index, slice := t.slice ++ [h] }
    match appendAt t.file (t.count * 32) h with
    | (f, false) => some ({ t' with file := f }, none)
    | (f, true) =>
      let t'' := { t' with file := f, count := t.count + 1 }
      if index + 1 ≠ cap then some (t'', some (globalOfTop index t.first))
      else
        match bake t'' with
        | (t3, false) => some (t3, none)
        | (t3, true) => some (t3, some (globalOfTop index t.first))

/-- What a client does. -/
inductive Op where
  | append (h : Bytes)
  | sync
deriving DecidableEq, Repr

/-- What the client is told: the index or an error; whether `Sync` returned nil. -/
inductive Out where
  | index (g : Option Int)
  | synced (ok : Bool)
deriving DecidableEq, Repr

/-- One call; tiertop.go:218-220 `Sync`. -/
def step (cap : Nat) (t : FTop) : Op → Option (FTop × Out)
  | .append h => (append cap t h).map fun r => (r.1, .index r.2)
  | .sync => let r := Faulty.sync t.file; some ({ t with file := r.1 }, .synced r.2)

/-- A session; the client goes on after errors. -/
def run (cap : Nat) (t : FTop) : List Op → Option (FTop × List Out)
  | [] => some (t, [])
  | op :: ops =>
    match step cap t op with
    | none => none
    | some (t', o) => (run cap t' ops).map fun r => (r.1, o :: r.2)

/-- tiertop.go:163-178 `Close`: the bytes left in the file, and whether it returned nil. -/
def close (t : FTop) : Bytes × Bool := Faulty.close t.file

/-- The tier as lookups see it (tiertop.go:130-152). -/
def FTop.top (t : FTop) : Top := ⟨t.first, t.slice.map .own, t.map, []⟩

end Verif.TopDisk
