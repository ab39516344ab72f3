import Verif.Model.FaultyFile
import Verif.Model.HashesChain

/-!
# The chain of hashes on a disk that can fail

chainstorage/concretehasheschain.go, and phase one of jobs/intrinsicparallel.go which gathers the hashes with it, with every error
return, over the files of Model/FaultyFile. A block is as in Model/HashesChain; the source of the blocks gives no errors, and making
and opening the files succeeds.
-/

namespace Verif.FaultyHashes

open Faulty (FF Fates)
open HashesChain (Blk Folder)

/-- wordfile/hashfile.go:7-12 `HashFile`. -/
structure HF where
  file : FF
  hashCount : Nat
deriving Repr, DecidableEq

/-- wordfile/hashfile.go:62-69 `AppendHash`, with 33-44 `WriteHashAt`: whether it returned nil. -/
def appendHash (h : HF) (v : Bytes) : HF × Bool :=
  match Faulty.writeAt h.file (h.hashCount * 32) v with
  | (f, false) => ({ h with file := f }, false)
  | (f, true) => (⟨f, h.hashCount + 1⟩, true)

/-- concretehasheschain.go:13-23 `concreteHashesChain`. -/
structure Chain where
  blk : HF
  trn : HF
  adr : HF

/-- What a call returns. -/
inductive Res where
  | nil
  | error
  | panics
deriving Repr, DecidableEq

/-- concretehasheschain.go:88-110: the addresses of a transaction in `AppendHashesCri`. -/
def appendAddrsCri (h : HF) : List Bytes → HF × Bool
  | [] => (h, true)
  | a :: as =>
    match appendHash h a with
    | (h, false) => (h, false)
    | (h, true) => appendAddrsCri h as

/-- concretehasheschain.go:165-174: the addresses of a transaction in `AppendHashesChi`. The error of `AppendHash` (173) is assigned
and not looked at; the next `GetTxoInfo` or `GetTransactionInfo` overwrites it, and the function ends with `return nil`. -/
def appendAddrsChi (h : HF) : List Bytes → HF
  | [] => h
  | a :: as => appendAddrsChi (appendHash h a).1 as

/-- concretehasheschain.go:62-111 (`chi = false`) and 154-175 (`chi = true`): the loop over the transactions. -/
def appendTxs (chi : Bool) (c : Chain) : List (Bytes × List Bytes) → Chain × Bool
  | [] => (c, true)
  | t :: ts =>
    match appendHash c.trn t.1 with
    | (h, false) => ({ c with trn := h }, false)
    | (h, true) =>
      if chi = true then appendTxs chi ⟨c.blk, h, appendAddrsChi c.adr t.2⟩ ts
      else
        match appendAddrsCri c.adr t.2 with
        | (a, false) => (⟨c.blk, h, a⟩, false)
        | (a, true) => appendTxs chi ⟨c.blk, h, a⟩ ts

/-- concretehasheschain.go:28-113 `AppendHashesCri` (`chi = false`) and 115-178 `AppendHashesChi` (`chi = true`). -/
def append (chi : Bool) (c : Chain) (b : Blk) : Chain × Res :=
  match appendHash c.blk b.hash with
  | (h, false) => ({ c with blk := h }, .error)
  | (h, true) =>
    if b.txs.length = 0 then ({ c with blk := h }, .panics)
    else
      match appendTxs chi { c with blk := h } b.txs with
      | (c, true) => (c, .nil)
      | (c, false) => (c, .error)

/-- jobs/intrinsicparallel.go:326-352 and 410-437: the loop over the blocks, which ends at the first error. -/
def gather (chi : Bool) (c : Chain) : List Blk → Chain × Res
  | [] => (c, .nil)
  | b :: bs =>
    match append chi c b with
    | (c, .nil) => gather chi c bs
    | r => r

/-- concretehasheschain.go:186-200 `Sync`, whether it returned nil. -/
def sync (c : Chain) : Chain × Bool :=
  match Faulty.sync c.blk.file with
  | (f, false) => ({ c with blk := ⟨f, c.blk.hashCount⟩ }, false)
  | (f, true) =>
    let c := { c with blk := ⟨f, c.blk.hashCount⟩ }
    match Faulty.sync c.trn.file with
    | (f, false) => ({ c with trn := ⟨f, c.trn.hashCount⟩ }, false)
    | (f, true) =>
      let c := { c with trn := ⟨f, c.trn.hashCount⟩ }
      match Faulty.sync c.adr.file with
      | (f, ok) => ({ c with adr := ⟨f, c.adr.hashCount⟩ }, ok)

/-- concretehasheschain.go:202-207 `CountHashes`. -/
def count (c : Chain) : Nat × Nat × Nat := (c.blk.hashCount, c.trn.hashCount, c.adr.hashCount)

/-- concretehasheschain.go:180-184 `Close`: the files that are left. It has no result; the errors of the three files are dropped. -/
def close (c : Chain) : Folder :=
  ⟨some (Faulty.close c.blk.file).1, some (Faulty.close c.trn.file).1, some (Faulty.close c.adr.file).1⟩

/-- All three files closed without an error (nobody looks). -/
def closesWell (c : Chain) : Bool :=
  (Faulty.close c.blk.file).2 && (Faulty.close c.trn.file).2 && (Faulty.close c.adr.file).2

/-- The files as they are on disk at this moment. -/
def onDisk (c : Chain) : Folder :=
  ⟨some c.blk.file.disk.file.data, some c.trn.file.disk.file.data, some c.adr.file.disk.file.data⟩

/-- concretehasheschainfactory.go:45-82 `Create` and 89-123 `openPrivate`: the chain of hashes just made, each file with what the
disk will do to it. -/
def openNew (fb ft fa : Fates) : Chain := ⟨⟨Faulty.openFile [] fb, 0⟩, ⟨Faulty.openFile [] ft, 0⟩, ⟨Faulty.openFile [] fa, 0⟩⟩

/-- jobs/intrinsicparallel.go:277-356 `PhaseOneParallelIntrinsic` (`chi = false`) and 358-441 `PhaseOneParallelIntrinsicChi`: what it
returns, and the files it leaves. -/
def phaseOne (chi : Bool) (fb ft fa : Fates) (bs : List Blk) : Res × Folder :=
  match gather chi (openNew fb ft fa) bs with
  | (c, .nil) => (.nil, close c)
  | (c, r) => (r, onDisk c)

end Verif.FaultyHashes
