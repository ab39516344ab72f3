import Verif.Model.WordFile

/-!
# The chain of hashes

Models chainstorage/concretehasheschain.go and concretehasheschainfactory.go over the hash files of `Verif.HashFile`. Phase
one of a run gathers the hashes of blocks, transactions and addresses with it (jobs/intrinsicparallel.go:277-283, 339, 354).

Simplifications. A block is its hash and, for each transaction, the hash of the transaction and the hashes of the addresses
of its outputs; where these come from is `Verif.Run`. The source of the blocks gives no errors, and neither does the
operating system except that a file does not exist; folders exist once `Create` has made them.
-/

namespace Verif.HashesChain

open Verif.HashFile (HF)

/-- What is in the three folders: the contents of `Hashes.hsh`, or no such file. concretehasheschainfactory.go:11-15. -/
structure Folder where
  blk : Option Bytes
  trn : Option Bytes
  adr : Option Bytes
deriving Repr, DecidableEq

/-- concretehasheschainfactory.go:34-43 `Exists`: the file of block hashes can be opened. -/
def exists? (f : Folder) : Bool := f.blk.isSome

/-- concretehasheschainfactory.go:45-82 `Create`; `none` is the error. `os.Create` makes an existing file empty. -/
def create (f : Folder) : Option Folder := if exists? f = true then none else some ⟨some [], some [], some []⟩

/-- concretehasheschain.go:13-23 `concreteHashesChain`. -/
structure Chain where
  blk : HF
  trn : HF
  adr : HF

/-- concretehasheschainfactory.go:92-100: the file, and `NewHashFile(opt, 0)`. -/
def openList (data : Bytes) : HF := ⟨AppendOpt.openFile data, 0⟩

/-- concretehasheschainfactory.go:89-123 `openPrivate`; `none` is an error. -/
def openChain (f : Folder) : Option Chain :=
  match f.blk with
  | none => none
  | some b =>
    match f.trn with
    | none => none
    | some t =>
      match f.adr with
      | none => none
      | some a => some ⟨openList b, openList t, openList a⟩

/-- What is appended of a block: its hash; for each transaction its hash and the hashes of its addresses. -/
structure Blk where
  hash : Bytes
  txs : List (Bytes × List Bytes)
deriving Repr, DecidableEq

/-- concretehasheschain.go:88-110 and 164-174: the addresses of a transaction. -/
def appendAddrs (h : HF) : List Bytes → HF
  | [] => h
  | a :: as => appendAddrs (HashFile.appendHash h a).1 as

/-- concretehasheschain.go:62-111 and 152-175: the loop over the transactions. -/
def appendTxs (c : Chain) : List (Bytes × List Bytes) → Chain
  | [] => c
  | t :: ts => appendTxs { c with trn := (HashFile.appendHash c.trn t.1).1, adr := appendAddrs c.adr t.2 } ts

/-- concretehasheschain.go:28-113 `AppendHashesCri` and 115-178 `AppendHashesChi`; also whether it panics. -/
def append (c : Chain) (b : Blk) : Chain × Bool :=
  let c := { c with blk := (HashFile.appendHash c.blk b.hash).1 }
  if b.txs.length = 0 then (c, true) else (appendTxs c b.txs, false)

/-- concretehasheschain.go:202-207 `CountHashes`. -/
def count (c : Chain) : Nat × Nat × Nat :=
  (HashFile.countHashes c.blk, HashFile.countHashes c.trn, HashFile.countHashes c.adr)

/-- concretehasheschain.go:186-200 `Sync`. -/
def sync (c : Chain) : Chain :=
  { blk := { c.blk with file := AppendOpt.sync c.blk.file }
    trn := { c.trn with file := AppendOpt.sync c.trn.file }
    adr := { c.adr with file := AppendOpt.sync c.adr.file } }

/-- concretehasheschain.go:180-184 `Close`: the files that are left. -/
def close (c : Chain) : Folder :=
  ⟨some (AppendOpt.close c.blk.file), some (AppendOpt.close c.trn.file), some (AppendOpt.close c.adr.file)⟩

/-- The files as they are on disk at this moment. -/
def onDisk (c : Chain) : Folder := ⟨some c.blk.file.file.data, some c.trn.file.file.data, some c.adr.file.file.data⟩

/-- What a client can do with an open chain. -/
inductive Op where
  | append (b : Blk)
  | count
  | sync

/-- A session: the counts that were seen, and whether it ended in a panic. -/
def run (c : Chain) : List Op → Chain × List (Nat × Nat × Nat) × Bool
  | [] => (c, [], false)
  | .append b :: ops => if (append c b).2 = true then ((append c b).1, [], true) else run (append c b).1 ops
  | .count :: ops =>
    let r := run c ops
    (r.1, count c :: r.2.1, r.2.2)
  | .sync :: ops => run (sync c) ops

end Verif.HashesChain
