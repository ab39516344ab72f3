import Verif.Model.ChainFactory
import Verif.Model.HashesChain

/-!
# The files a process has open

What creating, opening and closing a chain, a chain of hashes and a chained hash store do to the table of open files of
the process: chainstorage/concreteappendablechainfactory.go, concreteappendablechain.go:973-996,
concretehasheschainfactory.go, wordfile/concretewordfilecreator.go, concretemmapcreator.go,
indexedhashes3/hashstorecreator.go, hashstore.go:25-64, 153-164, indexedhashes/concretehashstorecreator.go and
hashstore.go:368-386.

What is on disk, and which openings succeed, is `Verif.ChainFactory`.  An `os.File` is an entry of the table, found by
its number; no number is used twice.

Not modelled: a limit on the number of open files; the Go runtime closing an unreachable `os.File` when its finalizer
happens to run; an error of `Stat`, `Truncate` or `Close`; files that a call opens and has closed again on every path
when it returns (`os.ReadFile`, `os.WriteFile`, `WordFileExists`, `NewHashStoreCreatorFromFile`), which leave the table
as it was.
-/

namespace Verif.OpenFiles

open ROWords (Res)
open ChainFactory (FS WordCreator HashCreator Parts Factory Chain supportedBlk supportedTrn createNeis allSupported)

/-- A file by its folder and its name. -/
abbrev Path := String × String

/-- The open files of the process: the number of the next one, and number and path of each. -/
structure Tab where
  next : Nat
  files : List (Nat × Path)
deriving Repr, DecidableEq

/-- `os.Open`, `os.Create`, `os.OpenFile` on a file that can be opened. -/
def Tab.opened (t : Tab) (p : Path) : Nat × Tab := (t.next, ⟨t.next + 1, t.files ++ [(t.next, p)]⟩)

/-- `file.Close()`. -/
def Tab.close (t : Tab) (i : Nat) : Tab := { t with files := t.files.filter fun x => x.1 ≠ i }

/-- An open object: the numbers of the files that its `Close` closes, in that order. -/
abbrev Obj := List Nat

/-- `Close` of one object. -/
def Obj.close (o : Obj) (t : Tab) : Tab := o.foldl Tab.close t

/-- A row of calls to `Close`. -/
def closeAll (os : List Obj) (t : Tab) : Tab := os.foldl (fun t o => Obj.close o t) t

/-- The file of a word file creator. -/
def path (c : WordCreator) : Path := (c.folder, c.name ++ ".int")

/-- concretewordfilecreator.go:52-73, concretemmapcreator.go:42-63 `CreateWordFile`: the new file is closed. -/
def createWord (c : WordCreator) (t : Tab) : Tab :=
  let (i, t) := t.opened (path c)
  t.close i

/-- concretewordfilecreator.go:75-101 `OpenWordFile`, and concretemmapcreator.go:87-89.  When the file is not a whole
number of words it stays open (lines 82-85).  `Close` of the word file is wordfile.go:69-76, which closes the file
through appendoptimized.go:115-121. -/
def openWord (fs : FS) (c : WordCreator) (t : Tab) : Res Obj × Tab :=
  if c.inRam then (.err, t)
  else match fs.file c.folder (c.name ++ ".int") with
    | none => (.err, t)
    | some d =>
      let (i, t) := t.opened (path c)
      match WordFile.openWordFile c.wordSize d with
      | none => (.err, t)
      | some _ => if c.wordSize > 8 then (.panic, t) else (.ok [i], t)

/-- concretewordfilecreator.go:102-125 `OpenWordFileReadOnly` (again open when not in whole words, lines 109-112), and
concretemmapcreator.go:65-85, which closes the file when it cannot be used (lines 75, 80).  A word size of zero panics
in the creators. -/
def openWordReadOnly (fs : FS) (c : WordCreator) (t : Tab) : Res Obj × Tab :=
  if c.wordSize = 0 then (.panic, t)
  else match fs.file c.folder (c.name ++ ".int") with
    | none => (.err, t)
    | some d =>
      let (i, t) := t.opened (path c)
      match WordFile.fileWordCount c.wordSize d.length with
      | none => (.err, if c.inRam then t.close i else t)
      | some _ =>
        if c.inRam then
          if d.length = 0 then (.err, t.close i)
          else if c.wordSize > 8 then (.panic, t) else (.ok [i], t)
        else if c.wordSize > 8 then (.panic, t) else (.ok [i], t)

/-- indexedhashes3/hashstorecreator.go:115-135 `CreateHashStore`: `BinNums.int` is closed, `BinStarts.bes` is not. -/
def createHash (c : HashCreator) (t : Tab) : Tab :=
  let t := createWord c.binNums t
  (t.opened (c.folder, "BinStarts.bes")).2

/-- indexedhashes3/hashstorecreator.go:137-149 `OpenHashStore` with hashstore.go:25-48, and 151-163
`OpenHashStoreReadOnly` with hashstore.go:50-64, by the opening `op` of `BinNums.int`.  When that fails, `BinStarts.bes`
stays open.  `Close` is hashstore.go:153-164. -/
def openHash (op : WordCreator → Tab → Res Obj × Tab) (fs : FS) (c : HashCreator) (t : Tab) : Res Obj × Tab :=
  match fs.file c.folder "BinStarts.bes" with
  | none => (.err, t)
  | some _ =>
    let (i, t) := t.opened (c.folder, "BinStarts.bes")
    match op c.binNums t with
    | (.ok o, t) => (.ok (o ++ [i]), t)
    | (.err, t) => (.err, t)
    | (.panic, t) => (.panic, t)

/-- concreteappendablechainfactory.go:231-239, 247-255: the loops that create the files of the requested names. -/
def createNeiFiles (folder : String) (requested : List String) (supported : List (String × Nat)) (t : Tab) : Tab :=
  supported.foldl (fun t s =>
    if requested.contains s.1 then createWord ⟨s.1, folder, s.2, false⟩ t else t) t

/-- concreteappendablechainfactory.go:171-264 `CreateFromHashStores`. -/
def createFromHashStores (f : Factory) (fs : FS) (t : Tab) : Tab :=
  if f.inRam then t
  else if f.creators.blkFirstTrans.exists_ fs then t
  else
    let c := f.creators
    let t := createWord c.blkFirstTrans t
    let t := createWord c.trnFirstTxi t
    let t := createWord c.trnFirstTxo t
    let t := createWord c.txiTx t
    let t := createWord c.txiVout t
    let t := createWord c.txoSats t
    let t := createWord c.txoAddress t
    let t := createWord c.txoSpentTxi t
    let t := createWord c.addrFirstTxo t
    let t := createWord c.parentBlockOfTrans t
    let t := createWord c.parentTransOfTxi t
    let t := createWord c.parentTransOfTxo t
    let t := createNeiFiles "Blocks" f.requestedBlk supportedBlk t
    if !allSupported f.requestedBlk supportedBlk then t
    else createNeiFiles "Transactions" f.requestedTrn supportedTrn t

/-- concreteappendablechainfactory.go:149-169 `Create`. -/
def create (f : Factory) (fs : FS) (t : Tab) : Tab :=
  if f.inRam then t
  else if f.exists_ fs then t
  else
    let t := createHash f.creators.blkHashes t
    let t := createHash f.creators.trnHashes t
    let t := createHash f.creators.addrHashes t
    let fs := f.creators.blkHashes.create fs
    let fs := f.creators.trnHashes.create fs
    let fs := f.creators.addrHashes.create fs
    createFromHashStores f fs t

/-- The step that openPrivate and openReadOnlyPrivate are made of: open one more; on an error close those of `onErr`
and give up; otherwise go on. -/
def opening {β : Type} (op : Tab → Res Obj × Tab) (onErr : List Obj) (k : Obj → Tab → Res β × Tab) (t : Tab) :
    Res β × Tab :=
  match op t with
  | (.ok o, t) => k o t
  | (.err, t) => (.err, closeAll onErr t)
  | (.panic, t) => (.panic, t)

/-- concreteappendablechainfactory.go:477-494, 698-715: those that open are kept, the others passed over. -/
def openNeis (op : WordCreator → Tab → Res Obj × Tab) (folder : String) (inRam : Bool) :
    List (String × Nat) → Tab → List (String × Obj) × Tab
  | [], t => ([], t)
  | s :: rest, t =>
    match op ⟨s.1, folder, s.2, inRam⟩ t with
    | (.ok o, t) =>
      let (l, t) := openNeis op folder inRam rest t
      ((s.1, o) :: l, t)
    | (_, t) => openNeis op folder inRam rest t

/-- concreteappendablechainfactory.go:282-497 `openPrivate` and 504-718 `openReadOnlyPrivate`, which differ in the calls
made on the creators only; the lists are the calls to `Close` on the error paths.  The map of additional txos opens
without an error and without a file (concretemapstorecreator.go:47-84). -/
def openParts (hop : HashCreator → Tab → Res Obj × Tab) (op : WordCreator → Tab → Res Obj × Tab) (f : Factory) :
    Tab → Res (Chain Obj) × Tab :=
  let c := f.creators
  opening (hop c.blkHashes) [] fun blkHashes =>
  opening (hop c.trnHashes) [blkHashes] fun trnHashes =>
  opening (hop c.addrHashes) [blkHashes, trnHashes] fun addrHashes =>
  opening (op c.blkFirstTrans) [blkHashes, trnHashes, addrHashes] fun blkFirstTrans =>
  opening (op c.trnFirstTxi) [blkHashes, trnHashes, addrHashes, blkFirstTrans] fun trnFirstTxi =>
  opening (op c.trnFirstTxo) [blkHashes, trnHashes, addrHashes, blkFirstTrans, trnFirstTxi] fun trnFirstTxo =>
  opening (op c.txiTx) [blkHashes, trnHashes, addrHashes, blkFirstTrans, trnFirstTxi, trnFirstTxo] fun txiTx =>
  opening (op c.txiVout) [blkHashes, trnHashes, addrHashes, blkFirstTrans, trnFirstTxi, trnFirstTxo, txiTx] fun txiVout =>
  opening (op c.txoSats) [blkHashes, trnHashes, addrHashes, blkFirstTrans, trnFirstTxi, trnFirstTxo, txiTx, txiVout]
    fun txoSats =>
  opening (op c.txoAddress)
    [blkHashes, trnHashes, addrHashes, blkFirstTrans, trnFirstTxi, trnFirstTxo, txiTx, txiVout, txoSats] fun txoAddress =>
  opening (op c.txoSpentTxi)
    [blkHashes, trnHashes, addrHashes, blkFirstTrans, trnFirstTxi, trnFirstTxo, txiTx, txiVout, txoSats, txoAddress]
    fun txoSpentTxi =>
  opening (op c.addrFirstTxo)
    [blkHashes, trnHashes, addrHashes, blkFirstTrans, trnFirstTxi, trnFirstTxo, txiTx, txiVout, txoSats, txoAddress,
      txoSpentTxi] fun addrFirstTxo =>
  opening (op c.parentBlockOfTrans)
    [blkHashes, trnHashes, addrHashes, blkFirstTrans, trnFirstTxi, trnFirstTxo, txiTx, txiVout, txoSats, txoAddress,
      txoSpentTxi, addrFirstTxo] fun parentBlockOfTrans =>
  opening (op c.parentTransOfTxi)
    [blkHashes, trnHashes, addrHashes, blkFirstTrans, trnFirstTxi, trnFirstTxo, txiTx, txiVout, txoSats, txoAddress,
      txoSpentTxi, addrFirstTxo, parentBlockOfTrans] fun parentTransOfTxi =>
  opening (op c.parentTransOfTxo)
    [blkHashes, trnHashes, addrHashes, blkFirstTrans, trnFirstTxi, trnFirstTxo, txiTx, txiVout, txoSats, txoAddress,
      txoSpentTxi, addrFirstTxo, parentBlockOfTrans, parentTransOfTxi] fun parentTransOfTxo t =>
  let (blkNei, t) := openNeis op "Blocks" f.inRam supportedBlk t
  let (trnNei, t) := openNeis op "Transactions" f.inRam supportedTrn t
  (.ok
    { parts :=
        { blkHashes, trnHashes, addrHashes, blkFirstTrans, trnFirstTxi, trnFirstTxo, txiTx, txiVout, txoSats,
          txoAddress, txoSpentTxi, addrFirstTxo, parentBlockOfTrans, parentTransOfTxi, parentTransOfTxo }
      blkNei, trnNei }, t)

/-- concreteappendablechainfactory.go:266-272 `Open`. -/
def openChain (f : Factory) (fs : FS) (t : Tab) : Res (Chain Obj) × Tab :=
  if f.inRam then (.err, t) else openParts (openHash (openWord fs) fs) (openWord fs) f t

/-- concreteappendablechainfactory.go:499-502 `OpenReadOnly`.  The chain it gives has no method that closes anything
(concretereadablechain.go). -/
def openChainReadOnly (f : Factory) (fs : FS) (t : Tab) : Res (Chain Obj) × Tab :=
  openParts (openHash (openWordReadOnly fs) fs) (openWordReadOnly fs) f t

/-- concreteappendablechain.go:973-996 `Close`; flushing the map of additional txos (line 986) leaves no file open. -/
def closeChain (c : Chain Obj) (t : Tab) : Tab :=
  let t := c.parts.blkHashes.close t
  let t := c.parts.trnHashes.close t
  let t := c.parts.addrHashes.close t
  let t := c.parts.blkFirstTrans.close t
  let t := c.parts.trnFirstTxi.close t
  let t := c.parts.trnFirstTxo.close t
  let t := c.parts.txiTx.close t
  let t := c.parts.txiVout.close t
  let t := c.parts.txoSats.close t
  let t := c.parts.txoSpentTxi.close t
  let t := c.parts.txoAddress.close t
  let t := c.parts.addrFirstTxo.close t
  let t := c.parts.parentBlockOfTrans.close t
  let t := c.parts.parentTransOfTxi.close t
  let t := c.parts.parentTransOfTxo.close t
  let t := closeAll (c.blkNei.map (·.2)) t
  closeAll (c.trnNei.map (·.2)) t

/-! ## The chain of hashes -/

/-- The three files of a chain of hashes. -/
def hashesPath (folder : String) : Path := (folder, "Hashes.hsh")

/-- concretehasheschainfactory.go:89-123 `openPrivate`: no error path closes what is open. -/
def openHashes (f : HashesChain.Folder) (t : Tab) : Option (Nat × Nat × Nat) × Tab :=
  match f.blk with
  | none => (none, t)
  | some _ =>
    let (b, t) := t.opened (hashesPath "Blocks")
    match f.trn with
    | none => (none, t)
    | some _ =>
      let (n, t) := t.opened (hashesPath "Transactions")
      match f.adr with
      | none => (none, t)
      | some _ =>
        let (a, t) := t.opened (hashesPath "Addresses")
        (some (b, n, a), t)

/-- concretehasheschain.go:180-184 `Close`. -/
def closeHashes (c : Nat × Nat × Nat) (t : Tab) : Tab :=
  let t := t.close c.1
  let t := t.close c.2.1
  t.close c.2.2

/-! ## The chained hash store -/

/-- Which of the three files of a chained hash store are there. -/
structure Chained where
  hsh : Bool
  lkp : Bool
  cls : Bool

/-- concretehashstorecreator.go:53-89 `CreateHashStore`: closed by `defer`, in the opposite order. -/
def createChained (folder name : String) (t : Tab) : Tab :=
  let (h, t) := t.opened (folder, name ++ ".hsh")
  let (l, t) := t.opened (folder, name ++ ".lkp")
  let (c, t) := t.opened (folder, name ++ ".cls")
  let t := t.close c
  let t := t.close l
  t.close h

/-- concretehashstorecreator.go:91-140 `OpenHashStore`: with `mem` the lookup file is read whole and not kept open
(fixedsize.go:18-25), and its `Close` writes it out (fixedsize.go:43-45).  With `mem` false also 141-177
`OpenHashStoreReadOnly`.  The numbers given are those `Close` (hashstore.go:368-386) closes. -/
def openChained (mem : Bool) (folder name : String) (d : Chained) (t : Tab) : Res Obj × Tab :=
  if !d.hsh then (.err, t)
  else
    let (h, t) := t.opened (folder, name ++ ".hsh")
    if !d.lkp then (.err, t.close h)
    else
      let (l, t) := if mem then ([], t) else
        let (l, t) := t.opened (folder, name ++ ".lkp")
        ([l], t)
      if !d.cls then (.err, Obj.close l (t.close h))
      else
        let (c, t) := t.opened (folder, name ++ ".cls")
        (.ok ([h] ++ l ++ [c]), t)

end Verif.OpenFiles
