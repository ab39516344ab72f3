import Verif.Model.ReadOnlyWords

/-!
# Creating and opening a chain's folder: chainstorage/concreteappendablechainfactory.go

The files below a chain's folder, the factory made on them, and what its calls leave on disk and give back.  The
hash stores are the parts of indexedhashes3/hashstorecreator.go and hashstore.go:25-64 that create and open them;
the map of additional txos is intarrayarray/concretemapstorecreator.go:34-61.

Not modelled: errors of the operating system other than a missing file; file handles left open (see Model.OpenFiles); loading the hashes
into RAM (`hashesInRamDANGER`, hashstore.go:40-45); the question put to the user before a chain is held in RAM
(`CheckAvailableRAM`, lines 720-730), taken as confirmed; `OpenWithIndexer` (274-280), which is `Open` giving the
same object twice.  The loops over the supported names range over a Go map: in every order they create and open the
same files, so a fixed order is taken.
-/

namespace Verif.ChainFactory

open ROWords (Res Reader)

/-- What the factory uses of a `HashIndexingParams`: `BytesRoomForBinNum()` and
`BytesPerBinEntry() * EntriesInBinStart()`. -/
structure HashParams where
  binNumBytes : Nat
  binStartBytes : Nat
deriving Repr, DecidableEq

/-- What is below the chain's folder: files by folder and name, the parameters in `HashIndexingParams.json` of the
hash folders (`none`: no file, or not the JSON of parameters), the files of `Addresses/additionaltxos` (`none`: no
such folder). -/
structure FS where
  file : String → String → Option Bytes
  params : String → Option HashParams
  arrays : Option (List (String × Bytes))

/-- `os.Create`, then writing `data`. -/
def FS.put (fs : FS) (folder name : String) (data : Bytes) : FS :=
  { fs with file := fun d n => if d = folder ∧ n = name then some data else fs.file d n }

/-- `wordfile.NewConcreteWordFileCreator(name, folder, wordSize, false, inRam)`. -/
structure WordCreator where
  name : String
  folder : String
  wordSize : Nat
  inRam : Bool

/-- concretewordfilecreator.go:41-50, concretemmapcreator.go:31-40 `WordFileExists`. -/
def WordCreator.exists_ (c : WordCreator) (fs : FS) : Bool := (fs.file c.folder (c.name ++ ".int")).isSome

/-- concretewordfilecreator.go:52-73, concretemmapcreator.go:42-63 `CreateWordFile`: truncates a file already there. -/
def WordCreator.create (c : WordCreator) (fs : FS) : FS := fs.put c.folder (c.name ++ ".int") []

/-- concretewordfilecreator.go:75-101, concretemmapcreator.go:87-89 `OpenWordFile`; more than eight bytes panic in
`NewWordFile`. -/
def WordCreator.open_ (c : WordCreator) (fs : FS) : Res WordFile.WF :=
  if c.inRam then .err
  else match fs.file c.folder (c.name ++ ".int") with
    | none => .err
    | some d =>
      match WordFile.openWordFile c.wordSize d with
      | none => .err
      | some w => if c.wordSize > 8 then .panic else .ok w

/-- concretewordfilecreator.go:102-125, concretemmapcreator.go:65-85 `OpenWordFileReadOnly`. -/
def WordCreator.openReadOnly (c : WordCreator) (fs : FS) : Res Reader :=
  ROWords.openReadOnly (if c.inRam then .mapped else .plain) c.wordSize (fs.file c.folder (c.name ++ ".int"))

/-- hashstorecreator.go:13-18 `ConcreteHashStoreCreator`, in its folder. -/
structure HashCreator where
  folder : String
  params : HashParams

/-- hashstorecreator.go:104-105: the creator of `BinNums.int`, never in RAM. -/
def HashCreator.binNums (c : HashCreator) : WordCreator := ⟨"BinNums", c.folder, c.params.binNumBytes, false⟩

/-- hashstorecreator.go:75-97 `NewHashStoreCreatorFromFile` and 99-108 `NewHashStoreCreatorPrivate`: a word size of
zero panics (concretewordfilecreator.go:22-24). -/
def hashCreator (fs : FS) (folder : String) : Res HashCreator :=
  match fs.params folder with
  | none => .err
  | some p => if p.binNumBytes = 0 then .panic else .ok ⟨folder, p⟩

/-- hashstorecreator.go:110-113 `HashStoreExists`. -/
def HashCreator.exists_ (c : HashCreator) (fs : FS) : Bool := c.binNums.exists_ fs

/-- hashstorecreator.go:115-135 `CreateHashStore`. -/
def HashCreator.create (c : HashCreator) (fs : FS) : FS :=
  (c.binNums.create fs).put c.folder "BinStarts.bes" (zeros c.params.binStartBytes)

/-- hashstorecreator.go:137-149 `OpenHashStore`: the word file of bin numbers (hashstore.go:25-48). -/
def HashCreator.open_ (c : HashCreator) (fs : FS) : Res WordFile.WF :=
  match fs.file c.folder "BinStarts.bes" with
  | none => .err
  | some _ => c.binNums.open_ fs

/-- hashstorecreator.go:151-163 `OpenHashStoreReadOnly` (hashstore.go:50-64). -/
def HashCreator.openReadOnly (c : HashCreator) (fs : FS) : Res Reader :=
  match fs.file c.folder "BinStarts.bes" with
  | none => .err
  | some _ => c.binNums.openReadOnly fs

/-- The fields that concreteappendablechain.go:19-48, concretereadablechain.go:12-30 and the creator
(concreteappendablechainfactory.go:18-51) have in common: three hash stores and twelve word files. -/
structure Parts (H F : Type) where
  blkHashes : H
  trnHashes : H
  addrHashes : H
  blkFirstTrans : F
  trnFirstTxi : F
  trnFirstTxo : F
  txiTx : F
  txiVout : F
  txoSats : F
  txoAddress : F
  txoSpentTxi : F
  addrFirstTxo : F
  parentBlockOfTrans : F
  parentTransOfTxi : F
  parentTransOfTxo : F

/-- concreteappendablechainfactory.go:18-51 `ConcreteAppendableChainCreator`; the supported names are constants. -/
structure Factory where
  creators : Parts HashCreator WordCreator
  requestedBlk : List String
  requestedTrn : List String
  inRam : Bool

/-- Lines 118-128. -/
def supportedBlk : List (String × Nat) :=
  [("version", 4), ("time", 4), ("mediantime", 4), ("nonce", 4), ("difficulty", 8), ("strippedsize", 4), ("size", 4),
   ("weight", 4)]

/-- Lines 129-135. -/
def supportedTrn : List (String × Nat) :=
  [("version", 4), ("size", 4), ("vsize", 4), ("weight", 4), ("locktime", 4)]

/-- Sequencing of calls that can fail. -/
def Res.bind {α β : Type} (x : Res α) (f : α → Res β) : Res β :=
  match x with
  | .ok a => f a
  | .err => .err
  | .panic => .panic

instance : Monad Res where
  pure := .ok
  bind := Res.bind

/-- Lines 57-143 `NewConcreteAppendableChainCreator`. -/
def newFactory (fs : FS) (blkNames trnNames : List String) (inRam : Bool) : Res Factory := do
  let b ← hashCreator fs "Blocks/Hashes"
  let t ← hashCreator fs "Transactions/Hashes"
  let a ← hashCreator fs "Addresses/Hashes"
  pure
    { creators :=
        { blkHashes := b, trnHashes := t, addrHashes := a
          blkFirstTrans := ⟨"firsttrans", "Blocks", 4, inRam⟩
          trnFirstTxi := ⟨"firsttxi", "Transactions", 5, inRam⟩
          trnFirstTxo := ⟨"firsttxo", "Transactions", 5, inRam⟩
          txiTx := ⟨"tx", "TransactionInputs", 4, inRam⟩
          txiVout := ⟨"vout", "TransactionInputs", 4, inRam⟩
          txoSats := ⟨"value", "TransactionOutputs", 7, inRam⟩
          txoAddress := ⟨"address", "TransactionOutputs", 5, inRam⟩
          txoSpentTxi := ⟨"spenttotxi", "TransactionOutputs", 5, inRam⟩
          addrFirstTxo := ⟨"firsttxo", "Addresses", 5, inRam⟩
          parentBlockOfTrans := ⟨"parentblockoftrans", "Parents", 4, inRam⟩
          parentTransOfTxi := ⟨"parenttransoftxi", "Parents", 5, inRam⟩
          parentTransOfTxo := ⟨"parenttransoftxo", "Parents", 5, inRam⟩ }
      requestedBlk := blkNames
      requestedTrn := trnNames
      inRam }

/-- Lines 145-147 `Exists`. -/
def Factory.exists_ (f : Factory) (fs : FS) : Bool := f.creators.blkHashes.exists_ fs

/-- Lines 231-239, 247-255: the files of the names both supported and requested. -/
def createNeis (folder : String) (requested : List String) (supported : List (String × Nat)) (fs : FS) : FS :=
  supported.foldl (fun fs s =>
    if requested.contains s.1 then (WordCreator.mk s.1 folder s.2 false).create fs else fs) fs

/-- Lines 240-245, 256-261. -/
def allSupported (requested : List String) (supported : List (String × Nat)) : Bool :=
  requested.all fun r => supported.any fun s => s.1 = r

/-- Lines 171-264 `CreateFromHashStores`: what is on disk afterwards, and whether there was no error. -/
def Factory.createFromHashStores (f : Factory) (fs : FS) : FS × Bool :=
  if f.inRam then (fs, false)
  else if f.creators.blkFirstTrans.exists_ fs then (fs, false)
  else
    let c := f.creators
    let fs := c.blkFirstTrans.create fs
    let fs := c.trnFirstTxi.create fs
    let fs := c.trnFirstTxo.create fs
    let fs := c.txiTx.create fs
    let fs := c.txiVout.create fs
    let fs := c.txoSats.create fs
    let fs := c.txoAddress.create fs
    let fs := c.txoSpentTxi.create fs
    let fs := c.addrFirstTxo.create fs
    let fs := c.parentBlockOfTrans.create fs
    let fs := c.parentTransOfTxi.create fs
    let fs := c.parentTransOfTxo.create fs
    let fs := { fs with arrays := some [] }
    let fs := createNeis "Blocks" f.requestedBlk supportedBlk fs
    if !allSupported f.requestedBlk supportedBlk then (fs, false)
    else
      let fs := createNeis "Transactions" f.requestedTrn supportedTrn fs
      if !allSupported f.requestedTrn supportedTrn then (fs, false) else (fs, true)

/-- Lines 149-169 `Create`. -/
def Factory.create (f : Factory) (fs : FS) : FS × Bool :=
  if f.inRam then (fs, false)
  else if f.exists_ fs then (fs, false)
  else
    let fs := f.creators.blkHashes.create fs
    let fs := f.creators.trnHashes.create fs
    let fs := f.creators.addrHashes.create fs
    f.createFromHashStores fs

/-- An open chain: its parts, and the non-essential ints of blocks and transactions by name. -/
structure Chain (α : Type) where
  parts : Parts α α
  blkNei : List (String × α)
  trnNei : List (String × α)

/-- Lines 477-494, 698-715: of the supported names, those whose file opens. -/
def neis {α : Type} (op : WordCreator → Res α) (folder : String) (inRam : Bool) (supported : List (String × Nat)) :
    List (String × α) :=
  supported.filterMap fun s =>
    match op ⟨s.1, folder, s.2, inRam⟩ with
    | .ok r => some (s.1, r)
    | _ => none

/-- Lines 282-497 `openPrivate` and 504-718 `openReadOnlyPrivate`, which differ in the calls made on the creators
only.  The map of additional txos opens without looking at the disk (concretemapstorecreator.go:47-89). -/
def openParts {α : Type} (hop : HashCreator → Res α) (op : WordCreator → Res α) (f : Factory) : Res (Chain α) := do
  let c := f.creators
  let blkHashes ← hop c.blkHashes
  let trnHashes ← hop c.trnHashes
  let addrHashes ← hop c.addrHashes
  let blkFirstTrans ← op c.blkFirstTrans
  let trnFirstTxi ← op c.trnFirstTxi
  let trnFirstTxo ← op c.trnFirstTxo
  let txiTx ← op c.txiTx
  let txiVout ← op c.txiVout
  let txoSats ← op c.txoSats
  let txoAddress ← op c.txoAddress
  let txoSpentTxi ← op c.txoSpentTxi
  let addrFirstTxo ← op c.addrFirstTxo
  let parentBlockOfTrans ← op c.parentBlockOfTrans
  let parentTransOfTxi ← op c.parentTransOfTxi
  let parentTransOfTxo ← op c.parentTransOfTxo
  pure
    { parts :=
        { blkHashes, trnHashes, addrHashes, blkFirstTrans, trnFirstTxi, trnFirstTxo, txiTx, txiVout, txoSats,
          txoAddress, txoSpentTxi, addrFirstTxo, parentBlockOfTrans, parentTransOfTxi, parentTransOfTxo }
      blkNei := neis op "Blocks" f.inRam supportedBlk
      trnNei := neis op "Transactions" f.inRam supportedTrn }

/-- Lines 266-272 `Open`. -/
def Factory.open_ (f : Factory) (fs : FS) : Res (Chain WordFile.WF) :=
  if f.inRam then .err else openParts (·.open_ fs) (·.open_ fs) f

/-- Lines 499-502 `OpenReadOnly`. -/
def Factory.openReadOnly (f : Factory) (fs : FS) : Res (Chain Reader) :=
  openParts (·.openReadOnly fs) (·.openReadOnly fs) f

end Verif.ChainFactory
