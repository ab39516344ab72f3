/-!
# The hard coded chain

Models tinychain: blockchain.go, handles.go, block.go, transaction.go, txi.go, txo.go and instances.go.

All handles of this package have a height (handles.go:18-20, 24-26), so a block handle is its height. An index out of range is a panic, here
`none`. Left out: the hashes, which are the hashes of the heights (handles.go:15-17), the constants of `NonEssentialInts` (block.go:18-23,
transaction.go:34-39), `AllTxoSatoshis` which panics always (transaction.go:12-15), and `Address` and `AddressInterface` which always give an
error (txo.go:18-20, blockchain.go:124-126).
-/

namespace Verif.TinyChain

/-- handles.go:57-67 and 71-99 `TxiHandle` and `TxoHandle`: the height of the parent transaction and the index in it. -/
structure TxxHandle where
  trans : Int
  index : Int
deriving DecidableEq, Repr

/-- txi.go:7-10. -/
structure Txi where
  handle : TxxHandle
  sourceTxo : TxxHandle
deriving DecidableEq, Repr

/-- txo.go:9-12. -/
structure Txo where
  handle : TxxHandle
  satoshis : Int
deriving DecidableEq, Repr

/-- transaction.go:6-10. -/
structure Trans where
  height : Int
  txis : List Txi
  txos : List Txo
deriving DecidableEq, Repr

/-- block.go:5-8. -/
structure Block where
  height : Int
  transactions : List Trans
deriving DecidableEq, Repr

/-- blockchain.go:9-12. -/
structure Chain where
  blocks : List Block
  transactions : List Trans
deriving DecidableEq, Repr

/-- Go's indexing of a slice. -/
def at? {α : Type} (l : List α) (i : Int) : Option α := if i < 0 then none else l[i.toNat]?

/-- handles.go:34-36, 54-56 `IsInvalid`. -/
def isInvalid (h : Int) : Bool := h == -1

/-- blockchain.go:19-24. -/
def invalid : Int := -1

/-- blockchain.go:26-28. -/
def genesisBlock (c : Chain) : Option Int := (at? c.blocks 0).map (·.height)

/-- blockchain.go:30-39: it gives the height in the block found. -/
def parentBlock (c : Chain) (b : Int) : Option Int := if b - 1 ≥ 0 then (at? c.blocks (b - 1)).map (·.height) else some invalid

/-- blockchain.go:74-81. -/
def blockInterface (c : Chain) (b : Int) : Option Block := at? c.blocks b

/-- block.go:14-16. -/
def nthTransaction (b : Block) (n : Int) : Option Int := (at? b.transactions n).map (·.height)

/-- block.go:10-12. -/
def transactionCount (b : Block) : Int := b.transactions.length

/-- blockchain.go:41-52. -/
def genesisTransaction (c : Chain) : Option Int := do nthTransaction (← blockInterface c (← genesisBlock c)) 0

/-- blockchain.go:54-66. -/
def previousTransaction (t : Int) : Int := t - 1

/-- blockchain.go:83-90. -/
def transInterface (c : Chain) (t : Int) : Option Trans := at? c.transactions t

/-- transaction.go:21-23, 29-31 `NthTxi`, `NthTxo`. -/
def nthTxi (t : Trans) (n : Int) : Option TxxHandle := (at? t.txis n).map (·.handle)
@[inherit_doc nthTxi] def nthTxo (t : Trans) (n : Int) : Option TxxHandle := (at? t.txos n).map (·.handle)

/-- blockchain.go:92-106. -/
def txoInterface (c : Chain) (x : TxxHandle) : Option Txo := do at? (← at? c.transactions x.trans).txos x.index

/-- blockchain.go:108-122. -/
def txiInterface (c : Chain) (x : TxxHandle) : Option Txi := do at? (← at? c.transactions x.trans).txis x.index

/-- blockchain.go:129-132. -/
def latestBlock (c : Chain) : Option Int := (at? c.blocks ((c.blocks.length : Int) - 1)).map (·.height)

/-- blockchain.go:134-147. -/
def nextBlock (c : Chain) (b : Int) : Int := if b + 1 = c.blocks.length then -1 else b + 1

/-- blockchain.go:149-154. -/
def latestTransaction (c : Chain) : Int := (c.transactions.length : Int) - 1

/-- blockchain.go:156-169. -/
def nextTransaction (c : Chain) (t : Int) : Int := if t + 1 = c.transactions.length then -1 else t + 1

/-- instances.go:3-22. -/
def block0 : Block := ⟨0, [⟨0, [], [⟨⟨0, 0⟩, 50⟩]⟩]⟩

/-- instances.go:24-65. -/
def block1 : Block := ⟨1, [⟨1, [], [⟨⟨1, 0⟩, 55⟩]⟩, ⟨2, [⟨⟨2, 0⟩, ⟨0, 0⟩⟩], [⟨⟨2, 0⟩, 20⟩, ⟨⟨2, 1⟩, 25⟩]⟩]⟩

/-- instances.go:67-127. -/
def block2 : Block :=
  ⟨2, [⟨3, [], [⟨⟨3, 0⟩, 50⟩]⟩, ⟨4, [⟨⟨4, 0⟩, ⟨5, 0⟩⟩], [⟨⟨4, 0⟩, 40⟩]⟩, ⟨5, [⟨⟨5, 0⟩, ⟨2, 0⟩⟩, ⟨⟨5, 1⟩, ⟨2, 1⟩⟩], [⟨⟨5, 0⟩, 45⟩]⟩]⟩

/-- instances.go:131-134: the transactions in the order they are listed there. -/
def theTinyChain : Chain :=
  ⟨[block0, block1, block2], [⟨0, [], [⟨⟨0, 0⟩, 50⟩]⟩, ⟨1, [], [⟨⟨1, 0⟩, 55⟩]⟩, ⟨2, [⟨⟨2, 0⟩, ⟨0, 0⟩⟩], [⟨⟨2, 0⟩, 20⟩, ⟨⟨2, 1⟩, 25⟩]⟩,
    ⟨3, [], [⟨⟨3, 0⟩, 50⟩]⟩, ⟨4, [⟨⟨4, 0⟩, ⟨5, 0⟩⟩], [⟨⟨4, 0⟩, 40⟩]⟩, ⟨5, [⟨⟨5, 0⟩, ⟨2, 0⟩⟩, ⟨⟨5, 1⟩, ⟨2, 1⟩⟩], [⟨⟨5, 0⟩, 45⟩]⟩]⟩

end Verif.TinyChain
