import Verif.Model.Records

/-!
# The block holders

Models intrinsicobjectscri/chain.go and intrinsicobjectschi/chain.go: the two `OneBlockHolder`s, which turn a
channel of parsed blocks into a chain read block by block. A `nil` from the channel (also what a closed channel
gives) is `none`. Heights are unbounded integers. The transaction indexer is any one: `accepts log c` says whether
it accepts the call `c` after the calls `log`. `sort` stands for `sort.Slice` with `<`.
-/

namespace Verif.BlockHolder

/-- The parts of an intrinsicobjects.Block used here (intrinsicblock.go): `BlockHash`, `PrevHash`, `Time` and the
`TxId`s of `Transactions`. -/
structure Blk where
  hash : Bytes
  prev : Bytes
  time : Nat
  txids : List Bytes
deriving DecidableEq, Repr

/-- The calls made on the transaction indexer (transactionindexing/transactionindexing.go:5-13). -/
inductive Call where
  | firstTrans (block : Int) (trans : Int)
  | parentBlock (trans : Int) (block : Int)
  | hashHeight (txid : Bytes) (trans : Int)
deriving DecidableEq, Repr

/-- What is given to `CreateOneBlockHolder`, and the sort. -/
structure Env where
  /-- `transactionIndexer ≠ nil` -/
  indexer : Bool
  accepts : List Call → Call → Bool
  sort : List Nat → List Nat

/-- intrinsicobjectscri/block.go:14-22, intrinsicobjectschi/block.go:12-17 `Block`: the block, its height and
median time. -/
structure Held where
  blk : Blk
  height : Int
  median : Nat
deriving DecidableEq, Repr

/-- cri chain.go:18-30, chi chain.go:15-23 `OneBlockHolder`; `height` is cri's `currentBlockHeight` (chi keeps it in
the block only); `input` is what is still to come from `InChan`; `calls` are the calls made on the indexer. -/
structure State where
  cur : Option Held
  height : Int
  times : List Nat
  latest : Int
  input : List (Option Blk)
  calls : List Call
deriving DecidableEq, Repr

/-- cri chain.go:32-44, chi chain.go:28-39 `CreateOneBlockHolder`. -/
def create (input : List (Option Blk)) : State := ⟨none, -1, [], -1, input, []⟩

/-- `<-obh.InChan`. -/
def receive (s : State) : Option Blk × State :=
  match s.input with
  | [] => (none, s)
  | b :: rest => (b, { s with input := rest })

/-- cri chain.go:274-296, chi chain.go:255-277 `PostIntrinsicCalculateMedianTime` (the same text): the new window
and the median. -/
def medianTime (e : Env) (times : List Nat) (t : Nat) : List Nat × Nat :=
  let w := if (times ++ [t]).length > 11 then (times ++ [t]).drop 1 else times ++ [t]
  (w, (e.sort w).getD (w.length / 2) 0)

/-- One call on the indexer; `false` is its error. -/
def call (e : Env) (calls : List Call) (c : Call) : List Call × Bool := (calls ++ [c], e.accepts calls c)

/-- The loop at cri chain.go:258-269, chi chain.go:239-250. -/
def gatherLoop (e : Env) (block : Int) : List Bytes → Int → List Call → List Call × Int × Bool
  | [], h, calls => (calls, h, true)
  | x :: xs, h, calls =>
    let r1 := call e calls (.parentBlock (h + 1) block)
    if r1.2 = false then (r1.1, h + 1, false)
    else
      let r2 := call e r1.1 (.hashHeight x (h + 1))
      if r2.2 = false then (r2.1, h + 1, false) else gatherLoop e block xs (h + 1) r2.1

/-- cri chain.go:244-272, chi chain.go:225-253 `PostIntrinsicGatherTransHashes`; `false` is an error. -/
def gather (e : Env) (s : State) (b : Held) : State × Bool :=
  if e.indexer = false then (s, true)
  else
    let r := call e s.calls (.firstTrans b.height (s.latest + 1))
    if r.2 = false then ({ s with calls := r.1 }, false)
    else
      let g := gatherLoop e b.height b.blk.txids s.latest r.1
      if g.2.2 = false then ({ s with calls := g.1 }, false)
      else ({ s with calls := g.1, latest := g.2.1 }, true)

/-- Outcomes of a call. -/
inductive Out where
  /-- the block delivered -/
  | block (b : Held)
  /-- the invalid block: no more blocks -/
  | done
  | err
  | panicked
deriving DecidableEq, Repr

/-- The check of four hash bytes (cri 85-97, chi 64-76). -/
def looksLikeGenesis (hash : Bytes) : Bool :=
  hash[0]? = some 0x6f && hash[1]? = some 0xe2 && hash[2]? = some 0x8c && hash[3]? = some 0x0a

/-- cri chain.go:61-99 `GenesisBlock`. -/
def criGenesis (e : Env) (s : State) : State × Out :=
  if s.height ≠ -1 then (s, .panicked)
  else
    let r := receive s
    match r.1 with
    | none => (r.2, .panicked)
    | some b =>
      let m := medianTime e r.2.times b.time
      let held : Held := ⟨b, 0, m.2⟩
      let g := gather e { r.2 with times := m.1, cur := some held, height := 0 } held
      if g.2 = false then (g.1, .panicked)
      else if looksLikeGenesis b.hash then (g.1, .block held) else (g.1, .panicked)

/-- cri chain.go:201-234 `NextBlock`, for a handle with the hash `hash`. -/
def criNext (e : Env) (s : State) (hash : Bytes) : State × Out :=
  match s.cur with
  | none => (s, .panicked)
  | some cur =>
    if hash ≠ cur.blk.hash then (s, .panicked)
    else
      let r := receive s
      match r.1 with
      | none => (r.2, .done)
      | some b =>
        let m := medianTime e r.2.times b.time
        let held : Held := ⟨b, r.2.height + 1, m.2⟩
        let s' := { r.2 with times := m.1, cur := some held, height := r.2.height + 1 }
        if b.prev ≠ hash then (s', .panicked)
        else
          let g := gather e s' held
          if g.2 = false then (g.1, .err) else (g.1, .block held)

/-- chi chain.go:41-80 `GenesisBlock`. The handle returned is four zero bytes. -/
def chiGenesis (e : Env) (s : State) : State × Out × Bytes :=
  if s.cur.isSome then (s, .panicked, [])
  else
    let r := receive s
    match r.1 with
    | none => (r.2, .panicked, [])
    | some b =>
      let m := medianTime e r.2.times b.time
      let held : Held := ⟨b, 0, m.2⟩
      let g := gather e { r.2 with times := m.1, cur := some held } held
      if g.2 = false then (g.1, .err, [])
      else if looksLikeGenesis b.hash then (g.1, .block held, [0, 0, 0, 0]) else (g.1, .panicked, [])

/-- handles.go:15-22 `makeBlockHandle`; `none` is the panic. -/
def makeBlockHandle (h : Int) : Option Bytes := if h < 0 ∨ h > 0xFFFFFFFF then none else some (leEnc 4 h.toNat)

/-- handles.go:24-28 `makeInvalidBlockHandle`. -/
def invalidHandle : Bytes := leEnc 4 0xFFFFFFFF

/-- chi chain.go:82-110 `NextBlock`, for the handle bytes `handle`; the handle returned is the third component. -/
def chiNext (e : Env) (s : State) (handle : Bytes) : State × Out × Bytes :=
  match s.cur with
  | none => (s, .panicked, [])
  | some cur =>
    if (leDec handle : Int) ≠ cur.height then (s, .panicked, [])
    else
      let r := receive s
      match r.1 with
      | none => (r.2, .done, invalidHandle)
      | some b =>
        let m := medianTime e r.2.times b.time
        let held : Held := ⟨b, leDec handle + 1, m.2⟩
        let s' := { r.2 with times := m.1, cur := some held }
        if b.prev ≠ cur.blk.hash then (s', .panicked, [])
        else
          let g := gather e s' held
          if g.2 = false then (g.1, .err, [])
          else
            match makeBlockHandle held.height with
            | none => (g.1, .panicked, [])
            | some h => (g.1, .block held, h)

end Verif.BlockHolder
