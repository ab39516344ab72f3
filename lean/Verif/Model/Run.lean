import Verif.Model.BinBlock
import Verif.Model.BlockHolder
import Verif.Model.ChainStore
import Verif.Model.HashStream
import Verif.Model.JsonBlock
import Verif.Model.Pipeline

/-!
# A whole run

Models jobs/intrinsicparallel.go `RunIntrinsic` (24-275) with `PhaseOneParallelIntrinsic`, `…Chi`,
`PhaseThreeParallelIntrinsic` and `…Chi` (277-623): blocks are fetched and parsed (`Verif.Pipeline`, `Verif.BinBlock`),
held one at a time (`Verif.BlockHolder`), and what the holder shows of each is written (`Verif.ChainStore`). All three
phases are done, `useJson` is false and the indexing method is "delegated" (the other ones panic, 245-250).

Simplifications.
* Phase two gives for each hash list a store that finds the first occurrence of a hash (C25 says when it does).
* `Difficulty` rounded to an integer is any function of the `nBits` field (binaryblock.go:58, 74-94).
* `Sync`, the progress display and what a failed run leaves behind are not modelled.
* The blocks that the holder is going to receive are those that the pipeline delivers; that reading them from the channel
  and waiting for them are interleaved makes no difference, because the holder's client does nothing else with the
  channels.
-/

namespace Verif.Run

open Verif.BinBlock (Block Transaction Storage getTxi getTxo scriptOf)
open Verif.ChainStore (Iface Fail St Hashes)
open Verif.BlockHolder (Held Call State Out)

/-- SHA-256, the difficulty rounded to an integer, and the sort of the holder. -/
structure Env where
  sha : Bytes → Bytes
  difficulty : Nat → Int
  sort : List Nat → List Nat

/-! ## What the holder shows of a block -/

/-- The block as the holder sees it. -/
def proj (p : Block) : BlockHolder.Blk := ⟨p.hash, p.prevHash, p.time, p.transactions.map (·.txId)⟩

/-- The transaction that the interface gives for the `t`-th transaction handle, with its position. The first interface
looks it up by hash in a map in which the last transaction of the block with that hash is kept (intrinsicobjectscri
block.go:42, chain.go:127-142); the second by position (intrinsicobjectschi chain.go:146-156). -/
def shown (i : Iface) (p : Block) (t : Nat) (q : Transaction) : Transaction × Nat :=
  match i with
  | .chi => (q, t)
  | .cri => ((p.transactions.zipIdx).filter fun x => x.1.txId = q.txId).getLast?.getD (q, t)

/-- The positions `0 .. n-1`. intrinsicobjectscri/transaction.go:38, 48 `make` panics when `n` is negative;
intrinsicobjectschi handles.go:31-66 panics for positions that do not fit. -/
def indices (i : Iface) (n : Int) : Option (List Nat) :=
  match i with
  | .cri => if n < 0 then none else some (List.range n.toNat)
  | .chi => if 2 ^ 32 < n then none else some (List.range n.toNat)

/-- The inputs shown of the transaction `q` at position `t`: none of the first transaction of a block. cri
transaction.go:34-44, 107-112 and handles.go; chi chain.go:163-173, 184-200. The output spent is given by hash only. -/
def inputsOf (i : Iface) (st : Storage) (q : Transaction) (t : Nat) : Option (List ChainStore.Txi) :=
  if t = 0 ∧ i = .cri then some []
  else do
    let js ← indices i q.txisCount
    if t = 0 then some []
    else js.mapM fun j => (getTxi q st j).map fun x => ⟨x.txId, x.vOut, none, none⟩

/-- The outputs shown. cri transaction.go:46-52, 135-146; chi chain.go:175-181, 203-223 with
concreteappendablechain.go:890-899, concretehasheschain.go:163-173 (hash of the script). The script is a slice in one and
is copied byte by byte in the other. -/
def outputsOf (e : Env) (i : Iface) (st : Storage) (q : Transaction) : Option (List ChainStore.Txo) := do
  let js ← indices i q.txosCount
  js.mapM fun j => do
    let x ← getTxo q st j
    let script ← scriptOf st x
    some ⟨x.value, e.sha script, none⟩

/-- The `t`-th transaction shown: cri transaction.go:54-57, 90-101; chi chain.go:157-161. -/
def txOf (e : Env) (i : Iface) (p : Block) (t : Nat) (q : Transaction) : Option ChainStore.Tx := do
  let c := shown i p t q
  let xs ← inputsOf i p.storage c.1 c.2
  let ys ← outputsOf e i p.storage c.1
  some
    { hash := q.txId, height := none, nth := if i = .cri then some (t : Int) else none
      fields := [("size", c.1.size), ("vsize", c.1.vSize), ("weight", c.1.weight)], txis := xs, txos := ys }

/-- The block shown: cri block.go:24-57, 70-75; chi chain.go:120-144. `none` is a panic. -/
def adorn (e : Env) (i : Iface) (p : Block) (height : Int) (median : Nat) : Option ChainStore.Blk :=
  if i = .chi ∧ 2 ^ 32 < p.transactions.length then none
  else do
    let txs ← (p.transactions.zipIdx).mapM fun x => txOf e i p x.2 x.1
    some
      { hash := p.hash, height := if i = .cri then none else some height
        fields := [("time", p.time), ("mediantime", median), ("size", p.size), ("strippedsize", p.strippedSize),
          ("weight", p.weight), ("difficulty", e.difficulty p.nBits)]
        txs := txs }

/-! ## The loop over the blocks -/

/-- `GenesisBlock`, with the handle it returns. -/
def askFirst (i : Iface) (h : BlockHolder.Env) (s : State) : State × Out × Bytes :=
  match i with
  | .cri =>
    let r := BlockHolder.criGenesis h s
    (r.1, r.2, match r.2 with | .block b => b.blk.hash | _ => [])
  | .chi => BlockHolder.chiGenesis h s

/-- `NextBlock`, with the handle it returns. -/
def askNext (i : Iface) (h : BlockHolder.Env) (s : State) (handle : Bytes) : State × Out × Bytes :=
  match i with
  | .cri =>
    let r := BlockHolder.criNext h s handle
    (r.1, r.2, match r.2 with | .block b => b.blk.hash | _ => [])
  | .chi => BlockHolder.chiNext h s handle

/-- Where the blocks go: whether it is the holder's transaction indexer, what the indexer calls do to it, and what
appending a block does. -/
structure Sink (σ : Type) where
  indexer : Bool
  calls : σ → List Call → Except Fail σ
  append : σ → ChainStore.Blk → Except Fail σ

variable {σ : Type}

/-- The holder's surroundings while the state of the sink is `x` and the holder's is `s`. -/
def around (e : Env) (k : Sink σ) (x : σ) (s : State) : BlockHolder.Env :=
  { indexer := k.indexer
    accepts := fun log c => match k.calls x (log.drop s.calls.length ++ [c]) with | .ok _ => true | .error _ => false
    sort := e.sort }

/-- What the sink is after the indexer calls made between the holder states `s` and `s'`. -/
def absorb (k : Sink σ) (x : σ) (s s' : State) : Except Fail σ := k.calls x (s'.calls.drop s.calls.length)

/-- One round of the loops at 329-352, 421-437, 501-539, 599-623: the block held is `p`; it is appended and the next one is
asked for. The new state of the sink and, if there is a next block, what the next round starts from. The loop of the
handles interface ends when the handle is the invalid one. -/
def round (e : Env) (i : Iface) (k : Sink σ) (p : Block) (held : Held) (handle : Bytes) (s : State) (x : σ) :
    Except Fail (σ × Option (Held × Bytes × State)) :=
  if i = .chi ∧ handle = BlockHolder.invalidHandle then .ok (x, none)
  else
    match adorn e i p held.height held.median with
    | none => .error .panic
    | some b => do
      let x1 ← k.append x b
      let r := askNext i (around e k x1 s) s handle
      match r.2.1 with
      | .done => .ok (x1, none)
      | .err => .error .err
      | .panicked => .error .panic
      | .block held' => do
        let x2 ← absorb k x1 s r.1
        .ok (x2, some (held', r.2.2, r.1))

/-- The loop: the list is of the blocks still to come after the block held. -/
def loop (e : Env) (i : Iface) (k : Sink σ) : List Block → Block → Held → Bytes → State → σ → Except Fail σ
  | [], p, held, handle, s, x => do
    let r ← round e i k p held handle s x
    match r.2 with
    | none => .ok r.1
    -- not reached: the holder has nothing that did not come in
    | some _ => .error .panic
  | p' :: rest, p, held, handle, s, x => do
    let r ← round e i k p held handle s x
    match r.2 with
    | none => .ok r.1
    | some (held', handle', s') => loop e i k rest p' held' handle' s' r.1

/-- One phase over the blocks delivered by the pipeline; after them the holder reads the `nil` of the closed channel. -/
def phase (e : Env) (i : Iface) (k : Sink σ) (ps : List Block) (x : σ) : Except Fail σ :=
  let s := BlockHolder.create (ps.map fun p => some (proj p))
  let r := askFirst i (around e k x s) s
  match r.2.1, ps with
  | .err, _ => .error .err
  | .block held, p :: rest => do
    let x1 ← absorb k x s r.1
    loop e i k rest p held r.2.2 r.1 x1
  | _, _ => .error .panic

/-! ## The phases -/

/-- Phase one: no indexer (312, 404); concretehasheschain.go. -/
def hashSink : Sink Hashes := ⟨false, fun x _ => .ok x, ChainStore.appendHashes⟩

/-- concreteappendablechain.go:1008-1017: the chain as an indexer. -/
def applyCall (s : St) : Call → Except Fail St
  | .firstTrans block trans => do
    let f ← ChainStore.put 4 s.blkFirstTrans block trans
    .ok { s with blkFirstTrans := f }
  | .parentBlock trans block => do
    let f ← ChainStore.put 4 s.parentBlockOfTrans trans block
    .ok { s with parentBlockOfTrans := f }
  | .hashHeight _ _ => .ok s

/-- Call after call. -/
def applyCalls (s : St) : List Call → Except Fail St
  | [] => .ok s
  | c :: cs => do
    let s' ← applyCall s c
    applyCalls s' cs

/-- Phase three: the chain being written is the indexer. -/
def chainSink (i : Iface) : Sink St := ⟨true, applyCalls, ChainStore.appendBlock i⟩

/-- The non-essential ints asked for (219-221), with the widths of concreteappendablechainfactory.go:117-134. -/
def blkInts : List (String × Nat) :=
  [("time", 4), ("mediantime", 4), ("difficulty", 8), ("strippedsize", 4), ("size", 4), ("weight", 4)]
/-- See `blkInts`. -/
def trnInts : List (String × Nat) := [("size", 4), ("vsize", 4), ("weight", 4)]

/-- The three phases over what the pipeline delivers in phase one and in phase three. The package variables of the store
are -1 (main.go:58-59). -/
def phases (e : Env) (i : Iface) (ps1 ps3 : List Block) : Except Fail St := do
  let h ← phase e i hashSink ps1 ⟨[], [], []⟩
  phase e i (chainSink i) ps3 (ChainStore.create (-1) (-1) true h blkInts trnInts)

/-! ## Fetching -/

/-- The node: its answers to requests for headers and (up to three times) for a block, both by hash text. -/
structure Node where
  headers : Bytes → HashStream.Reply
  block : Bytes → List JsonBlock.Reply

/-- getparseblocksbinary.go:49-113 as the pipeline sees it. -/
def fetch (e : Env) (node : Node) (hash : Bytes) : Option Block :=
  match JsonBlock.fetchBinary e.sha (node.block (Hex.hashToHex hash)) with
  | .block b => some b
  | .panic => none

/-- `ps` is what the holder can receive when `blocks` blocks are asked for: the streamer ends without error, having sent
some hashes, and the goroutines have run, in any way, until nothing more can be done. -/
def Delivers (e : Env) (node : Node) (blocks : Int) (bloat threads : Nat) (ps : List Block) : Prop :=
  ∃ fuel sent, HashStream.stream node.headers blocks fuel = some ⟨sent, false⟩ ∧
    let c : Pipeline.Cfg Bytes Block := ⟨sent, fetch e node, bloat, threads⟩
    ∃ n s, Pipeline.Run c (Pipeline.start c) n s ∧ (∀ t, ¬ Pipeline.Step c s t) ∧ s.received = ps

end Verif.Run
