import Verif.Model.Bulk3

/-!
# Bulk indexing in adaptive passes (indexedhashes3/adaptivepass.go, adaptivepasspreloader.go)

Line numbers are of adaptivepass.go. The reader, the workers and the collector are a step machine; a run is any
sequence of steps. File system errors are not modelled. `sort.Slice` by descending count is any function
returning a permutation (it need not be stable). In-place sorting inside a bin's own segment of the buffer is
not written back to the buffer (the segment is not read again).
-/

namespace Verif.Adaptive3

open Bins WordFile Bulk3

/-- 46-49 `binWorkInfo`. -/
structure Info where
  bin : Nat
  count : Nat
deriving DecidableEq, Repr

/-- 79-95: the counting loop; `none` = index out of range panic. -/
def countLoop (p : Params) : List Info → List Bytes → Option (List Info)
  | r, [] => some r
  | r, h :: hs =>
    if binNum p h < r.length then
      countLoop p (r.modify (binNum p h) fun i => { i with count := i.count + 1 }) hs
    else none

/-- 52-102 `stageOneCountBinWork`. -/
def stageOne (p : Params) (hashes : List Bytes) : Option (List Info) :=
  countLoop p ((List.range p.numberOfBins).map fun b => ⟨b, 0⟩) hashes

/-- 130-153: design one pass. The flags are `workItemScheduled`, `work` is `passHashesWork`, `biggest` is
`thisIsBiggest`. Result: the pass and the new flags. -/
def designPass (budget : Int) : Int → Bool → List (Info × Bool) → List Info × List (Info × Bool)
  | _, _, [] => ([], [])
  | work, biggest, (wi, scheduled) :: rest =>
    if scheduled then
      let r := designPass budget work biggest rest
      (r.1, (wi, true) :: r.2)
    else if budget - work > wi.count ∨ biggest then
      let r := designPass budget (work + wi.count) false rest
      (wi :: r.1, (wi, true) :: r.2)
    else
      let r := designPass budget work biggest rest
      (r.1, (wi, false) :: r.2)

/-- 127-153: design the passes, while fewer bins are allocated than there are. The Go loop has no bound; `fuel`
bounds the number of passes and `none` means that it was not enough. -/
def designLoop (budget : Int) (numberOfBins : Nat) : Nat → Nat → List (Info × Bool) → Option (List (List Info))
  | fuel, allocated, l =>
    if allocated < numberOfBins then
      match fuel with
      | 0 => none
      | fuel+1 =>
        let r := designPass budget 0 true l
        (designLoop budget numberOfBins fuel (allocated + r.1.length) r.2).map fun ps => r.1 :: ps
    else some []

/-- 110: `hashesWorkBudget`. -/
def budgetOf (p : Params) (gb : Nat) : Int := (1024 * 1024 * 1024 * gb / p.entrySize : Nat)

/-- 110-153: all passes; `sortDesc` is the sort of line 116. -/
def design (p : Params) (gb : Nat) (sortDesc : List Info → List Info) (infos : List Info) : Option (List (List Info)) :=
  designLoop (budgetOf p gb) infos.length infos.length 0 ((sortDesc infos).map fun i => (i, false))

/-- 179-186: the first worker with the least work. -/
def leastWorker (work : List Nat) : Nat := work.findIdx fun x => work.all fun y => x ≤ y

/-- A bin's place: its worker, the byte offset in the worker's buffer and the bytes set aside. -/
structure Slot where
  bin : Nat
  worker : Nat
  off : Nat
  max : Nat
deriving DecidableEq, Repr

/-- 172-191 and 230-244: hand out the bins to workers (`work` is `workerHashWork`) and carve up the workers'
buffers. The two Go loops over the same list are one here: a worker's byte pointer is its work so far times the
entry size. -/
def carve (p : Params) : List Nat → List Info → List Slot × List Nat
  | work, [] => ([], work)
  | work, wi :: rest =>
    let w := leastWorker work
    let r := carve p (work.set w (work.getD w 0 + wi.count)) rest
    (⟨wi.bin, w, work.getD w 0 * p.entrySize, wi.count * p.entrySize⟩ :: r.1, r.2)

/-- 365-382: the work sent in one pass: (worker, item) for hashes whose bin is in `binToWorkerMap`. -/
def sendList (p : Params) (slots : List Slot) (hi : Nat) : List Bytes → List (Nat × Work)
  | [] => []
  | h :: hs =>
    match slots.find? fun s => s.bin = binNum p h with
    | none => sendList p slots (hi + 1) hs
    | some s => (s.worker, ⟨binNum p h, sortNum p h, hi, truncOf h⟩) :: sendList p slots (hi + 1) hs

/-- State of a pass. `pos` is `writeByteOffsets`; `closed` is the number of input channels the reader has closed;
`todo` are the slots a worker has not put out yet. -/
structure St where
  rest : List (Nat × Work)
  queues : Nat → List Work
  closed : Nat
  pos : Nat → Nat
  bufs : Nat → Bytes
  todo : Nat → List Slot
  results : List (Nat × Bytes)
  crashed : Bool

/-- 196-262, 287-290: start of a pass. -/
def start (p : Params) (slots : List Slot) (work : List Nat) (send : List (Nat × Work)) : St :=
  { rest := send, queues := fun _ => [], closed := 0
    pos := fun b => ((slots.find? fun s => s.bin = b).map Slot.off).getD 0
    bufs := fun w => zeros (work.getD w 0 * p.entrySize)
    todo := fun w => slots.filter fun s => s.worker = w
    results := [], crashed := false }

/-- One step of a pass. The reader sends (381; channels hold 100000 items), and after the last hash closes the
channels one by one (395-397); a worker without bins has had its channel closed already (268-271), so that close
panics. A worker takes an item (296-311); a bad entry or offset panics. A worker whose channel is closed and
empty puts out one of its bins (315-333; map order, so any). -/
inductive Step (p : Params) (sort : List Bytes → List Bytes) (threads : Nat) (slots : List Slot) : St → St → Prop
  | send (s : St) (w : Nat) (x : Work) (r : List (Nat × Work)) (hc : s.crashed = false) (hr : s.rest = (w, x) :: r)
      (hroom : (s.queues w).length < 100000) :
      Step p sort threads slots s { s with rest := r, queues := upd s.queues w (s.queues w ++ [x]) }
  | close (s : St) (hc : s.crashed = false) (hr : s.rest = []) (ht : s.closed < threads)
      (hb : ∃ sl ∈ slots, sl.worker = s.closed) :
      Step p sort threads slots s { s with closed := s.closed + 1 }
  | closePanic (s : St) (hc : s.crashed = false) (hr : s.rest = []) (ht : s.closed < threads)
      (hb : ∀ sl ∈ slots, sl.worker ≠ s.closed) :
      Step p sort threads slots s { s with crashed := true }
  | recv (s : St) (w : Nat) (x : Work) (q : List Work) (e : Bytes) (hc : s.crashed = false) (hw : w < threads)
      (hq : s.queues w = x :: q) (he : encEntry p x.th x.hi x.sn = some e)
      (hbound : s.pos x.bin + p.entrySize ≤ (s.bufs w).length) :
      Step p sort threads slots s
        { s with queues := upd s.queues w q, pos := upd s.pos x.bin (s.pos x.bin + p.entrySize)
                 bufs := upd s.bufs w (copyAt (s.bufs w) (s.pos x.bin) e) }
  | recvPanic (s : St) (w : Nat) (x : Work) (q : List Work) (hc : s.crashed = false) (hw : w < threads)
      (hq : s.queues w = x :: q)
      (hbad : encEntry p x.th x.hi x.sn = none ∨ (s.bufs w).length < s.pos x.bin + p.entrySize) :
      Step p sort threads slots s { s with crashed := true }
  | emit (s : St) (w : Nat) (sl : Slot) (hc : s.crashed = false) (hw : w < threads) (hcl : w < s.closed)
      (hq : s.queues w = []) (hs : sl ∈ s.todo w) :
      Step p sort threads slots s
        { s with todo := upd s.todo w ((s.todo w).erase sl)
                 results := s.results ++ [(sl.bin, sortAndDedup p sort (slice (s.bufs w) sl.off sl.max))] }

/-- Runs with their number of steps. -/
inductive Run (p : Params) (sort : List Bytes → List Bytes) (threads : Nat) (slots : List Slot) : Nat → St → St → Prop
  | refl (s : St) : Run p sort threads slots 0 s s
  | step {n : Nat} {s t u : St} (h : Run p sort threads slots n s t) (st : Step p sort threads slots t u) :
      Run p sort threads slots (n + 1) s u

/-- 402-414: everything is done. -/
def St.done (threads : Nat) (s : St) : Prop :=
  s.rest = [] ∧ s.closed = threads ∧ (∀ w, w < threads → s.queues w = [] ∧ s.todo w = []) ∧ s.crashed = false

/-- 423-429: save the results. -/
def saveResults (p : Params) (f : Files) : List (Nat × Bytes) → Files
  | [] => f
  | (bn, b) :: rest => saveResults p (saveBin p f bn b) rest

/-- 168-445: one pass over the bins `items`, for any schedule. -/
def Pass (p : Params) (sort : List Bytes → List Bytes) (threads : Nat) (hashes : List Bytes) (isFirst : Bool)
    (items : List Info) (d d' : Disk) : Prop :=
  let c := carve p (List.replicate threads 0) items
  ∃ n s, Run p sort threads c.1 n (start p c.1 c.2 (sendList p c.1 0 hashes)) s ∧ s.done threads ∧
    d' = { nums := if isFirst then writeBinNums p d.nums 0 hashes else d.nums
           files := saveResults p d.files (s.results.mergeSort fun a b => a.1 ≤ b.1) }

/-- 127-446: the passes one after the other. -/
inductive Passes (p : Params) (sort : List Bytes → List Bytes) (threads : Nat) (hashes : List Bytes) :
    Bool → List (List Info) → Disk → Disk → Prop
  | nil (b : Bool) (d : Disk) : Passes p sort threads hashes b [] d d
  | cons {b : Bool} {x : List Info} {xs : List (List Info)} {d e g : Disk} (h : Pass p sort threads hashes b x d e)
      (t : Passes p sort threads hashes false xs e g) : Passes p sort threads hashes b (x :: xs) d g

/-- adaptivepasspreloader.go:31-57 `IndexTheHashes`: a complete run from fresh files ends in `d`. -/
def IndexTheHashes (p : Params) (gb threads : Nat) (sortDesc : List Info → List Info) (sort : List Bytes → List Bytes)
    (hashes : List Bytes) (d : Disk) : Prop :=
  ∃ infos passes, stageOne p hashes = some infos ∧ design p gb sortDesc infos = some passes ∧
    Passes p sort threads hashes true passes (diskStart p) d

end Verif.Adaptive3
