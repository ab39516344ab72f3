import Verif.Model.HashStore3

/-!
# Bulk indexing of a hash file in several passes (indexedhashes3/multipasspreloader.go, singlepass.go)

The goroutines are step machines: one reader feeding FIFO channels, one worker per channel, and the pool of
threads that sort the bins. A run is any sequence of steps, so the relations below cover every schedule.
File system errors are not modelled.
-/

namespace Verif.Bulk3

open Bins WordFile

/-- indexedhashes3/singlepass.go:47-53 `workItem`; `bin` is the number of the bin within the pass. -/
structure Work where
  bin : Nat
  sn : Nat
  hi : Nat
  th : Bytes
deriving DecidableEq

/-- singlepass.go:69-118: the reading loop of `readIn` from hash index `hi`: the work items sent, in order.
Bins outside [first, last) are skipped. -/
def readLoop (p : Params) (first last : Nat) (hi : Nat) : List Bytes → List Work
  | [] => []
  | h :: hs =>
    let bn := binNum p h
    if bn < first ∨ bn ≥ last then readLoop p first last (hi + 1) hs
    else { bin := bn - first, sn := sortNum p h, hi := hi, th := truncOf h } :: readLoop p first last (hi + 1) hs

/-- singlepass.go:92-97: the same loop's writes to the bin number file (first pass only). -/
def writeBinNums (p : Params) (w : WF) (hi : Nat) : List Bytes → WF
  | [] => w
  | h :: hs => writeBinNums p (writeWordAt w (binNum p h) hi) (hi + 1) hs

/-- State of the fan-out: work not yet sent, the channels, and the bins of the pass. -/
structure Fan where
  rest : List Work
  queues : Nat → List Work
  bins : Nat → Bytes
  crashed : Bool

/-- Function update. -/
def upd {α : Type} (f : Nat → α) (i : Nat) (v : α) : Nat → α := fun j => if j = i then v else f j

/-- singlepass.go:54-118: one step of the reader (send to channel `passBin % threads`, which has room for
1000 items, lines 57 and 113-114) or of worker `w` (receive one item and append it to its bin, lines 62-64 and
130-135). -/
inductive FanStep (p : Params) (threads : Nat) : Fan → Fan → Prop
  | send (s : Fan) (x : Work) (r : List Work) (hc : s.crashed = false) (hr : s.rest = x :: r)
      (hroom : (s.queues (x.bin % threads)).length < 1000) :
      FanStep p threads s
        { s with rest := r, queues := upd s.queues (x.bin % threads) (s.queues (x.bin % threads) ++ [x]) }
  | recv (s : Fan) (w : Nat) (x : Work) (q : List Work) (b : Bytes) (hc : s.crashed = false) (hw : w < threads)
      (hq : s.queues w = x :: q) (hb : appendBinEntry p (s.bins x.bin) x.sn x.hi x.th = some b) :
      FanStep p threads s { s with queues := upd s.queues w q, bins := upd s.bins x.bin b }
  | panic (s : Fan) (w : Nat) (x : Work) (q : List Work) (hc : s.crashed = false) (hw : w < threads)
      (hq : s.queues w = x :: q) (hb : appendBinEntry p (s.bins x.bin) x.sn x.hi x.th = none) :
      FanStep p threads s { s with crashed := true }

/-- Runs of the fan-out with their number of steps. -/
inductive FanRun (p : Params) (threads : Nat) : Nat → Fan → Fan → Prop
  | refl (s : Fan) : FanRun p threads 0 s s
  | step {n : Nat} {s t u : Fan} (h : FanRun p threads n s t) (st : FanStep p threads t u) :
      FanRun p threads (n + 1) s u

/-- singlepass.go:33-69: start of `readIn`: empty channels, empty bins (binbytes.go:22-39 `Reuse`). -/
def fanStart (work : List Work) : Fan :=
  { rest := work, queues := fun _ => [], bins := fun _ => [], crashed := false }

/-- singlepass.go:119-125: all work sent, channels closed and drained, workers gone. -/
def Fan.done (threads : Nat) (s : Fan) : Prop := s.rest = [] ∧ (∀ w, w < threads → s.queues w = []) ∧ s.crashed = false

/-- State of the sorting pool: shared counter, bins being sorted, bins of the pass. -/
structure Pool where
  counter : Nat
  claimed : List Nat
  bins : Nat → Bytes

/-- singlepass.go:199-231 `sortAndDeduplicateBins`: a thread claims the next bin number, or finishes one. -/
inductive PoolStep (p : Params) (threads : Nat) (sort : List Bytes → List Bytes) (first last : Nat) : Pool → Pool → Prop
  | claim (s : Pool) (hc : s.counter < last) (ht : s.claimed.length < threads) :
      PoolStep p threads sort first last s { s with counter := s.counter + 1, claimed := s.counter :: s.claimed }
  | finish (s : Pool) (b : Nat) (hb : b ∈ s.claimed) :
      PoolStep p threads sort first last s
        { s with claimed := s.claimed.erase b,
                 bins := upd s.bins (b - first) (sortAndDedup p sort (s.bins (b - first))) }

/-- Runs of the pool with their number of steps. -/
inductive PoolRun (p : Params) (threads : Nat) (sort : List Bytes → List Bytes) (first last : Nat) :
    Nat → Pool → Pool → Prop
  | refl (s : Pool) : PoolRun p threads sort first last 0 s s
  | step {n : Nat} {s t u : Pool} (h : PoolRun p threads sort first last n s t)
      (st : PoolStep p threads sort first last t u) : PoolRun p threads sort first last (n + 1) s u

/-- singlepass.go:214-230: every thread saw the counter at the end and left. -/
def Pool.done (last : Nat) (s : Pool) : Prop := last ≤ s.counter ∧ s.claimed = []

/-- singlepass.go:137-146 `writeFiles`: save the bins of the pass, from index `i`, `n` left. -/
def writeFiles (p : Params) (f : Files) (first : Nat) (bins : Nat → Bytes) (i : Nat) : Nat → Files
  | 0 => f
  | n+1 => writeFiles p (saveBin p f (first + i) (bins i)) first bins (i + 1) n

/-- What the preloader leaves on disk: the bin number file (open) and the bins. -/
structure Disk where
  nums : WF
  files : Files

/-- multipasspreloader.go:67-82 with singlepass.go:22-31, 33-128: one pass over `n` bins from `first`, for any
schedule. -/
def Pass (p : Params) (threads : Nat) (sort : List Bytes → List Bytes) (hashes : List Bytes) (first n : Nat)
    (d d' : Disk) : Prop :=
  ∃ k s m t, FanRun p threads k (fanStart (readLoop p first (first + n) 0 hashes)) s ∧ s.done threads ∧
    PoolRun p threads sort first (first + n) m ⟨first, [], s.bins⟩ t ∧ t.done (first + n) ∧
    d' = { nums := if first = 0 then writeBinNums p d.nums 0 hashes else d.nums,
           files := writeFiles p d.files first t.bins 0 n }

/-- multipasspreloader.go:42-47: bins per pass (`estimate` is the hash count estimate, `bytesPerPass` the memory
grant). -/
def binsPerPass (p : Params) (estimate bytesPerPass : Nat) : Nat :=
  let e := estimate / p.numberOfBins
  bytesPerPass / (p.entrySize * (if e = 0 then 1 else e))

/-- multipasspreloader.go:42-65: (first bin, number of bins) of each pass; `none` is the division by zero of
line 47. -/
def plan (p : Params) (estimate bytesPerPass : Nat) : Option (List (Nat × Nat)) :=
  let k := binsPerPass p estimate bytesPerPass
  if k = 0 then none
  else some ((List.range (1 + p.numberOfBins / k)).map fun pass =>
    (pass * k, if pass * k + k > p.numberOfBins then p.numberOfBins - pass * k else k))

/-- multipasspreloader.go:49-82: the passes one after the other. -/
inductive Passes (p : Params) (threads : Nat) (sort : List Bytes → List Bytes) (hashes : List Bytes) :
    List (Nat × Nat) → Disk → Disk → Prop
  | nil (d : Disk) : Passes p threads sort hashes [] d d
  | cons {x : Nat × Nat} {xs : List (Nat × Nat)} {d e g : Disk} (h : Pass p threads sort hashes x.1 x.2 d e)
      (t : Passes p threads sort hashes xs e g) : Passes p threads sort hashes (x :: xs) d g

/-- hashstorecreator.go:37-45 and multipasspreloader.go:156-189: the files at the start (in a folder without old
overflow files). -/
def diskStart (p : Params) : Disk :=
  { nums := WordFile.new (AppendOpt.openFile []) p.bytesRoomForBinNum 0, files := freshFiles p }

/-- multipasspreloader.go:36-94 `IndexTheHashes`: a complete run from fresh files ends in `d`. -/
def IndexTheHashes (p : Params) (estimate bytesPerPass threads : Nat) (sort : List Bytes → List Bytes)
    (hashes : List Bytes) (d : Disk) : Prop :=
  ∃ xs, plan p estimate bytesPerPass = some xs ∧ Passes p threads sort hashes xs (diskStart p) d

end Verif.Bulk3
