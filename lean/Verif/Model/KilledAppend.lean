import Verif.Model.ChainedHashStore

/-!
# indexedhashes/hashstore.go: the writes of one `AppendHash`, one after another

`Verif.ChainedHashStore.appendHash` gives what the three files are like after an append; here are the single `WriteAt` calls it
consists of, so that the process can end between any two of them. Each call is taken to be done altogether or not at all. The
files are plain ones, so what has been written is on disk; opening them again gives the same words.
-/

namespace Verif.KilledAppend

open ChainedHashStore

/-- One `WriteAt`: the hash at the end of the hashes file, a word of the lookups, words behind the end of the collisions file,
a word in it. -/
inductive Write
  | hash (h : Bytes)
  | look (key v : Nat)
  | tail (ws : List Nat)
  | word (i v : Nat)
deriving DecidableEq, Repr

/-- The files after one write. -/
def apply (s : CH) : Write → CH
  | .hash h => { s with hashes := s.hashes ++ [h] }
  | .look key v => setLookup s key v
  | .tail ws => { s with coll := s.coll ++ ws }
  | .word i v => { s with coll := s.coll.set i v }

/-- The files after several writes. -/
def applyAll (s : CH) (l : List Write) : CH := l.foldl apply s

/-- hashstore.go:153-244: the writes made while looking for a vacant slot (none, or a chunk of zeros, 200, and the link to it,
208), and the slot. -/
def slotWrites (p : Params) (coll : List Nat) : Nat → Nat → Option (List Write × Nat)
  | 0, _ => none
  | fuel + 1, chunk =>
    match readChunk p coll chunk with
    | none => none
    | some ws =>
      match (ws.take p.cpc).findIdx? (· == 0) with
      | some j => some ([], chunk * (p.cpc + 1) + j)
      | none =>
        if ws.getD p.cpc 0 = 0 then
          some ([.tail (List.replicate (p.cpc + 1) 0),
            .word (chunk * (p.cpc + 1) + p.cpc) (put p (coll.length / (p.cpc + 1) + 1))], coll.length / (p.cpc + 1) * (p.cpc + 1))
        else slotWrites p coll fuel (ws.getD p.cpc 0 - 1)

/-- hashstore.go:75-254: the writes after the hash itself: into a vacant lookup (91); for a first collision the lookup (118),
the old entry (126), the new entry (133) and zeros (140); for a further one those of `slotWrites` and the entry (247). -/
def indexWrites (p : Params) (s : CH) (key index : Nat) : List Write :=
  let lookup := s.lookups key
  if lookup = 0 then [.look key (put p (index + 1))]
  else if hasMsb p lookup = false then
    [.look key (put p ((s.coll.length / (p.cpc + 1) + 1) ||| msb p)), .tail [lookup], .tail [put p (index + 1)],
      .tail (List.replicate (p.cpc - 1) 0)]
  else
    match slotWrites p s.coll (s.coll.length + 1) (lookup - msb p - 1) with
    | some (ws, slot) => ws ++ [.word slot (put p (index + 1))]
    | none => []

/-- hashstore.go:35-255 `AppendHash`: all its writes, the hash first (43). -/
def writes (p : Params) (s : CH) (h : Bytes) : List Write := .hash h :: indexWrites p s (keyOf p h) s.hashes.length

/-- The files when the process ends after `n` of the writes of appending `h`. -/
def killedAfter (p : Params) (s : CH) (h : Bytes) (n : Nat) : CH := applyAll s ((writes p s h).take n)

end Verif.KilledAppend
