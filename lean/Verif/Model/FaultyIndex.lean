import Verif.Model.Uniform
import Verif.Model.SelfTest3

/-!
# Reading the file of hashes from a disk that fails

The two loops that read `Hashes.hsh` in chunks (indexedhashes/multipasspreloader.go and indexedhashes3/multipasspreloader.go), and the
loop that reads it hash by hash (indexedhashes3/singlepass.go), when reads can fail. All else is as in `Verif.Uniform` and
`Verif.SelfTest3`: writes succeed, and so do the reads of the other files.
-/

namespace Verif.FaultyIndex

open Bins HashStores WordFile

/-- What becomes of the reads of a file, one after the other: an error (with no bytes read), or at most `k + 1` bytes. Reads
beyond the list give all the bytes asked for. -/
abbrev Reads := List (Option Nat)

/-- `os.File.Read` into a buffer of `size` bytes, with `file` what is left of the file: the bytes, and whether there was an error
(other than `io.EOF`). -/
def read (size : Nat) (reads : Reads) (file : Bytes) : Bytes × Bool :=
  match reads with
  | [] => (file.take size, false)
  | none :: _ => ([], true)
  | some k :: _ => (file.take (min size (k + 1)), false)

/-- The bytes of a read into a chunk, as the two loops take them: the error is dropped
(indexedhashes/multipasspreloader.go:133, 144 and indexedhashes3/multipasspreloader.go:114, 128). -/
def chunkOf (reads : Reads) (file : Bytes) : Bytes := (read 4096 reads file).1

theorem shrinks {reads : Reads} {file : Bytes} (h : chunkOf reads file ≠ []) :
    (file.drop (chunkOf reads file).length).length < file.length := by
  have h1 := List.length_pos_iff.mpr h
  have h2 : (chunkOf reads file).length ≤ file.length := by
    unfold chunkOf read
    split <;> simp <;> omega
  rw [List.length_drop]
  omega

/-- indexedhashes/multipasspreloader.go:122-147 `ReadIn`: `file` is what has not been read yet. -/
def readIn (divider : Nat) (p : Uniform.Pass) (i : Nat) (reads : Reads) (file : Bytes) : Option Uniform.Pass :=
  if _h : chunkOf reads file = [] then some p
  else if (chunkOf reads file).length % 32 ≠ 0 then none
  else readIn divider (Uniform.dealChunk divider p i (chunkOf reads file)) (i + (chunkOf reads file).length / 32) reads.tail
    (file.drop (chunkOf reads file).length)
termination_by file.length
decreasing_by exact shrinks _h

/-- indexedhashes/multipasspreloader.go:272-296: one pass, for bins `first` to `first + count`. -/
def onePass (reads : Reads) (s : Uniform.Store) (first count : Nat) : Option Uniform.Store :=
  (readIn s.divider (Uniform.newPass first count) 0 reads s.hashes).map fun p =>
    { s with binStarts := s.binStarts.map fun b => Uniform.writeBins b p.first p.bins
             overflow := Uniform.writeOverflows s.digits s.overflow p.first p.overflows }

/-- indexedhashes/multipasspreloader.go:272-296: the passes from number `pass` on, `n` of them; `reads` are the reads of each. -/
def passes (reads : Nat → Reads) (per big : Nat) (s : Uniform.Store) (pass : Nat) : Nat → Option Uniform.Store
  | 0 => some s
  | n + 1 =>
    let first := pass * per
    let count := if first + per > big then big - first else per
    match onePass (reads pass) s first count with
    | none => none
    | some s' => passes reads per big s' (pass + 1) n

/-- indexedhashes/multipasspreloader.go:236-302 `CreateInitialFiles` and `IndexTheHashes`. -/
def indexTheHashes (reads : Nat → Reads) (biggest grant : Nat) (s : Uniform.Store) : Uniform.Outcome Uniform.Store :=
  let s := { s with binStarts := some (zeros (832 * biggest)) }
  let per := grant / 832
  if per = 0 then .panic
  else
    match passes reads per biggest s 0 (1 + biggest / per) with
    | none => .err
    | some s' => .ok s'

/-- indexedhashes3/multipasspreloader.go:109-129: read and test until a read gives nothing; `rest` is what is left of the file. -/
def testLoop (fl : Rat → Rat) (p : Params) (s : HashStore3.Store) (i : Nat) (reads : Reads) (rest : Bytes) : Option SelfTest3.Report :=
  if hr : chunkOf reads rest = [] then some ⟨[], .passed⟩
  else if (chunkOf reads rest).length % 32 ≠ 0 then some ⟨[], .ragged⟩
  else
    match SelfTest3.testHashes fl p s i (SelfTest3.cut (chunkOf reads rest)) with
    | none => none
    | some (_, r, some v) => some ⟨r, v⟩
    | some (s1, r, none) =>
      (testLoop fl p s1 (i + (chunkOf reads rest).length / 32) reads.tail (rest.drop (chunkOf reads rest).length)).map
        fun x => ⟨r ++ x.remarks, x.verdict⟩
termination_by rest.length
decreasing_by exact shrinks hr

/-- indexedhashes3/multipasspreloader.go:91-131 `TestTheHashes`. -/
def testTheHashes (fl : Rat → Rat) (p : Params) (nums : Bytes) (f : Files) (reads : Reads) (hashes : Bytes) :
    Option SelfTest3.Report :=
  match HashStore3.openStore p nums f false with
  | none => some ⟨[], .failed⟩
  | some s => testLoop fl p s 0 reads hashes

/-- indexedhashes3/singlepass.go:44-50, 71-87: `io.ReadFull` of one hash after the other from a reader with a buffer of 8 MiB, until
`io.EOF`; `none` is an error returned. `buf` are the bytes in the buffer. -/
def readHashes (buf : Bytes) (reads : Reads) (file : Bytes) : Option (List Bytes) :=
  if 32 ≤ buf.length then (readHashes (buf.drop 32) reads file).map fun L => buf.take 32 :: L
  else if (read 8388608 reads file).2 then none
  else if (read 8388608 reads file).1 = [] then if buf = [] then some [] else none
  else readHashes (buf ++ (read 8388608 reads file).1) reads.tail (file.drop (read 8388608 reads file).1.length)
termination_by (file.length, buf.length)
decreasing_by
  · apply Prod.Lex.right
    rw [List.length_drop]
    omega
  · apply Prod.Lex.left
    rename_i _ _ h
    have h1 := List.length_pos_iff.mpr h
    have h2 : (read 8388608 reads file).1.length ≤ file.length := by
      unfold read
      split <;> simp <;> omega
    rw [List.length_drop]
    omega

end Verif.FaultyIndex
