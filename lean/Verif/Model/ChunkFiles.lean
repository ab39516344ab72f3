import Verif.Model.Chunk

/-!
# Files of chunks

Models weddingcake/chunkfiles.go.

Simplifications.
* A folder is the contents of `ChunksInfo.bin` and of the files `Level%02X.bin` by level number; other than a missing
  file, no operation on files fails, with one exception: mapping an empty file is an error (the system call refuses a
  length of 0).
* A memory map is the contents of the file when mapped; closing and unmapping have no effect on them.
* The reader's fields are the arguments and results. If the reader returns an error, what it has read so far is not
  modelled.
-/

namespace Verif.Chunk

/-- The files of a folder. -/
structure Folder where
  info : Option Bytes
  level : Nat → Option Bytes

/-! ## Writing -/

/-- chunkfiles.go:48-56, one level. -/
def lengthBytes (lv : Level) : Bytes := leEnc 8 lv.index.length ++ leEnc 8 lv.nodes.length

/-- chunkfiles.go:43-56: the record of a chunk. -/
def infoBytes (ch : Chunk) : Bytes :=
  leEnc 8 (toU64 ch.first) ++ UInt8.ofNat ch.levels.length :: ch.levels.flatMap lengthBytes

/-- A `Write` to a level file opened with `O_APPEND|O_CREATE`. -/
def addTo (f : Nat → Option Bytes) (n : Nat) (d : Bytes) : Nat → Option Bytes :=
  fun k => if k = n then some ((f k).getD [] ++ d) else f k

/-- The loop at chunkfiles.go:67-90, from level `n` on. -/
def appendLevels : Nat → List Level → (Nat → Option Bytes) → Nat → Option Bytes
  | _, [], f => f
  | n, lv :: lvs, f => appendLevels (n + 1) lvs (addTo (addTo f n lv.index) n lv.nodes)

/-- chunkfiles.go:33-93 `AppendChunk`; `none` is an error. -/
def appendChunk (d : Folder) (ch : Chunk) : Option Folder :=
  match d.info with
  | none => none
  | some info => some ⟨some (info ++ infoBytes ch), appendLevels 0 ch.levels d.level⟩

/-! ## Reading -/

/-- How reading ends. -/
inductive Outcome (α : Type) where
  | ok (a : α)
  | error
  | panic
deriving DecidableEq, Repr

/-- The loop at chunkfiles.go:185-208, from level `n` on, `k` more; `none` is an error. -/
def mapFrom (f : Nat → Option Bytes) : Nat → Nat → Option (List Bytes)
  | 0, _ => some []
  | k + 1, n =>
    match f n with
    | none => some []
    | some [] => none
    | some (b :: bs) => (mapFrom f k (n + 1)).map ((b :: bs) :: ·)

/-- `m[a : a+n]` with `uint64` operands; `none` is a panic. -/
def sliceU64 (m : Bytes) (a n : Nat) : Option Bytes :=
  if a ≤ (a + n) % 2 ^ 64 ∧ (a + n) % 2 ^ 64 ≤ m.length then some (slice m a ((a + n) % 2 ^ 64 - a)) else none

/-- The loop at chunkfiles.go:151-170, `k` more levels from level `n` on: the levels, the bytes left in the record file,
the bytes accounted for. -/
def readLevels (maps : List Bytes) : Nat → Nat → Bytes → (Nat → Nat) → Outcome (List Level × Bytes × (Nat → Nat))
  | 0, _, rest, acc => .ok ([], rest, acc)
  | k + 1, n, rest, acc =>
    if rest.length < 8 + 8 then .error
    else
      match maps[n]? with
      | none => .panic
      | some m =>
        let il := leDec (rest.take 8)
        let nl := leDec ((rest.drop 8).take 8)
        let a := acc n
        let b := (a + il) % 2 ^ 64
        match sliceU64 m a il, sliceU64 m b nl with
        | some index, some nodes =>
          match readLevels maps k (n + 1) (rest.drop 16) (fun i => if i = n then (b + nl) % 2 ^ 64 else acc i) with
          | .ok (lvs, r) => .ok (⟨index, nodes⟩ :: lvs, r)
          | .error => .error
          | .panic => .panic
        | _, _ => .panic

/-- A `Chunk` as just made at chunkfiles.go:132. -/
def blank (c : Config) : Chunk := ⟨c, 0, []⟩

/-- The loop at chunkfiles.go:130-171. `chunkIndex` is 0 in every round. The first argument bounds the number of rounds
(each takes bytes off `rest`, so the number of bytes is enough). -/
def readChunks (c : Config) (maps : List Bytes) : Nat → Bytes → (Nat → Nat) → List Chunk → Outcome (List Chunk)
  | _, [], _, chunks => .ok chunks
  | 0, _ :: _, _, _ => .panic
  | fuel + 1, b :: bs, acc, chunks =>
    let rest := b :: bs
    if rest.length < 8 then .error
    else
      match rest.drop 8 with
      | [] => .error
      | count :: rest' =>
        if maps.length < count.toNat then .panic
        else
          match readLevels maps count.toNat 0 rest' acc with
          | .ok (lvs, rest'', acc') =>
            readChunks c maps fuel rest'' acc' ((chunks ++ [blank c]).set 0 ⟨c, ofU64 (leDec (rest.take 8)), lvs⟩)
          | .error => .error
          | .panic => .panic

/-- chunkfiles.go:95-173 `ReadAndMmap` by a new reader: the chunks. -/
def readAndMap (c : Config) (d : Folder) : Outcome (List Chunk) :=
  match mapFrom d.level 65 0 with
  | none => .error
  | some maps =>
    match d.info with
    | none => .error
    | some bytes =>
      if bytes.length = 0 ∧ maps.length > 0 then .panic
      else readChunks c maps bytes.length bytes (fun _ => 0) []

end Verif.Chunk
