import Verif.Model.Uniform

/-!
# The files of parameters of the hash stores (`HashIndexingParams.json`, `Params.json`)

`json.Marshal` of a struct of numbers, `json.Unmarshal` into it, and the files in between. A text is the list of its characters, all
of one byte. Simplifications: `json.Unmarshal` is modelled for objects of whole numbers without white space, with keys without
escapes; any other text is an error here (the texts that are written, and their beginnings, are all of this kind). A key must be
exactly that of the field.
-/

namespace Verif.ParamFile

abbrev Text := List Char

/-- Go's `strconv.AppendUint` to the base 10. -/
def digits (n : Nat) : Text :=
  if n < 10 then [Char.ofNat (48 + n)] else digits (n / 10) ++ [Char.ofNat (48 + n % 10)]

/-- Go's `strconv.AppendInt` to the base 10. -/
def intText (z : Int) : Text := if z < 0 then '-' :: digits z.natAbs else digits z.natAbs

/-- The members of an object, in the order of the fields. -/
def membersText : List (Text × Int) → Text
  | [] => []
  | [kv] => '"' :: kv.1 ++ '"' :: ':' :: intText kv.2
  | kv :: kvs => ('"' :: kv.1 ++ '"' :: ':' :: intText kv.2) ++ ',' :: membersText kvs

/-- `json.Marshal` of a struct of numbers, as its keys and numbers. -/
def marshal (kvs : List (Text × Int)) : Text := '{' :: membersText kvs ++ ['}']

/-- The characters of a number. -/
def isDigit (c : Char) : Bool := decide (48 ≤ c.toNat ∧ c.toNat ≤ 57)

/-- The number of a string of digits. -/
def value (ds : Text) : Nat := ds.foldl (fun a c => 10 * a + (c.toNat - 48)) 0

/-- The digits at the front of a text, as a number: there is one, and the first is not 0 if there are more. -/
def readDigits (t : Text) : Option (Nat × Text) :=
  let ds := t.takeWhile isDigit
  if ds = [] ∨ (ds.head? = some '0' ∧ 1 < ds.length) then none else some (value ds, t.dropWhile isDigit)

/-- A whole number at the front of a text, and what follows it. -/
def readInt : Text → Option (Int × Text)
  | '-' :: t => (readDigits t).map fun x => (-(x.1 : Int), x.2)
  | t => (readDigits t).map fun x => ((x.1 : Int), x.2)

/-- A string at the front of a text, and what follows it. -/
def readString : Text → Option (Text × Text)
  | '"' :: t =>
    let s := t.takeWhile fun c => c ≠ '"'
    match t.dropWhile fun c => c ≠ '"' with
    | [] => none
    | _ :: u => if '\\' ∈ s then none else some (s, u)
  | _ => none

/-- The members of an object and its end, with nothing behind it. `fuel` is a bound on the number of members. -/
def readMembers : Nat → Text → Option (List (Text × Int))
  | 0, _ => none
  | fuel + 1, t =>
    match readString t with
    | some (k, ':' :: u) =>
      match readInt u with
      | some (z, ['}']) => some [(k, z)]
      | some (z, ',' :: w) => (readMembers fuel w).map fun kvs => (k, z) :: kvs
      | _ => none
    | _ => none

/-- An object of whole numbers that is the whole of a text (every member has at least one character). -/
def readObject : Text → Option (List (Text × Int))
  | ['{', '}'] => some []
  | '{' :: t => readMembers t.length t
  | _ => none

/-- `json.Unmarshal` into a number field that was 0: the last member of that key counts; a number outside of the type is an error. -/
def field (kvs : List (Text × Int)) (key : Text) (lo hi : Int) : Option Int :=
  if kvs.any fun kv => kv.1 == key && !decide (lo ≤ kv.2 ∧ kv.2 < hi) then none
  else some (((kvs.filter fun kv => kv.1 == key).getLast?.map (·.2)).getD 0)

/-- An `int64` field, or an `int` field. -/
def field64 (kvs : List (Text × Int)) (key : Text) : Option Int := field kvs key (-2 ^ 63) (2 ^ 63)

/-! ## The parameters of the binned store -/

/-- indexedhashes3/params.go:3-21 `HashIndexingParams`: the fields that go to the file. -/
structure Binned where
  bitsPerHashIndex : Int
  hashCountEstimate : Int
  numberOfBins : Int
  entriesInBinStart : Int
  digitsPerNumberedFolder : Int
  bytesPerSortNum : Int
deriving DecidableEq, Repr

/-- params.go:5-15: the fields with their keys. -/
def Binned.members (p : Binned) : List (Text × Int) :=
  [("bitsPerHashIndex".toList, p.bitsPerHashIndex), ("hashCountEstimate".toList, p.hashCountEstimate),
   ("numberOfBins".toList, p.numberOfBins), ("entriesInBinStart".toList, p.entriesInBinStart),
   ("digitsPerNumberedFolder".toList, p.digitsPerNumberedFolder), ("bytesPerSortNum".toList, p.bytesPerSortNum)]

/-- `json.Unmarshal` into `HashIndexingParams`. -/
def Binned.ofText (t : Text) : Option Binned := do
  let kvs ← readObject t
  let a ← field64 kvs "bitsPerHashIndex".toList
  let b ← field64 kvs "hashCountEstimate".toList
  let c ← field64 kvs "numberOfBins".toList
  let d ← field64 kvs "entriesInBinStart".toList
  let e ← field64 kvs "digitsPerNumberedFolder".toList
  let f ← field64 kvs "bytesPerSortNum".toList
  return ⟨a, b, c, d, e, f⟩

/-! ## The parameters of the uniform store -/

/-- indexedhashes/uniform.go:76-79 `UniformHashStoreParams`. -/
structure Uniform where
  hashDivider : Int
  digitsPerFolder : Int
deriving DecidableEq, Repr

/-- uniform.go:76-79: the fields with their keys. -/
def Uniform.members (p : Uniform) : List (Text × Int) :=
  [("hashDivider".toList, p.hashDivider), ("digitsPerFolder".toList, p.digitsPerFolder)]

/-- `json.Unmarshal` into `UniformHashStoreParams`. -/
def Uniform.ofText (t : Text) : Option Uniform := do
  let kvs ← readObject t
  let a ← field kvs "hashDivider".toList 0 (2 ^ 64)
  let b ← field64 kvs "digitsPerFolder".toList
  return ⟨a, b⟩

/-! ## The files -/

/-- What becomes of a file that is made and written: it cannot be made, and whatever was there stays; or it has the first bytes
of what was to be written (all of them if there are not as many). -/
inductive Fate where
  | notMade
  | wrote (k : Nat)

/-- The file afterwards. -/
def Fate.file (old : Option Text) (t : Text) : Fate → Option Text
  | .notMade => old
  | .wrote k => some (t.take k)

/-- indexedhashes3/hashstorecreator.go:28-31 (`NewHashStoreCreatorAndPreloader`) and 53-56
(`NewHashStoreCreatorAndPreloaderAdaptive`): the parameters of the creator, and the file of parameters. Every error is dropped. -/
def newBinned (fate : Fate) (old : Option Text) (p : Binned) : Binned × Option Text := (p, fate.file old (marshal p.members))

/-- hashstorecreator.go:75-97 `NewHashStoreCreatorFromFile`: the parameters of the creator. The derived values (params.go:48-59) are
functions of the fields; without bins there is a division by zero. -/
def binnedFromFile (file : Option Text) : Verif.Uniform.Outcome Binned :=
  match file with
  | none => .err
  | some t =>
    match Binned.ofText t with
    | none => .err
    | some p => if p.numberOfBins = 0 ∨ p.numberOfBins = 1 then .panic else .ok p

/-- indexedhashes/uniform.go:67-71 (`NewUniformHashStoreCreatorPrivate`). Every error is dropped. -/
def newUniform (fate : Fate) (old : Option Text) (p : Uniform) : Uniform × Option Text := (p, fate.file old (marshal p.members))

/-- uniform.go:113-138 `CreateHashStore`, once the old folder has been removed: does it return nil, and the file of parameters. The
file is opened with `O_CREATE` alone (line 129), for reading only: where the system minds, as POSIX ones do, nothing is written
and the result is an error (`.wrote 0`). The other file it makes is left out. -/
def createUniform (fate : Fate) (p : Uniform) : Bool × Option Text :=
  match fate with
  | .notMade => (false, none)
  | .wrote k => (decide ((marshal p.members).length ≤ k), some ((marshal p.members).take k))

/-- uniform.go:26-48 `NewUniformHashStoreCreatorAndPreloaderFromFile`: the parameters of the creator. -/
def uniformFromFile (file : Option Text) : Verif.Uniform.Outcome Uniform :=
  match file with
  | none => .err
  | some t =>
    match Uniform.ofText t with
    | none => .err
    | some p => .ok p

end Verif.ParamFile
