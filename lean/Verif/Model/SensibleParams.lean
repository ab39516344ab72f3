import Verif.Model.HashStore3

/-!
# The ready-made parameter sets and their choice (indexedhashes3/sensibleparams.go, jobs/yearstats.go,
jobs/intrinsicparallel.go)

The second argument of the constructor (the hash count estimate) is not part of `Params`: it only sizes the
preloaders' memory.
-/

namespace Verif.SensibleParams

open Bins

/-- The three hash stores of a chain. -/
inductive Kind where
  | blocks
  | transactions
  | addresses
deriving DecidableEq

/-- indexedhashes3/sensibleparams.go:5 `digitsPerNumberedFolder`. -/
def digits : Nat := 2

/-- sensibleparams.go:19-28 `Sensible16YearsAddressHashParams`, 30-39 `Sensible16YearsTransactionHashParams`,
41-50 `Sensible16YearsBlockHashParams` (which is given the transactions' index bits, not the 21 bits declared
for blocks at line 11). `none` is a panic of the constructor. -/
def sensible16 : Kind → Option Params
  | .addresses => newParams 32 digits 16777216 236 5
  | .transactions => newParams 31 digits 16777216 101 5
  | .blocks => newParams 31 digits 65536 29 6

/-- sensibleparams.go:63-72 `Sensible2YearsAddressHashParams`, 74-83 `Sensible2YearsTransactionHashParams`,
85-94 `Sensible2YearsBlockHashParams`. -/
def sensible2 : Kind → Option Params
  | .addresses => newParams 19 digits 65536 9 6
  | .transactions => newParams 18 digits 65536 10 6
  | .blocks => newParams 17 digits 256 440 7

/-- jobs/intrinsicparallel.go:80-88 (in `RunIntrinsic`): the parameters used for a run over `years` years. -/
def paramsFor (years : Nat) (k : Kind) : Option Params := if years = 2 then sensible2 k else sensible16 k

/-- jobs/yearstats.go:3-8 `blocksEachYear`. -/
def blocksEachYear : List Nat :=
  [0, 32879, 100888, 160463, 215006, 278460, 337312, 391569, 446472, 502401,
   556874, 611138, 664332, 717044, 770225, 824204, 877669, 888888, 970000, 1020000]

/-- yearstats.go:9-14 `transactionsEachYear`. -/
def transactionsEachYear : List Nat :=
  [0, 33100, 219927, 2134383, 10675169, 30358181, 55676798, 101532619, 184473419, 288705840,
   369960799, 489809099, 602400644, 699932865, 793116734, 947356729, 1139137995, 1200000000, 1300000000, 1400000000]

/-- intrinsicparallel.go:37-38: the blocks and transactions of a run; `none` is the index out of range panic for 20
years and more. -/
def target (years : Nat) : Option (Nat × Nat) :=
  match blocksEachYear[years]?, transactionsEachYear[years]? with
  | some b, some t => some (b, t)
  | _, _ => none

end Verif.SensibleParams
