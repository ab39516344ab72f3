import Verif.Props.BinDiskBins

/-! # The session after a kill within an append to a binned hash store (C121) -/

namespace Verif.BinKill

open Bins HashStores WordFile
open HashStore3 (ParamsOK Appendable openStore)
open BinDisk (Fates SparedSession)

/-- **C121, the session after a kill at any moment of an append.** Any hashes are appended to a new store and it is synced. Then
another one is being appended, and the process is killed: before or after any of the calls, or with a write of which any number of
bytes has been done. The store opens again, and in any session after that, reopenings and even failures of the disk included,
`CountHashes` is right and every answer about the bins other than that of the interrupted hash is what it would be had the interrupted
append never been called. For all parameters, sessions and hashes. -/
theorem the_session_after_a_kill {fl : Rat → Rat} (hfl : FloatOK fl) {p : Params} (hp : ParamsOK p) {L : List Bytes} {h : Bytes}
    (hA : Usable p (L ++ [h])) (ft : Fates) (hft : ft.ovfRead = true) (ops : List BinDisk.Op)
    (hO : Appendable p (L ++ BinDisk.tried ops)) (hq : ∀ a ft, BinDisk.Op.indexOf a ft ∈ ops → a.length = 32) :
    ∃ s s1 os d s2, openStore p [] (freshFiles p) false = some s ∧ HashStore3.run fl p s (L.map .append) = some (s1, os) ∧
      during ft fl p (HashStore3.sync s1) h = some d ∧ openStore p d.1 d.2 false = some s2 ∧
      ∀ s' os', BinDisk.run fl p s2 ops = some (s', os') →
        SparedSession p (fun bn => bn = binNum p h) (L.map fun a => (a, true)) ops os' := by
  have hg := hp.good
  obtain ⟨s, s1, os, h1, h2, h3⟩ := synced_store hfl hg hA.prefix
  generalize hS : HashStore3.sync s1 = S at *
  obtain ⟨f, hd, hf⟩ := during_other hfl hg h3 hA hft
  obtain ⟨w, h4, h5, h6⟩ := reopened_nums hfl hg h3 hA f
  refine ⟨s, s1, os, _, _, h1, h2, by rw [hS]; exact hd, h4, ?_⟩
  intro s' os' hr
  have hI := BinDisk.inv_of_sound h3.sound
  refine BinDisk.run_but hfl hg ops (s := ⟨w, f, none⟩) ⟨by rw [List.map_map]; exact h5, ?_, rfl, ?_⟩ ?_ hq hr
  · exact h6.size
  · intro bn hbn hne
    obtain ⟨es, g1, g2, g3, g4⟩ := hI.bins bn hbn
    exact ⟨es, hf g1 hne, g2, g3, g4⟩
  · rw [List.map_map]
    simpa [Function.comp_def] using hO

/-! ### Example: three hashes of one bin and one of another; 40 bytes of the bin start with the fifth are written -/

/-- The session after the kill: one more hash of the other bin. -/
def afterOps : List BinDisk.Op :=
  [.count, .append (1 :: elsewhere.tail) .fine, .indexOf elsewhere .fine, .get 3 .fine, .get 4 .fine, .reopen,
    .indexOf (1 :: elsewhere.tail) .fine]

set_option maxRecDepth 10000 in
example : ((openStore smallParams [] (freshFiles smallParams) false).bind fun s =>
      (HashStore3.run fl53 smallParams s ((three ++ [elsewhere]).map .append)).bind fun r =>
        (during ⟨true, true, true, .ok, some 40⟩ fl53 smallParams (HashStore3.sync r.1) (5 :: zeros 31)).bind fun d =>
          (openStore smallParams d.1 d.2 false).bind fun s2 => (BinDisk.run fl53 smallParams s2 afterOps).map fun x => x.2) =
    some [.count 4, .index (some 4), .found (.at 3), .hash (some elsewhere), .hash (some (1 :: elsewhere.tail)), .unit,
      .found (.at 4)] := by decide +kernel

example : Usable smallParams (three ++ [elsewhere] ++ [5 :: zeros 31]) ∧
    Appendable smallParams (three ++ [elsewhere] ++ BinDisk.tried afterOps) ∧
    binNum smallParams elsewhere ≠ binNum smallParams (5 :: zeros 31) := by
  refine ⟨⟨by decide, by decide, by decide, by decide +kernel, by decide +kernel⟩,
    ⟨by decide, by decide, by decide, ?_, by decide +kernel⟩, by decide +kernel⟩
  intro h hh
  simp only [three, List.cons_append, List.getElem?_cons_zero, Option.some.injEq] at hh
  subst hh
  decide +kernel

end Verif.BinKill
