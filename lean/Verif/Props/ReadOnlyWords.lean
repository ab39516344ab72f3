import Verif.Model.ReadOnlyWords
import Verif.Props.WordFile

/-!
# C86: word files opened for reading only
-/

namespace Verif.ROWords

open WordFile (wordsOf)

/-- Specification: in this history the file only grows, starting from `d`. -/
def Growing : Bytes → List Event → Prop
  | _, [] => True
  | d, .write d' :: es => d <+: d' ∧ Growing d' es
  | d, _ :: es => Growing d es

/-- Specification: `off*w` is an `int64`. -/
def NoWrap (w : Nat) (off : Int) : Prop := -2 ^ 63 ≤ off * w ∧ off * w < 2 ^ 63

/-- Specification: what reading word `off` must give, `then_` being the words of the file when it was
opened and `now` its words now: the shadowed and the mapped reader have the words of the opening, the plain
one those of now; elsewhere an error or a panic. -/
def expected (k : Kind) (then_ now : List Int) (off : Int) : Res Int :=
  match k with
  | .plain => if off < 0 then .err else (now[off.toNat]?).elim .err .ok
  | .shadowed => if off < 0 then .panic else (then_[off.toNat]?).elim .panic .ok
  | .mapped => if off < 0 then .panic else (then_[off.toNat]?).elim .err .ok

theorem mul64_eq {w : Nat} {off : Int} (h : NoWrap w off) : mul64 off w = off * w :=
  ofU64_toU64 h.1 h.2

theorem slice_prefix {a b : Bytes} (h : a <+: b) {o n : Nat} (ho : o + n ≤ a.length) :
    slice b o n = slice a o n := by
  obtain ⟨t, rfl⟩ := h
  unfold slice
  rw [List.drop_append_of_le_length (by omega), List.take_append_of_le_length (by simp; omega)]

theorem wordsOf_getElem? (w : Nat) (d : Bytes) (i : Nat) :
    (wordsOf w d)[i]? = if i < d.length / w then some (ofU64 (leDec (slice d (i * w) w))) else none := by
  rw [wordsOf, List.getElem?_map, recs_getElem?]
  split <;> simp

theorem slice_short {w : Nat} (hw : 0 < w) {d : Bytes} {i : Nat} (h : ¬ i < d.length / w) :
    (slice d (i * w) w).length < w := by
  rw [slice_length_le]
  have h1 : d.length / w * w ≤ i * w := Nat.mul_le_mul_right _ (by omega)
  have h2 := Nat.div_add_mod d.length w
  have h3 := Nat.mod_lt d.length hw
  rw [Nat.mul_comm] at h2
  omega

/-- The scratch buffer never holds anything beyond the word size. -/
def Clean (r : Reader) : Prop :=
  r.scratch8.length = 8 ∧ leDec (r.scratch8.drop r.wordSize) = 0

theorem decode_clean {r : Reader} (hw : r.wordSize ≤ 8) (h : Clean r) {bs : Bytes}
    (hb : bs.length ≤ r.wordSize) : Clean (decodeWord r bs).1 := by
  refine ⟨?_, ?_⟩
  · have := h.1
    simp only [decodeWord, List.length_append, List.length_drop]; omega
  · simp only [decodeWord]
    rw [List.drop_append, List.drop_drop, List.drop_eq_nil_of_le hb]
    rw [show bs.length + (r.wordSize - bs.length) = r.wordSize by omega]
    simpa using h.2

theorem decode_full {r : Reader} (h : Clean r) {bs : Bytes} (hb : bs.length = r.wordSize) :
    (decodeWord r bs).2 = .ok (ofU64 (leDec bs)) := by
  simp only [decodeWord]
  rw [if_neg (by omega), leDec_append, hb, h.2]
  simp

theorem decode_short {r : Reader} {bs : Bytes} (hb : bs.length < r.wordSize) :
    (decodeWord r bs).2 = .err := by
  simp only [decodeWord]
  rw [if_pos hb]

theorem slice_le (d : Bytes) (o n : Nat) : (slice d o n).length ≤ n := by
  rw [slice_length_le]; omega

theorem fileReadAt_le (d : Bytes) (o : Int) (n : Nat) : (fileReadAt d o n).length ≤ n := by
  unfold fileReadAt; split
  · simp
  · exact slice_le _ _ _

/-- Reading through the file: the words it holds now. -/
theorem readFile_exact {disk : Bytes} {r : Reader} (hw : 0 < r.wordSize) (hc : Clean r) {off : Int}
    (hn : NoWrap r.wordSize off) :
    (readFile disk r off).2 =
      if off < 0 then .err else ((wordsOf r.wordSize disk)[off.toNat]?).elim .err .ok := by
  unfold readFile
  rw [mul64_eq hn]
  unfold fileReadAt
  by_cases h0 : off < 0
  · have : off * r.wordSize < 0 := Int.mul_neg_of_neg_of_pos h0 (by omega)
    rw [if_pos this, if_pos h0]
    exact decode_short (by simpa using hw)
  · have hnn : ¬ off * r.wordSize < 0 := by
      have := Int.mul_nonneg (show 0 ≤ off by omega) (show (0 : Int) ≤ r.wordSize by omega)
      omega
    rw [if_neg hnn, if_neg h0]
    obtain ⟨i, rfl⟩ : ∃ i : Nat, off = i := ⟨off.toNat, by omega⟩
    have e : ((i : Int) * (r.wordSize : Int)).toNat = i * r.wordSize := by
      rw [← Int.natCast_mul]; rfl
    rw [e, wordsOf_getElem?, Int.toNat_natCast]
    by_cases hi : i < disk.length / r.wordSize
    · rw [if_pos hi]
      exact decode_full hc (slice_length (rec_in_range hw hi))
    · rw [if_neg hi]
      exact decode_short (slice_short hw hi)

/-- What stays true of a reader on a file that only grows. -/
structure Good (k : Kind) (w : Nat) (d0 disk : Bytes) (r : Reader) : Prop where
  kind : r.kind = k
  size : r.wordSize = w
  count : r.wordCount = d0.length / w
  grown : d0 <+: disk
  clean : Clean r
  map : k = .mapped → r.mapLen = d0.length
  shadow : k = .shadowed → r.shadow = wordsOf w d0

theorem readMap_exact {w : Nat} (hw : 0 < w ∧ w ≤ 8) {d0 disk : Bytes} (hm : d0.length % w = 0) {r : Reader}
    (h : Good .mapped w d0 disk r) {off : Int} (hn : NoWrap w off) :
    (readMap disk r off).2 =
      if off < 0 then .panic else ((wordsOf w d0)[off.toNat]?).elim .err .ok := by
  have hs := h.size
  have hml := h.map rfl
  unfold readMap
  rw [hs, mul64_eq hn, hml]
  unfold mapReadAt
  by_cases h0 : off < 0
  · have : off * w < 0 := Int.mul_neg_of_neg_of_pos h0 (by omega)
    rw [if_neg (show ¬ off * (w : Int) ≥ d0.length by omega), if_pos this, if_pos h0]
  · have hnn : ¬ off * w < 0 := by
      have := Int.mul_nonneg (show 0 ≤ off by omega) (show (0 : Int) ≤ w by omega)
      omega
    rw [if_neg h0, if_neg hnn]
    obtain ⟨i, rfl⟩ : ∃ i : Nat, off = i := ⟨off.toNat, by omega⟩
    have e : ((i : Int) * (w : Int)).toNat = i * w := by
      rw [← Int.natCast_mul]; rfl
    rw [e, wordsOf_getElem?, Int.toNat_natCast]
    have htake : disk.take d0.length = d0 := by
      obtain ⟨t, rfl⟩ := h.grown
      simp
    rw [htake]
    by_cases hi : i < d0.length / w
    · have hr := rec_in_range hw.1 hi
      rw [if_pos hi, if_neg (show ¬ (i : Int) * w ≥ d0.length by rw [← Int.natCast_mul]; omega)]
      exact decode_full h.clean (by rw [hs]; exact slice_length hr)
    · rw [if_neg hi]
      have hge : d0.length ≤ i * w := by
        have h1 : d0.length / w * w ≤ i * w := Nat.mul_le_mul_right _ (by omega)
        have h2 := Nat.div_add_mod d0.length w
        rw [hm, Nat.mul_comm] at h2
        omega
      rw [if_pos (show (i : Int) * w ≥ d0.length by rw [← Int.natCast_mul]; omega)]
      exact decode_short (by rw [hs]; exact hw.1)

theorem good_read {k : Kind} {w : Nat} (hw : 0 < w ∧ w ≤ 8) {d0 disk : Bytes} {r : Reader}
    (h : Good k w d0 disk r) (off : Int) : Good k w d0 disk (readWordAt disk r off).1 := by
  have hd : ∀ bs : Bytes, bs.length ≤ r.wordSize → Good k w d0 disk (decodeWord r bs).1 := fun bs hb =>
    ⟨h.kind, h.size, h.count, h.grown, decode_clean (by rw [h.size]; exact hw.2) h.clean hb, h.map, h.shadow⟩
  unfold readWordAt
  cases hk : r.kind with
  | plain => exact hd _ (fileReadAt_le _ _ _)
  | shadowed =>
    simp only [readShadow]
    split
    · exact h
    · split <;> exact h
  | mapped =>
    simp only [readMap]
    split
    · exact h
    · rename_i bs hbs
      apply hd
      unfold mapReadAt at hbs
      split at hbs
      · cases hbs; simp
      · split at hbs
        · cases hbs
        · cases hbs; exact slice_le _ _ _

theorem good_whole {k : Kind} {w : Nat} {d0 disk : Bytes} {r : Reader}
    (h : Good k w d0 disk r) : Good k w d0 disk (readWhole disk r).1 := by
  unfold readWhole
  split
  · exact h
  · dsimp only
    split <;> exact ⟨h.kind, h.size, h.count, h.grown, h.clean, h.map, h.shadow⟩

theorem good_run {k : Kind} {w : Nat} (hw : 0 < w ∧ w ≤ 8) {d0 : Bytes} :
    ∀ (es : List Event) {disk : Bytes} {r : Reader}, Good k w d0 disk r → Growing disk es →
      Good k w d0 (run (disk, r) es).1.1 (run (disk, r) es).1.2
  | [], _, _, h, _ => h
  | .read off :: es, _, _, h, hg => good_run hw es (good_read hw h off) hg
  | .count :: es, _, _, h, hg => good_run hw es h hg
  | .whole :: es, _, _, h, hg => good_run hw es (good_whole h) hg
  | .write _ :: es, _, _, h, hg =>
    good_run hw es ⟨h.kind, h.size, h.count, h.grown.trans hg.1, h.clean, h.map, h.shadow⟩ hg.2

theorem clean_new (k : Kind) (w n m : Nat) : Clean (newReader k w n m) := by
  refine ⟨by simp [newReader], ?_⟩
  simp only [newReader]
  rw [show (zeros 8).drop w = zeros (8 - w) from List.drop_replicate]
  exact leDec_zeros _

theorem fill_spec {w : Nat} (hw : 0 < w ∧ w ≤ 8) {disk : Bytes} (hl : disk.length < 2 ^ 63) :
    ∀ (is : List Nat) {r : Reader}, (∀ i ∈ is, i < disk.length / w) → r.wordSize = w → Clean r →
      ∃ r', fill disk r is = some (r', is.map fun i => (wordsOf w disk).getD i 0) ∧ Clean r' ∧
        r'.kind = r.kind ∧ r'.wordSize = w ∧ r'.wordCount = r.wordCount
  | [], r, _, hs, hc => ⟨r, rfl, hc, rfl, hs, rfl⟩
  | i :: is, r, hi, hs, hc => by
    have hi0 := hi i (by simp)
    have hr := rec_in_range hw.1 hi0
    have hnw : NoWrap r.wordSize (i : Int) := by
      unfold NoWrap
      rw [hs, ← Int.natCast_mul]
      constructor <;> omega
    have hex := readFile_exact (disk := disk) (by rw [hs]; exact hw.1) hc hnw
    rw [if_neg (by omega), Int.toNat_natCast, hs] at hex
    have hsome : (wordsOf w disk)[i]? = some ((wordsOf w disk).getD i 0) := by
      rw [List.getD_eq_getElem?_getD, wordsOf_getElem?, if_pos hi0]; rfl
    rw [hsome] at hex
    have hc' : Clean (readFile disk r i).1 :=
      decode_clean (by rw [hs]; exact hw.2) hc (fileReadAt_le _ _ _)
    obtain ⟨r', h1, h2, h3, h4, h5⟩ := fill_spec hw hl is (r := (readFile disk r i).1)
      (fun j hj => hi j (by simp [hj])) hs hc'
    refine ⟨r', ?_, h2, h3, h4, h5⟩
    have hpair : readFile disk r i = ((readFile disk r i).1, .ok ((wordsOf w disk).getD i 0)) :=
      Prod.ext rfl hex
    rw [fill, hpair]
    dsimp only
    rw [h1]
    rfl

/-- What can be opened: a whole number of words (and, to be mapped, a file that is not empty). -/
def Openable (k : Kind) (w : Nat) (d : Bytes) : Prop := d.length % w = 0 ∧ (k = .mapped → d ≠ [])

theorem open_good {k : Kind} {w : Nat} (hw : 0 < w ∧ w ≤ 8) {d : Bytes} (hl : d.length < 2 ^ 63)
    (ho : Openable k w d) :
    ∃ r, openReadOnly k w (some d) = .ok r ∧ Good k w d d r ∧ r.cursor = 0 := by
  have hfc : WordFile.fileWordCount w d.length = some (d.length / w) := by
    simp [WordFile.fileWordCount, ho.1]
  unfold openReadOnly
  rw [if_neg (by omega)]
  simp only [hfc]
  cases k with
  | plain =>
    simp only
    rw [if_neg (by omega)]
    exact ⟨_, rfl, ⟨rfl, rfl, rfl, List.prefix_refl _, clean_new _ _ _ _, (fun h => by cases h),
      fun h => by cases h⟩, rfl⟩
  | mapped =>
    have hne : ¬ d.length = 0 := by
      intro h; exact ho.2 rfl (List.eq_nil_of_length_eq_zero h)
    simp only
    rw [if_neg hne, if_neg (by omega)]
    exact ⟨_, rfl, ⟨rfl, rfl, rfl, List.prefix_refl _, clean_new _ _ _ _, (fun _ => rfl),
      fun h => by cases h⟩, rfl⟩
  | shadowed =>
    obtain ⟨r', h1, h2, h3, h4, h5⟩ := fill_spec hw hl (List.range (d.length / w))
      (r := newReader .shadowed w (d.length / w) 0) (fun i hi => by simpa using hi) rfl (clean_new _ _ _ _)
    simp only
    rw [if_neg (by omega), h1]
    have hcur : r'.cursor = 0 := by
      have : ∀ (is : List Nat) (r r' : Reader) (vs : List Int), fill d r is = some (r', vs) →
          r'.cursor = r.cursor := by
        intro is
        induction is with
        | nil => intro r r' vs h; simp only [fill, Option.some.injEq, Prod.mk.injEq] at h; rw [h.1]
        | cons i is ih =>
          intro r r' vs h
          rw [fill] at h
          split at h
          · rename_i r1 v hr1
            rw [Option.map_eq_some_iff] at h
            obtain ⟨p, hp, hpe⟩ := h
            have e1 : r' = p.1 := (Prod.ext_iff.mp hpe).1.symm
            have := ih r1 p.1 p.2 hp
            rw [e1, this]
            have e2 : r1 = (readFile d r i).1 := by rw [hr1]
            rw [e2]; rfl
          · cases h
      exact this _ _ _ _ h1
    refine ⟨_, rfl, ⟨h3, h4, h5, List.prefix_refl _, h2, (fun h => by cases h), fun _ => ?_⟩, hcur⟩
    have := WordFile.map_getD_range (wordsOf w d)
    rw [WordFile.wordsOf_length] at this
    exact this

/-- The reader of any kind, at any time while the file grows, reads what the specification says. -/
theorem good_exact {k : Kind} {w : Nat} (hw : 0 < w ∧ w ≤ 8) {d0 disk : Bytes} (hm : d0.length % w = 0)
    {r : Reader} (h : Good k w d0 disk r) {off : Int} (hn : NoWrap w off) :
    (readWordAt disk r off).2 = expected k (wordsOf w d0) (wordsOf w disk) off := by
  unfold readWordAt
  rw [h.kind]
  cases k with
  | plain =>
    have := readFile_exact (disk := disk) (r := r) (off := off) (by rw [h.size]; exact hw.1) h.clean
      (by rw [h.size]; exact hn)
    rw [h.size] at this
    exact this
  | shadowed =>
    simp only [readShadow, expected, h.shadow rfl]
    split
    · rfl
    · split <;> rename_i hx <;> rw [hx] <;> rfl
  | mapped => exact readMap_exact hw hm h hn

/-- **C86.** All three readers agree.  A word file holding a whole number of words opens plainly, shadowed
and (not empty) memory-mapped; whatever calls are then made and whatever is appended to the file meanwhile,
the count stays the number of words the file had when opened, and reading each of these words gives it. -/
theorem readers_keep_the_words {k : Kind} {w : Nat} (hw : 0 < w ∧ w ≤ 8) (d : Bytes)
    (hl : d.length < 2 ^ 63) (ho : Openable k w d) :
    ∃ r, openReadOnly k w (some d) = .ok r ∧ ∀ es, Growing d es →
      countWords (run (d, r) es).1.2 = (wordsOf w d).length ∧
      ∀ (i : Nat) (v : Int), (wordsOf w d)[i]? = some v →
        (readWordAt (run (d, r) es).1.1 (run (d, r) es).1.2 i).2 = .ok v := by
  obtain ⟨r, h1, h2, _⟩ := open_good hw hl ho
  refine ⟨r, h1, fun es hg => ?_⟩
  have hgood := good_run hw es h2 hg
  refine ⟨?_, ?_⟩
  · rw [WordFile.wordsOf_length]; exact hgood.count
  · intro i v hv
    have hi : i < d.length / w := by
      rw [wordsOf_getElem?] at hv
      by_cases hi : i < d.length / w
      · exact hi
      · rw [if_neg hi] at hv; cases hv
    have hr := rec_in_range hw.1 hi
    have hnw : NoWrap w (i : Int) := by
      unfold NoWrap
      rw [← Int.natCast_mul]
      constructor <;> omega
    rw [good_exact hw ho.1 hgood hnw]
    have hnow : (wordsOf w (run (d, r) es).1.1)[i]? = some v := by
      have hle : d.length ≤ (run (d, r) es).1.1.length := hgood.grown.length_le
      have : d.length / w ≤ (run (d, r) es).1.1.length / w := Nat.div_le_div_right hle
      rw [wordsOf_getElem?] at hv ⊢
      rw [if_pos (by omega), slice_prefix hgood.grown hr, ← hv, if_pos hi]
    unfold expected
    cases k <;> simp only [Int.toNat_natCast, hv, hnow] <;> rw [if_neg (by omega)] <;> rfl

/-- **C86.** Exactly what every read gives, inside the file or not, at any time while the file grows, as
long as `off*wordSize` is an `int64`.  Missing: offsets where the product wraps, see
`far_offsets_read_as_near`. -/
theorem reads_exact_partial {k : Kind} {w : Nat} (hw : 0 < w ∧ w ≤ 8) (d : Bytes) (r : Reader)
    (hl : d.length < 2 ^ 63) (ho : openReadOnly k w (some d) = .ok r) (es : List Event)
    (hg : Growing d es) (off : Int) (hn : NoWrap w off) :
    (readWordAt (run (d, r) es).1.1 (run (d, r) es).1.2 off).2 =
      expected k (wordsOf w d) (wordsOf w (run (d, r) es).1.1) off := by
  have hop : Openable k w d := by
    unfold openReadOnly WordFile.fileWordCount at ho
    rw [if_neg (by omega)] at ho
    by_cases hm : d.length % w = 0
    · refine ⟨hm, ?_⟩
      rintro rfl rfl
      simp at ho
    · simp [hm] at ho
  obtain ⟨r', h1, h2, _⟩ := open_good hw hl hop
  rw [h1] at ho
  cases ho
  exact good_exact hw hop.1 (good_run hw es h2 hg) hn

/-- **C86.** What opens: exactly the files that exist, hold a whole number of words and, to be mapped, are
not empty.  So a word file just created cannot be opened by a creator that holds files in memory. -/
theorem opens_iff {k : Kind} {w : Nat} (hw : 0 < w ∧ w ≤ 8) (file : Option Bytes)
    (hl : ∀ d, file = some d → d.length < 2 ^ 63) :
    (∃ r, openReadOnly k w file = .ok r) ↔ ∃ d, file = some d ∧ w ∣ d.length ∧ (k = .mapped → d ≠ []) := by
  constructor
  · rintro ⟨r, hr⟩
    unfold openReadOnly at hr
    rw [if_neg (by omega)] at hr
    cases file with
    | none => cases hr
    | some d =>
      simp only [WordFile.fileWordCount] at hr
      refine ⟨d, rfl, ?_⟩
      by_cases hm : d.length % w = 0
      · refine ⟨Nat.dvd_of_mod_eq_zero hm, ?_⟩
        rintro rfl rfl
        simp at hr
      · simp [hm] at hr
  · rintro ⟨d, rfl, hm, hk⟩
    obtain ⟨r, h1, _⟩ := open_good (k := k) hw (hl d rfl) ⟨Nat.mod_eq_zero_of_dvd hm, hk⟩
    exact ⟨r, h1⟩

/-- **C86.** What a writer stored is what every reader gets: after any session of fitting writes on a word
file and its closing, each kind of opening reads, word by word, the array the session left. -/
theorem written_is_read {k : Kind} {w : Nat} (hw : 0 < w ∧ w ≤ 8) (data : Bytes) (wf : WordFile.WF)
    (hopen : WordFile.openWordFile w data = some wf) (ops : List WordFile.Op)
    (hops : ∀ op ∈ ops, op.fits w)
    (hl : (WordFile.close (WordFile.run wf ops).1).length < 2 ^ 63)
    (hk : k = .mapped → (WordFile.specRun (wordsOf w data) ops).1 ≠ []) :
    let disk := WordFile.close (WordFile.run wf ops).1
    let l := (WordFile.specRun (wordsOf w data) ops).1
    ∃ r, openReadOnly k w (some disk) = .ok r ∧ countWords r = l.length ∧
      ∀ (i : Nat) (v : Int), l[i]? = some v → (readWordAt disk r i).2 = .ok v := by
  obtain ⟨h1, h2⟩ := WordFile.inv_open hw hopen
  obtain ⟨h3, _, h4⟩ := WordFile.inv_run h1 ops (by rw [h2]; exact hops)
  obtain ⟨plain, hp, hm, hpl⟩ := h3.file
  rw [h4, h2] at hm hpl
  have hc : WordFile.close (WordFile.run wf ops).1 = plain := (AppendOpt.inv_flush hp).2.1
  dsimp only
  rw [hc] at hl ⊢
  rw [← hpl] at hk ⊢
  have hop : Openable k w plain := ⟨hm, by
    rintro hkm rfl
    exact hk hkm (by simp [wordsOf, recs])⟩
  obtain ⟨r, hr1, hr2⟩ := readers_keep_the_words hw plain hl hop
  have := hr2 [] trivial
  exact ⟨r, hr1, this.1, this.2⟩

theorem mul64_far (i : Nat) (hi : i < 2 ^ 60) : mul64 (i + 2 ^ 61) (8 : Nat) = mul64 i (8 : Nat) := by
  have : toU64 ((i + 2 ^ 61 : Int) * (8 : Nat)) = toU64 ((i : Int) * (8 : Nat)) := by
    unfold toU64
    omega
  unfold mul64
  rw [this]

/-- **C86, the code disagrees.** Reading 8-byte words at an offset beyond the end does not always fail: at
`i + 2^61` the plain and the mapped reader return word `i`. -/
theorem far_offsets_read_as_near {k : Kind} (hk : k ≠ .shadowed) (d : Bytes) (r : Reader)
    (hl : d.length < 2 ^ 62) (ho : openReadOnly k 8 (some d) = .ok r) (i : Nat) (v : Int)
    (hv : (wordsOf 8 d)[i]? = some v) : (readWordAt d r (i + 2 ^ 61)).2 = .ok v := by
  have hi : i < d.length / 8 := by
    rw [wordsOf_getElem?] at hv
    by_cases hi : i < d.length / 8
    · exact hi
    · rw [if_neg hi] at hv; cases hv
  have hop := (opens_iff (k := k) (w := 8) (by decide) (some d) (fun _ h => by cases h; omega)).mp ⟨r, ho⟩
  obtain ⟨d', hd', hm, hne⟩ := hop
  cases hd'
  obtain ⟨r', h1, h2, _⟩ := open_good (k := k) (w := 8) (by decide) (show d.length < 2 ^ 63 by omega)
    ⟨Nat.mod_eq_zero_of_dvd hm, hne⟩
  rw [h1] at ho
  cases ho
  have hnear := good_exact (by decide) (Nat.mod_eq_zero_of_dvd hm) h2 (off := i)
    (by unfold NoWrap; constructor <;> omega)
  have hm2 := mul64_far i (by omega)
  have hsame : (readWordAt d r (i + 2 ^ 61)).2 = (readWordAt d r i).2 := by
    have hs := h2.size
    unfold readWordAt
    rw [h2.kind]
    cases k with
    | plain => rw [readFile, readFile, hs, hm2]
    | shadowed => exact absurd rfl hk
    | mapped => rw [readMap, readMap, hs, hm2]
  rw [hsame, hnear]
  unfold expected
  cases k <;> simp only [Int.toNat_natCast, hv] <;> rw [if_neg (by omega)] <;> rfl

/-! ## Reading the whole file -/

theorem cutWords_eq (w : Nat) (d : Bytes) : cutWords w d = wordsOf w d := by
  apply List.ext_getElem?
  intro i
  rw [wordsOf_getElem?]
  unfold cutWords
  rw [List.getElem?_map]
  by_cases hi : i < d.length / w
  · rw [if_pos hi, List.getElem?_range hi]
    simp [leDec_append, leDec_zeros]
  · rw [if_neg hi, List.getElem?_eq_none (by simpa using hi)]; rfl

/-- The read position of the reader after a call of `ReadWordAt` is unchanged. -/
theorem cursor_read (disk : Bytes) (r : Reader) (off : Int) :
    (readWordAt disk r off).1.cursor = r.cursor := by
  unfold readWordAt
  split
  · rfl
  · simp only [readShadow]; split
    · rfl
    · split <;> rfl
  · simp only [readMap]; split <;> rfl

theorem cursor_mono : ∀ (es : List Event) (s : Bytes × Reader), s.2.cursor ≤ (run s es).1.2.cursor
  | [], _ => Nat.le_refl _
  | .read off :: es, s => Nat.le_trans (Nat.le_of_eq (cursor_read s.1 s.2 off).symm)
      (cursor_mono es (s.1, (readWordAt s.1 s.2 off).1))
  | .count :: es, _ => cursor_mono es _
  | .whole :: es, s => by
    refine Nat.le_trans ?_ (cursor_mono es (s.1, (readWhole s.1 s.2).1))
    unfold readWhole
    split
    · exact Nat.le_refl _
    · dsimp only; split <;> exact Nat.le_add_right _ _
  | .write d :: es, s => cursor_mono es (d, s.2)

theorem cursor_run : ∀ (es : List Event) (s : Bytes × Reader), .whole ∉ es →
    (run s es).1.2.cursor = s.2.cursor
  | [], _, _ => rfl
  | .read off :: es, s, h => (cursor_run es _ (fun hh => h (by simp [hh]))).trans (cursor_read s.1 s.2 off)
  | .count :: es, _, h => cursor_run es _ (fun hh => h (by simp [hh]))
  | .whole :: _, _, h => absurd (by simp) h
  | .write d :: es, s, h => cursor_run es (d, s.2) (fun hh => h (by simp [hh]))

/-- **C86 (partial).** The first reading of the whole file, plain or shadowed, at any time while the file
grows, gives all the words the file holds by then.  Missing: the second one and the memory-mapped reader,
see `whole_only_once` and `whole_of_mapped_panics`. -/
theorem whole_first_partial {k : Kind} {w : Nat} (hw : 0 < w ∧ w ≤ 8) (d : Bytes) (r : Reader)
    (hl : d.length < 2 ^ 63) (ho : openReadOnly k w (some d) = .ok r) (hk : k ≠ .mapped)
    (es : List Event) (hg : Growing d es) (hes : .whole ∉ es) :
    (readWhole (run (d, r) es).1.1 (run (d, r) es).1.2).2 = .ok (wordsOf w (run (d, r) es).1.1) := by
  obtain ⟨d', hd', hm, hne⟩ :=
    (opens_iff (k := k) hw (some d) (fun _ h => by cases h; exact hl)).mp ⟨r, ho⟩
  cases hd'
  obtain ⟨r', h1, h2, h3⟩ := open_good (k := k) hw hl ⟨Nat.mod_eq_zero_of_dvd hm, hne⟩
  rw [h1] at ho
  cases ho
  have hgood := good_run hw es h2 hg
  have hcur : (run (d, r) es).1.2.cursor = 0 := (cursor_run es (d, r) hes).trans h3
  unfold readWhole
  rw [hgood.kind, hcur]
  cases k with
  | mapped => exact absurd rfl hk
  | plain => simp [hgood.size, cutWords_eq]
  | shadowed => simp [hgood.size, cutWords_eq]

/-- **C86, the code disagrees.** The whole of a file that is not empty can be read only once through a
reader: every later attempt fails, whatever happens between. -/
theorem whole_only_once {k : Kind} {w : Nat} (hw : 0 < w ∧ w ≤ 8) (d : Bytes) (r : Reader)
    (hl : d.length < 2 ^ 63) (ho : openReadOnly k w (some d) = .ok r) (hk : k ≠ .mapped)
    (es1 es2 : List Event) (hg : Growing d (es1 ++ .whole :: es2)) (hd : d ≠ []) :
    let s := (run (d, r) (es1 ++ .whole :: es2)).1
    (readWhole s.1 s.2).2 = .err := by
  obtain ⟨d', hd', hm, hne⟩ :=
    (opens_iff (k := k) hw (some d) (fun _ h => by cases h; exact hl)).mp ⟨r, ho⟩
  cases hd'
  obtain ⟨r', h1, h2, h3⟩ := open_good (k := k) hw hl ⟨Nat.mod_eq_zero_of_dvd hm, hne⟩
  rw [h1] at ho
  cases ho
  have happ : ∀ (a b : List Event) (s : Bytes × Reader), (run s (a ++ b)).1 = (run (run s a).1 b).1 := by
    intro a
    induction a with
    | nil => intro b s; rfl
    | cons e a ih => intro b s; exact ih b _
  have hgapp : ∀ (a b : List Event) (x : Bytes), Growing x (a ++ b) → Growing x a := by
    intro a
    induction a with
    | nil => intro b x _; trivial
    | cons e a ih =>
      intro b x h
      cases e with
      | write y => exact ⟨h.1, ih b y h.2⟩
      | read o => exact ih b x h
      | count => exact ih b x h
      | whole => exact ih b x h
  have hg1 := good_run hw es1 h2 (hgapp es1 _ d hg)
  have hgood := good_run hw _ h2 hg
  have hlen1 := hg1.grown.length_le
  have hlen2 := hgood.grown.length_le
  have hpos : 0 < d.length := List.length_pos_iff.mpr hd
  have hcur : 0 < (run (d, r) (es1 ++ .whole :: es2)).1.2.cursor := by
    rw [happ]
    refine Nat.lt_of_lt_of_le ?_
      (cursor_mono es2 ((run (d, r) es1).1.1, (readWhole (run (d, r) es1).1.1 (run (d, r) es1).1.2).1))
    unfold readWhole
    rw [hg1.kind]
    cases k with
    | mapped => exact absurd rfl hk
    | plain =>
      dsimp only
      split <;> · simp only [List.length_take, List.length_drop]; omega
    | shadowed =>
      dsimp only
      split <;> · simp only [List.length_take, List.length_drop]; omega
  dsimp only
  generalize (run (d, r) (es1 ++ .whole :: es2)).1 = s at hgood hcur hlen2
  unfold readWhole
  rw [hgood.kind]
  cases k with
  | mapped => exact absurd rfl hk
  | plain =>
    dsimp only
    rw [if_pos (by simp only [List.length_take, List.length_drop]; omega)]
  | shadowed =>
    dsimp only
    rw [if_pos (by simp only [List.length_take, List.length_drop]; omega)]

/-- **C86, the code disagrees.** Reading the whole of a memory-mapped word file always panics. -/
theorem whole_of_mapped_panics {w : Nat} (hw : 0 < w ∧ w ≤ 8) (d : Bytes) (r : Reader)
    (hl : d.length < 2 ^ 63) (ho : openReadOnly .mapped w (some d) = .ok r) (es : List Event)
    (hg : Growing d es) :
    (readWhole (run (d, r) es).1.1 (run (d, r) es).1.2).2 = .panic := by
  obtain ⟨d', hd', hm, hne⟩ :=
    (opens_iff (k := .mapped) hw (some d) (fun _ h => by cases h; exact hl)).mp ⟨r, ho⟩
  cases hd'
  obtain ⟨r', h1, h2, _⟩ := open_good (k := .mapped) hw hl ⟨Nat.mod_eq_zero_of_dvd hm, hne⟩
  rw [h1] at ho
  cases ho
  have hgood := good_run hw es h2 hg
  unfold readWhole
  rw [hgood.kind]

/-! ## Creators -/

/-- **C86, the code disagrees.** A creator that holds files in memory cannot start a word file: from no
file or an empty one, whatever calls are made on it, no opening, for reading or for writing, ever
succeeds. -/
theorem held_in_ram_never_opens {w : Nat} (hw : 0 < w) (ops : List CreatorOp) (file : Option Bytes)
    (hf : file = none ∨ file = some []) :
    ∀ o ∈ (creatorRun true w file ops).2, ∀ n, o ≠ .reader n := by
  induction ops generalizing file with
  | nil => intro o ho; cases ho
  | cons op ops ih =>
    have key : (creatorStep true w file op).1 = none ∨ (creatorStep true w file op).1 = some [] := by
      cases op with
      | exists_ => exact hf
      | create => exact Or.inr rfl
      | createZeros n => exact hf
      | openReadOnly =>
        simp only [creatorStep]
        split <;> exact hf
      | openReadWrite => exact hf
    have key2 : ∀ n, (creatorStep true w file op).2 ≠ .reader n := by
      intro n
      cases op with
      | exists_ => simp [creatorStep]
      | create => simp [creatorStep]
      | createZeros n => simp [creatorStep]
      | openReadOnly =>
        have : openReadOnly .mapped w file = .err := by
          unfold openReadOnly
          rw [if_neg (by omega)]
          rcases hf with rfl | rfl
          · rfl
          · simp [WordFile.fileWordCount]
        simp [creatorStep, this]
      | openReadWrite => simp [creatorStep]
    intro o ho n
    rcases List.mem_cons.mp ho with rfl | ho
    · exact key2 n
    · exact ih _ key o ho n

/-! ## Instances -/

/-- Three 3-byte words, one appended while the file is open, one more half written: all three readers still
see three words; the plain one also sees the fourth. -/
example : ∀ k : Kind, ∃ r, openReadOnly k 3 (some [1, 0, 0, 2, 0, 0, 3, 1, 0]) = .ok r ∧
    (run ([1, 0, 0, 2, 0, 0, 3, 1, 0], r) [.read 2, .write [1, 0, 0, 2, 0, 0, 3, 1, 0, 7, 0, 0, 9],
      .count, .read 0, .read 3, .read (-1)]).2 =
      [.word (.ok 259), .count 3, .word (.ok 1),
        .word (match k with | .plain => .ok 7 | .shadowed => .panic | .mapped => .err),
        .word (match k with | .plain => .err | .shadowed => .panic | .mapped => .panic)] := by
  intro k
  cases k <;> exact ⟨_, rfl, by decide⟩

example : Growing [1, 0, 0] [.read 2, .write [1, 0, 0, 7], .whole, .write [1, 0, 0, 7, 8, 9]] ∧
    Openable .mapped 3 [1, 0, 0] ∧ NoWrap 3 5 ∧ ¬ NoWrap 8 (2 ^ 61) := by
  refine ⟨⟨⟨[7], rfl⟩, ⟨[8, 9], rfl⟩, trivial⟩, ⟨rfl, fun _ h => by cases h⟩, ?_, ?_⟩ <;>
    unfold NoWrap <;> decide

/-- The whole of a two-word file, once and again. -/
example : ∃ r, openReadOnly .shadowed 2 (some [5, 1, 6, 0]) = .ok r ∧
    (run ([5, 1, 6, 0], r) [.whole, .read 1, .whole]).2 =
      [.words (.ok [261, 6]), .word (.ok 6), .words .err] :=
  ⟨_, rfl, by decide⟩

/-- The mapped reader of the same file. -/
example : ∃ r, openReadOnly .mapped 2 (some [5, 1, 6, 0]) = .ok r ∧
    (run ([5, 1, 6, 0], r) [.read 0, .whole]).2 = [.word (.ok 261), .words .panic] :=
  ⟨_, rfl, by decide⟩

/-- A far offset. -/
example : ∃ r, openReadOnly .plain 8 (some [9, 0, 0, 0, 0, 0, 0, 0]) = .ok r ∧
    (readWordAt [9, 0, 0, 0, 0, 0, 0, 0] r 2305843009213693952).2 = .ok 9 ∧
    (readWordAt [9, 0, 0, 0, 0, 0, 0, 0] r 1).2 = .err :=
  ⟨_, rfl, by decide +kernel, by decide +kernel⟩

/-- What a writer stored, through the map. -/
example : ∃ wf, WordFile.openWordFile 3 [] = some wf ∧
    (WordFile.specRun (wordsOf 3 []) [.write 7 1]).1 ≠ [] ∧
    ∃ r, openReadOnly .mapped 3 (some (WordFile.close (WordFile.run wf [.write 7 1]).1)) = .ok r ∧
      countWords r = 2 := by
  refine ⟨_, rfl, by decide, _, rfl, by decide⟩

/-- Both creators: one word file made and opened, and one that cannot be. -/
example : (creatorRun false 4 none [.createZeros 3, .openReadOnly, .create, .openReadWrite]).2 =
      [.done, .reader 3, .done, .reader 0] ∧
    (creatorRun true 4 none [.createZeros 3, .openReadOnly, .create, .exists_, .openReadOnly,
      .openReadWrite]).2 = [.failed, .failed, .done, .bool true, .failed, .failed] ∧
    (creatorRun true 4 (some [1, 2, 3, 4]) [.openReadOnly]).2 = [.reader 1] := by
  decide

end Verif.ROWords
