import Verif.Model.CachedMapStore
import Verif.Props.MapStore

/-!
# Helper lemmas for the caching array map store
-/

namespace Verif.CachedMapStore

open Verif.IAA (IAA)
open Verif.MapStore
open Verif.WordFile (fits)

theorem filePath2_keyOf (c : Cfg) (k : Nat) : filePath2 c (keyOf c k) = c.filePath k := by
  unfold filePath2 keyOf Cfg.filePath Cfg.folderPath
  by_cases h : NumberedFolders.folders c.digitsPerFile c.digitsPerFolder k = []
  · simp [h]
  · simp [h]

theorem keyOf_iff {c : Cfg} (hf : 0 < c.digitsPerFolder) (a b : Nat) :
    keyOf c a = keyOf c b ↔ a / c.perFile = b / c.perFile := by
  rw [← filePath_iff hf, ← filePath2_keyOf, ← filePath2_keyOf]
  constructor
  · intro h; rw [h]
  · intro h
    unfold filePath2 at h
    have h1 := List.append_cancel_left h
    simp only [List.cons.injEq, true_and] at h1
    exact List.append_cancel_right h1

theorem oldest_some {exclude : Path} {counter : Nat} {cache : List Entry} {e : Entry}
    (h : oldest exclude counter cache = some e) : e ∈ cache ∧ e.key ≠ exclude := by
  have key : ∀ (l : List Entry) (acc : Nat × Option Entry),
      (l.foldl (fun (acc : Nat × Option Entry) e =>
        if e.lastAccess < acc.1 ∧ e.key ≠ exclude then (e.lastAccess, some e) else acc) acc).2 = some e →
      acc.2 = some e ∨ (e ∈ l ∧ e.key ≠ exclude) := by
    intro l
    induction l with
    | nil => intro acc h; exact Or.inl h
    | cons x l ih =>
      intro acc h
      rw [List.foldl_cons] at h
      rcases ih _ h with h1 | h1
      · split at h1
        · rename_i hx
          simp at h1; subst h1
          exact Or.inr ⟨by simp, hx.2⟩
        · exact Or.inl h1
      · exact Or.inr ⟨by simp [h1.1], h1.2⟩
  rcases key cache _ h with h1 | h1
  · simp at h1
  · exact h1

theorem save_files {c : Cfg} {fs : FS} {e : Entry} {k : Nat} (hk : e.key = keyOf c k)
    (hf : e.folderPath = c.folderPath k) :
    (save c fs e).files =
      fun q => if q = c.filePath k then some (IAA.saveBytes e.iaa) else fs.files q := by
  unfold save
  dsimp only
  rw [hk, filePath2_keyOf, hf, writeFile_ok (mkdirAll_self _ _)]
  rfl

/-- Number of elements held by an array-of-arrays of `N` arrays. -/
def held (N : Nat) (a : IAA) : Nat := ((List.range N).map fun i => (IAA.getArray a i).length).sum

theorem sum_map_update (l : List Nat) (hn : l.Nodup) (f : Nat → Nat) (i : Nat) (hi : i ∈ l) :
    (l.map fun j => if j = i then f i + 1 else f j).sum = (l.map f).sum + 1 := by
  induction l with
  | nil => simp at hi
  | cons x l ih =>
    simp only [List.map_cons, List.sum_cons]
    rw [List.nodup_cons] at hn
    by_cases hx : x = i
    · subst hx
      rw [if_pos rfl]
      have : l.map (fun j => if j = x then f x + 1 else f j) = l.map f := by
        apply List.map_congr_left
        intro j hj
        rw [if_neg]
        rintro rfl; exact hn.1 hj
      rw [this]; omega
    · rw [if_neg hx, ih hn.2 (by simpa [Ne.symm hx] using hi)]; omega

theorem held_append {N : Nat} (a : IAA) (i : Nat) (hi : i < N) (v : Int) :
    held N (IAA.appendToArray a i v) = held N a + 1 := by
  unfold held
  rw [← sum_map_update (List.range N) List.nodup_range (fun j => (IAA.getArray a j).length) i (by simpa)]
  congr 1
  apply List.map_congr_left
  intro j _
  rw [getArray_append]
  by_cases h : j = i
  · subst h; simp
  · simp [h]

theorem held_tally {N : Nat} (a : IAA) (t : Int) : held N { a with elementTally := t } = held N a := rfl

/-- Entry `e` belongs to file of `k` and holds the log. -/
def EntryOK (c : Cfg) (log : List (Nat × Int)) (ex : Option Path) (e : Entry) : Prop :=
  ∃ k, e.key = keyOf c k ∧ e.folderPath = c.folderPath k ∧ (ex ≠ some e.key → fileUsed c.perFile log k) ∧
    Holds c e.iaa log k

/-- Elements held by all cached entries. -/
def heldAll (c : Cfg) (cache : List Entry) : Int := (cache.map fun e => (held c.perFile e.iaa : Int)).sum

/-- Cached entries and the files on disk together hold the log; `ex` is a key just loaded for which nothing
may have been appended yet (`none` between calls). -/
structure Inv (c : Cfg) (s : CMS) (log : List (Nat × Int)) (ex : Option Path) : Prop where
  nodup : (s.cache.map (·.key)).Nodup
  entries : ∀ e ∈ s.cache, EntryOK c log ex e
  tallies : ∀ e ∈ s.cache, e.iaa.elementTally ≤ held c.perFile e.iaa
  files : ∀ k, keyOf c k ∉ s.cache.map (·.key) → FileOK c s.fs log k
  count : heldAll c s.cache ≤ s.count

theorem inv_create (c : Cfg) (od : Path → Bool) (limit : Int) : Inv c (create c od limit) [] none := by
  refine ⟨by simp [create], by simp [create], by simp [create], ?_, by simp [create, heldAll]⟩
  intro k _
  simp [FileOK, fileUsed, create]

theorem heldAll_filter {c : Cfg} {cache : List Entry} (hn : (cache.map (·.key)).Nodup) {e : Entry}
    (he : e ∈ cache) :
    heldAll c (cache.filter (fun x => x.key ≠ e.key)) = heldAll c cache - held c.perFile e.iaa := by
  induction cache with
  | nil => simp at he
  | cons x l ih =>
    simp only [List.map_cons, List.nodup_cons] at hn
    by_cases hx : x.key = e.key
    · have hxe : x = e := by
        rcases List.mem_cons.mp he with rfl | h
        · rfl
        · exact absurd (hx ▸ List.mem_map_of_mem (f := (·.key)) h) hn.1
      subst hxe
      have : List.filter (fun y => decide (y.key ≠ x.key)) (x :: l) = l := by
        rw [List.filter_cons_of_neg (by simp)]
        rw [List.filter_eq_self]
        intro y hy
        simp only [decide_not, Bool.not_eq_eq_eq_not, Bool.not_true, decide_eq_false_iff_not]
        intro e; exact hn.1 (e ▸ List.mem_map_of_mem (f := (·.key)) hy)
      rw [this]
      simp [heldAll]; omega
    · have hel : e ∈ l := by
        rcases List.mem_cons.mp he with rfl | h
        · exact absurd rfl hx
        · exact h
      rw [List.filter_cons_of_pos (by simpa using hx)]
      have := ih hn.2 hel
      simp only [heldAll, List.map_cons, List.sum_cons] at this ⊢
      omega

theorem inv_trim {c : Cfg} (hf : 0 < c.digitsPerFolder) {s : CMS} {log : List (Nat × Int)} {ex : Path}
    (h : Inv c s log (some ex)) : Inv c (trimCache c s ex) log (some ex) ∧
      (ex ∈ s.cache.map (·.key) → ex ∈ (trimCache c s ex).cache.map (·.key)) := by
  unfold trimCache
  cases ho : oldest ex s.counter s.cache with
  | none => exact ⟨h, id⟩
  | some e =>
    obtain ⟨hmem, hne⟩ := oldest_some ho
    obtain ⟨k, hk, hfp, hu, hh⟩ := h.entries e hmem
    refine ⟨⟨?_, ?_, ?_, ?_, ?_⟩, ?_⟩
    · exact h.nodup.sublist (List.Sublist.map _ List.filter_sublist)
    · intro x hx; exact h.entries x ((List.mem_filter.mp hx).1)
    · intro x hx; exact h.tallies x ((List.mem_filter.mp hx).1)
    · intro k' hk'
      have hfile : FileOK c
          { s.fs with
            files := fun q => if q = c.filePath k then some (IAA.saveBytes e.iaa) else s.fs.files q }
          log k' := by
        refine FileOK.write hf hh (hu (fun x => hne (by simpa using x.symm))) k' ?_
        intro hd
        refine h.files k' ?_
        intro hin
        apply hk'
        obtain ⟨x, hx, hxk⟩ := List.mem_map.mp hin
        refine List.mem_map.mpr ⟨x, List.mem_filter.mpr ⟨hx, ?_⟩, hxk⟩
        simp only [ne_eq, decide_not, Bool.not_eq_eq_eq_not, Bool.not_true, decide_eq_false_iff_not]
        intro e'
        exact hd ((keyOf_iff hf _ _).mp (by rw [← hk, ← e', hxk]))
      exact hfile.files_eq (save_files hk hfp)
    · dsimp only
      have h1 := heldAll_filter (c := c) h.nodup hmem
      have h2 := h.tallies e hmem
      have h3 := h.count
      rw [h1]; omega
    · intro hin
      obtain ⟨x, hx, hxk⟩ := List.mem_map.mp hin
      refine List.mem_map.mpr ⟨x, List.mem_filter.mpr ⟨hx, ?_⟩, hxk⟩
      simp only [ne_eq, decide_not, Bool.not_eq_eq_eq_not, Bool.not_true, decide_eq_false_iff_not]
      intro e'
      exact hne (e' ▸ hxk)

theorem inv_trimLoop {c : Cfg} (hf : 0 < c.digitsPerFolder) {log : List (Nat × Int)} {ex : Path} (fuel : Nat)
    {s s' : CMS} (h : Inv c s log (some ex)) (hin : ex ∈ s.cache.map (·.key))
    (hr : trimLoop c ex fuel s = some s') : Inv c s' log (some ex) ∧ ex ∈ s'.cache.map (·.key) := by
  induction fuel generalizing s with
  | zero =>
    unfold trimLoop at hr
    split at hr
    · simp at hr
    · simp at hr; subst hr; exact ⟨h, hin⟩
  | succ n ih =>
    unfold trimLoop at hr
    split at hr
    · exact ih (inv_trim hf h).1 ((inv_trim hf h).2 hin) hr
    · simp at hr; subst hr; exact ⟨h, hin⟩

theorem load_tally {c : Cfg} {fs : FS} {log : List (Nat × Int)} {k : Nat} (h : FileOK c fs log k)
    (hl : LogOK c log) :
    ∃ x e, loadFile fs (IAA.new c.perFile c.elementByteSize) (c.filePath k) = some (x, e) ∧ Holds c x log k ∧
      e = (!decide (fileUsed c.perFile log k)) ∧ x.elementTally = held c.perFile x := by
  obtain ⟨x, e, h1, h2, h3⟩ := h.load hl (b := IAA.new c.perFile c.elementByteSize) ⟨rfl, rfl⟩
  refine ⟨x, e, h1, h2, h3, ?_⟩
  unfold FileOK at h
  by_cases hu : fileUsed c.perFile log k
  · rw [if_pos hu] at h
    obtain ⟨a, ha, hha⟩ := h
    have hcnt := hha.count
    obtain ⟨y, hy1, hy2, hy3, hy4, _, hy5⟩ := IAA.save_load_roundtrip a (IAA.new c.perFile c.elementByteSize)
      (by rw [hha.width]; exact hl.width) (by rw [hha.count, hha.width]; exact ⟨rfl, rfl⟩) (by
      intro i hi
      rw [hha.count] at hi
      obtain ⟨e1, e2⟩ := index_of (perFile_pos c) k i hi
      have := hha.data _ e1
      rw [e2] at this
      rw [this, hha.width]
      refine ⟨fun v hv => hl.fit _ (elems_mem hv), ?_⟩
      have := elems_length_le log (k / c.perFile * c.perFile + i)
      have := hl.len
      omega)
    have hxy : x = y := by
      simp only [loadFile, ha, hy1, Option.some.injEq, Prod.mk.injEq] at h1
      exact h1.1.symm
    subst hxy
    rw [hy5, held, hcnt]
    have hcast : ∀ (l : List Nat), (l.map fun i => ((IAA.getArray a i).length : Int)).sum =
        (((l.map fun i => (IAA.getArray a i).length).sum : Nat) : Int) := by
      intro l
      induction l with
      | nil => rfl
      | cons i l ih => simp [ih]
    rw [hcast]
    congr 2
    apply List.map_congr_left
    intro i hi
    rw [hy4 i (by rw [hcnt]; simpa using hi)]
  · rw [if_neg hu] at h
    simp only [loadFile, h, Option.some.injEq, Prod.mk.injEq] at h1
    rw [← h1.1]
    have hz : ∀ l : List Nat, (l.map fun _ => 0).sum = 0 := by
      intro l; induction l with
      | nil => rfl
      | cons _ l ih => simp [ih]
    simp [IAA.loadMissing, held, IAA.getArray, IAA.new, hz]

/-- State just after the new entry is put in the cache, before trimming. -/
theorem inv_loaded {c : Cfg} {s : CMS} {log : List (Nat × Int)} (h : Inv c s log none) {k : Nat} {x : IAA}
    (hk : keyOf c k ∉ s.cache.map (·.key)) (hx : Holds c x log k) (ht : x.elementTally = held c.perFile x) :
    Inv c { s with
      cache := s.cache ++ [{ key := keyOf c k, folderPath := c.folderPath k, iaa := x, lastAccess := 0 }]
      count := s.count + x.elementTally } log (some (keyOf c k)) := by
  refine ⟨?_, ?_, ?_, ?_, ?_⟩
  · simp only [List.map_append, List.map_cons, List.map_nil]
    rw [List.nodup_append]
    refine ⟨h.nodup, by simp, ?_⟩
    intro a ha b hb
    simp at hb; subst hb
    intro e; subst e; exact hk ha
  · intro e he
    rcases List.mem_append.mp he with he | he
    · obtain ⟨k', h1, h2, h3, h4⟩ := h.entries e he
      exact ⟨k', h1, h2, fun _ => h3 (by simp), h4⟩
    · simp at he; subst he
      exact ⟨k, rfl, rfl, fun e => absurd rfl e, hx⟩
  · intro e he
    rcases List.mem_append.mp he with he | he
    · exact h.tallies e he
    · simp at he; subst he; simp [ht]
  · intro k' hk'
    simp only [List.map_append, List.mem_append, not_or] at hk'
    exact h.files k' hk'.1
  · have := h.count
    simp only [heldAll, List.map_append, List.sum_append, List.map_cons, List.map_nil, List.sum_cons,
      List.sum_nil] at this ⊢
    omega

end Verif.CachedMapStore
