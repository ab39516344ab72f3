import Verif.Lemmas.ChunkFiles
import Verif.Props.Chunk

/-!
# Properties of the files of chunks
-/

namespace Verif.Chunk

open Verif.ShallowTree

/-- An empty store: an empty `ChunksInfo.bin` and no level files. -/
def emptyStore : Folder := ⟨some [], fun _ => none⟩

/-- Append chunks, one after the other. -/
def appendAll : Folder → List Chunk → Option Folder
  | d, [] => some d
  | d, ch :: cs => (appendChunk d ch).bind fun d' => appendAll d' cs

/-- Chunks that the format has room for: at most 65 levels, a first index which is an `int64`, something in every level's
index, and less than 2^64 bytes for a level, all chunks together. -/
structure Storable (c : Config) (cs : List Chunk) : Prop where
  config : ∀ ch ∈ cs, ch.config = c
  first : ∀ ch ∈ cs, -2 ^ 63 ≤ ch.first ∧ ch.first < 2 ^ 63
  levels : ∀ ch ∈ cs, ch.levels.length ≤ 65
  index : ∀ ch ∈ cs, ∀ lv ∈ ch.levels, lv.index ≠ []
  size : ∀ n : Nat, (cs.map fun ch => match ch.levels[n]? with
    | some lv => lv.index.length + lv.nodes.length
    | none => 0).sum < 2 ^ 64

theorem appendAll_ok (cs : List Chunk) : ∀ done : List Chunk,
    appendAll ⟨some (done.flatMap infoBytes), levelFile done⟩ cs =
      some ⟨some ((done ++ cs).flatMap infoBytes), levelFile (done ++ cs)⟩ := by
  induction cs with
  | nil => intro done; simp [appendAll]
  | cons ch cs ih =>
    intro done
    have := ih (done ++ [ch])
    simp only [List.append_assoc, List.singleton_append] at this
    rw [← this, appendAll, appendChunk]
    dsimp only
    rw [levelFile_append, Option.bind_some]
    congr 3
    simp

theorem emptyStore_eq : emptyStore = ⟨some (([] : List Chunk).flatMap infoBytes), levelFile []⟩ := by
  unfold emptyStore
  congr 1

theorem column_length (cs : List Chunk) (n : Nat) : (column cs n).length = (cs.map fun ch => match ch.levels[n]? with
    | some lv => lv.index.length + lv.nodes.length
    | none => 0).sum := by
  induction cs with
  | nil => rfl
  | cons ch cs ih =>
    rw [List.map_cons, List.sum_cons, ← ih, show ch :: cs = [ch] ++ cs from rfl, column_append, List.length_append]
    congr 1
    unfold column
    rw [List.flatMap_cons, List.flatMap_nil, List.append_nil]
    cases ch.levels[n]? <;> simp

/-- What is read back, whatever was appended. -/
theorem read_appended {c : Config} {cs : List Chunk} (hs : Storable c cs) :
    ∃ d, appendAll emptyStore cs = some d ∧ readAndMap c d = .ok (cs.foldl (overwrite c) []) := by
  refine ⟨_, by rw [emptyStore_eq]; exact appendAll_ok cs [], ?_⟩
  rw [List.nil_append]
  have hsize : ∀ n, (column cs n).length < 2 ^ 64 := fun n => by rw [column_length]; exact hs.size n
  have hne : ∀ n, levelFile cs n ≠ some [] := by
    intro n h
    unfold levelFile at h
    split at h
    · next ha =>
      injection h with h
      obtain ⟨ch, h1, h2⟩ := List.any_eq_true.1 ha
      have hlt : n < ch.levels.length := by simpa using h2
      unfold column at h
      rw [List.flatMap_eq_nil_iff] at h
      have := h ch h1
      rw [List.getElem?_eq_getElem hlt] at this
      dsimp only at this
      exact hs.index ch h1 _ (List.getElem_mem hlt) (List.append_eq_nil_iff.1 this).1
    · cases h
  obtain ⟨maps, h1, h2⟩ := mapFrom_ok hne (fun n h => levelFile_none_of fun ch hch => by
    have := levelFile_none h ch hch
    omega) 65 0 (levelFile_none_of fun ch hch => by have := hs.levels ch hch; omega)
  have h2' : ∀ i, maps[i]? = levelFile cs i := fun i => by rw [h2, Nat.zero_add]
  have hpos : cs.length ≤ (cs.flatMap infoBytes).length := by
    clear hs hsize hne h1 h2 h2'
    induction cs with
    | nil => simp
    | cons ch cs ih =>
      have : 1 ≤ (infoBytes ch).length := by simp only [infoBytes, List.length_append, leEnc_length]; omega
      rw [List.flatMap_cons, List.length_append, List.length_cons]
      omega
  unfold readAndMap
  dsimp only
  rw [h1]
  dsimp only
  rw [if_neg, readChunks_ok h2' hsize hs.config hs.first (fun ch hch => by have := hs.levels ch hch; omega) cs [] _
    (fun _ => 0) _ rfl (fun n => rfl) hpos]
  rintro ⟨ha, hb⟩
  have hz : cs = [] := List.length_eq_zero_iff.1 (by omega)
  subst hz
  have := h2' 0
  rw [List.getElem?_eq_getElem hb, levelFile_none_of (by simp)] at this
  cases this

/-- **C30, full statement (false).** The chunks appended are the chunks read. -/
def ChunksComeBack (c : Config) (cs : List Chunk) : Prop :=
  ∃ d, appendAll emptyStore cs = some d ∧ readAndMap c d = .ok cs

/-- **C30, for at most one chunk.** Missing: two or more chunks, for which it is false (`two_chunks_do_not_come_back`). -/
theorem chunk_comes_back_partial {c : Config} {cs : List Chunk} (hs : Storable c cs) (h1 : cs.length ≤ 1) :
    ChunksComeBack c cs := by
  obtain ⟨d, e1, e2⟩ := read_appended hs
  refine ⟨d, e1, ?_⟩
  rw [e2]
  match cs, h1 with
  | [], _ => rfl
  | [ch], _ => rfl

/-- **C30, what happens instead.** As many chunks are read as were appended, but the first is the one appended last,
and the others have no levels and start at 0. -/
theorem last_chunk_comes_first {c : Config} {cs : List Chunk} {last : Chunk} (hs : Storable c (cs ++ [last])) :
    ∃ d, appendAll emptyStore (cs ++ [last]) = some d ∧
      readAndMap c d = .ok (last :: List.replicate cs.length ⟨c, 0, []⟩) := by
  obtain ⟨d, e1, e2⟩ := read_appended hs
  refine ⟨d, e1, ?_⟩
  rw [e2]
  match cs with
  | [] => rfl
  | ch :: cs =>
    rw [List.cons_append, List.foldl_cons]
    have : overwrite c [] ch = ch :: List.replicate 0 (blank c) := rfl
    rw [this, fold_overwrite]
    have hl : (ch :: (cs ++ [last])).getLast (List.cons_ne_nil _ _) = last := by
      rw [List.getLast_cons (l := cs ++ [last]) (by simp), List.getLast_concat]
    rw [hl, List.length_append, Nat.zero_add]
    rfl

/-- **C30, the negation.** No two or more chunks with something in the second come back. -/
theorem two_chunks_do_not_come_back {c : Config} {ch ch' : Chunk} {cs : List Chunk} (hs : Storable c (ch :: ch' :: cs))
    (hlv : ch'.levels ≠ []) : ¬ ChunksComeBack c (ch :: ch' :: cs) := by
  rintro ⟨d, e1, e2⟩
  obtain ⟨init, last, hl⟩ : ∃ init last, ch :: ch' :: cs = init ++ [last] :=
    ⟨_, _, (List.dropLast_concat_getLast (l := ch :: ch' :: cs) (by simp)).symm⟩
  rw [hl] at hs
  obtain ⟨d', f1, f2⟩ := last_chunk_comes_first hs
  rw [← hl, e1] at f1
  obtain rfl := Option.some.inj f1
  rw [e2] at f2
  injection f2 with f2
  injection f2 with _ f3
  have hlen : init.length = cs.length + 1 := by
    have := congrArg List.length hl
    simp at this
    omega
  rw [hlen, List.replicate_succ] at f3
  injection f3 with f3
  rw [f3] at hlv
  exact hlv rfl

/-- **C30 with C57.** A chunk prepared of any hashes and put into an empty store is read back, and every hash looked up
in it has the index it was presented with. -/
theorem stored_chunk_finds_every_hash {ent : List Entry → Nat → Nat} (he : EntropyOK ent) {c : Config} (hc : ConfigOK c)
    (h5 : 5 ≤ c.specs) (hspecs : c.specs ≤ 255) (h1 : 1 ≤ c.hl) (h63 : c.hl ≤ 63) (hr : c.r ≤ c.hl) {e₀ : Entry}
    {l : List Entry} (hp : Presentable c e₀.pi (e₀ :: l)) (hcount : (e₀ :: l).length < 256 ^ c.w)
    (hbytes : (e₀ :: l).length * (17 + 128 * c.w) < 2 ^ 32) (hfirst : e₀.pi < 2 ^ 63) :
    ∃ ch d ch', prepare ent c (e₀ :: l) = some ch ∧ appendChunk emptyStore ch = some d ∧ readAndMap c d = .ok [ch'] ∧
      ∀ e ∈ e₀ :: l, lookupHash ch' e.hash = some e.pi := by
  obtain ⟨ch, e1, hall⟩ := chunk_finds_every_hash he hc h5 hspecs h1 h63 hr hp hcount hbytes
  obtain ⟨ch2, t, e2, ⟨e3, hlv⟩, -⟩ := prepare_ok he hc h5 hspecs h1 h63 hr hp hcount hbytes
  rw [e1] at e2
  obtain rfl := Option.some.inj e2
  have hs : Storable c [ch] := by
    have h0 := hp.nonneg
    obtain ⟨hcf, hn, hl⟩ := hlv
    refine ⟨by simpa using hcf, ?_, ?_, ?_, ?_⟩
    · intro x hx
      rw [List.mem_singleton] at hx
      subst hx
      rw [e3]
      exact ⟨by omega, hfirst⟩
    · intro x hx
      rw [List.mem_singleton] at hx
      subst hx
      omega
    · intro x hx lv hlv
      rw [List.mem_singleton] at hx
      subst hx
      exact (hl lv hlv).1
    · intro n
      simp only [List.map_cons, List.map_nil, List.sum_cons, List.sum_nil, Nat.add_zero]
      split
      · next lv hi =>
        exact Nat.lt_of_lt_of_le (hl lv (List.mem_of_getElem? hi)).2 (by decide)
      · decide
  obtain ⟨d, f1, f2⟩ := chunk_comes_back_partial hs (by simp)
  refine ⟨ch, d, ch, e1, ?_, f2, hall⟩
  rw [appendAll] at f1
  match hd : appendChunk emptyStore ch with
  | none => rw [hd] at f1; cases f1
  | some d' =>
    rw [hd] at f1
    exact f1

/-! ## Concrete cases -/

/-- Two chunks, the first of two levels, the second of three. -/
def demoStored : List Chunk :=
  [⟨demoChunkConfig, 0, [⟨[1, 0], [7]⟩, ⟨[1, 0], [8, 9]⟩]⟩,
   ⟨demoChunkConfig, 5, [⟨[2, 0], []⟩, ⟨[2, 0], [10]⟩, ⟨[2, 0], [11]⟩]⟩]

theorem demoStored_storable : Storable demoChunkConfig demoStored := by
  refine ⟨by decide, by decide, by decide, by decide, ?_⟩
  intro n
  match n with
  | 0 | 1 | 2 => decide
  | n + 3 => simp [demoStored]

example : ¬ ChunksComeBack demoChunkConfig demoStored := two_chunks_do_not_come_back demoStored_storable (by decide)

example : ∃ d, appendAll emptyStore demoStored = some d ∧
    readAndMap demoChunkConfig d = .ok [⟨demoChunkConfig, 5, [⟨[2, 0], []⟩, ⟨[2, 0], [10]⟩, ⟨[2, 0], [11]⟩]⟩, ⟨demoChunkConfig, 0, []⟩] :=
  last_chunk_comes_first (cs := [⟨demoChunkConfig, 0, [⟨[1, 0], [7]⟩, ⟨[1, 0], [8, 9]⟩]⟩]) demoStored_storable

example : ∃ ch d ch', prepare demoEnt demoChunkConfig demoEntries = some ch ∧ appendChunk emptyStore ch = some d ∧
    readAndMap demoChunkConfig d = .ok [ch'] ∧ ∀ e ∈ demoEntries, lookupHash ch' e.hash = some e.pi :=
  stored_chunk_finds_every_hash demoEnt_ok ⟨by decide, by decide, by decide, by decide, by decide⟩ (by decide) (by decide)
    (by decide) (by decide) (by decide) ⟨rfl, by decide, by decide, by decide, by decide⟩ (by decide) (by decide) (by decide)

example : ChunksComeBack demoChunkConfig [⟨demoChunkConfig, 0, [⟨[1, 0], [7]⟩, ⟨[1, 0], [8, 9]⟩]⟩] := by
  refine chunk_comes_back_partial ⟨by decide, by decide, by decide, by decide, ?_⟩ (by decide)
  intro n
  match n with
  | 0 | 1 => decide
  | n + 2 => simp

end Verif.Chunk
