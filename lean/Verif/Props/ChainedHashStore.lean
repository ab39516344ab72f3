import Verif.Lemmas.ChainedHashStore

/-!
# C17: the collision-chained hash store
-/

namespace Verif.ChainedHashStore

open HashStores (Found firstIndex)

theorem appendAll_ok {p : Params} (hp : p.Valid) (hs : List Bytes) {s : CH} {chains : Nat → List Nat} {nch : Nat}
    (h : Inv p s chains nch) (hlen : s.hashes.length + hs.length < msb p) :
    ∃ s' chains' nch', appendAll p s hs = .ok (s', List.range' s.hashes.length hs.length) ∧
      s'.hashes = s.hashes ++ hs ∧ Inv p s' chains' nch' := by
  induction hs generalizing s chains nch with
  | nil => exact ⟨s, chains, nch, by simp [appendAll], by simp, h⟩
  | cons v hs ih =>
    simp only [List.length_cons] at hlen
    obtain ⟨s1, ch1, n1, h1, h2, h3⟩ := append_ok hp h (by omega) v
    obtain ⟨s2, ch2, n2, h4, h5, h6⟩ := ih h3 (by rw [h2]; simp; omega)
    refine ⟨s2, ch2, n2, ?_, by rw [h5, h2]; simp, h6⟩
    simp only [appendAll, h1, h4, h2, List.length_append, List.length_singleton, List.length_cons,
      List.length_nil, Nat.zero_add, List.range'_succ]

/-- **C17 (partial).** For every partial-hash width, every entry width of 1 to 7 bytes, every chunk size of 2 to 8
that fits the zero buffer, and every sequence of hashes (with any pattern of partial-hash collisions, even
with duplicates) shorter than the top bit of an entry: every append succeeds and returns the next index;
afterwards `IndexOfHash(h)` is the smallest index at which `h` was appended, or "absent" if it never was;
`GetHashAtIndex(i)` is the `i`-th hash and the count is the number of appends. Missing from the full
statement: the parameter choices and the last index that the code accepts but mishandles, see
`last_index_is_not_found`, `allowed_parameters_panic` and `one_per_chunk_loses_hashes`. -/
theorem chained_store_finds_all_partial (p : Params) (hp : p.Valid) (hs : List Bytes) (hlen : hs.length < msb p) :
    ∃ s, appendAll p create hs = .ok (s, List.range hs.length) ∧
      (∀ h, indexOfHash p s h = some (firstIndex hs h)) ∧
      (∀ i, getHashAtIndex s i = hs[i]?) ∧ countHashes s = hs.length := by
  obtain ⟨s, ch, n, h1, h2, h3⟩ := appendAll_ok hp hs (inv_create p) (by simpa [create] using hlen)
  have h2' : s.hashes = hs := by simpa [create] using h2
  refine ⟨s, by rw [h1, List.range_eq_range']; rfl, ?_, ?_, ?_⟩
  · intro h
    rw [indexOf_ok hp h3 (by rw [h2']; exact hlen), h2']
  · intro i; rw [getHashAtIndex, h2']
  · rw [countHashes, h2']

/-- For distinct hashes the answer is *the* index of the hash. -/
theorem chained_store_index_partial (p : Params) (hp : p.Valid) (hs : List Bytes) (hlen : hs.length < msb p)
    (hd : hs.Nodup) :
    ∃ s, appendAll p create hs = .ok (s, List.range hs.length) ∧
      (∀ i h, hs[i]? = some h → indexOfHash p s h = some (.at i)) ∧
      (∀ h, h ∉ hs → indexOfHash p s h = some .absent) := by
  obtain ⟨s, h1, h2, _, _⟩ := chained_store_finds_all_partial p hp hs hlen
  refine ⟨s, h1, ?_, ?_⟩
  · intro i h hi
    rw [h2 h]
    congr 1
    rw [HashStores.firstIndex_at]
    refine ⟨hi, ?_⟩
    intro j hj hjh
    have hil := lt_of_getElem?_some hi
    rw [List.getElem?_eq_getElem hil] at hi
    rw [List.getElem?_eq_getElem (by omega)] at hjh
    have := List.pairwise_iff_getElem.mp (List.nodup_iff_pairwise_ne.mp hd) j i (by omega) hil hj
    exact this (by rw [Option.some.inj hjh, Option.some.inj hi])
  · intro h hh
    rw [h2 h]
    congr 1
    exact HashStores.firstIndex_absent.mpr hh

/-- Example parameters: the ones used by the chain storage (30-bit keys would do as well): 4-byte entries,
3 collisions per chunk. -/
def demo : Params := { nbits := 4, nbytes := 4, cpc := 3 }

theorem demo_valid : demo.Valid := ⟨by decide, by decide, by decide, by decide, by decide⟩

/-- A hash made from a byte. -/
def mkHash (b : Nat) : Bytes := UInt8.ofNat b :: List.replicate 31 0

/-- Example: nine hashes sharing one 4-bit key, so a chain of three chunks, plus two others. -/
example : ∃ s, appendAll demo create ([3, 19, 35, 4, 51, 67, 83, 99, 5, 115, 131].map mkHash) =
      .ok (s, List.range 11) ∧
    indexOfHash demo s (mkHash 131) = some (.at 10) ∧ indexOfHash demo s (mkHash 147) = some .absent ∧
    indexOfHash demo s (mkHash 5) = some (.at 8) ∧ s.coll.length = 12 := by
  refine ⟨_, rfl, ?_, ?_, ?_, ?_⟩ <;> decide +kernel

/-- Parameters with one-byte entries. -/
def tiny : Params := { nbits := 8, nbytes := 1, cpc := 3 }

/-- **C17 is violated at the last accepted index.** `AppendHash` accepts index `MSB-1` (hashstore.go:58) but stores it
plus one, which sets the flag bit: with one-byte entries the 128th hash is appended without error
and can never be found. -/
theorem last_index_is_not_found :
    ∃ s, appendAll tiny create ((List.range 128).map mkHash) = .ok (s, List.range 128) ∧
      getHashAtIndex s 127 = some (mkHash 127) ∧ indexOfHash tiny s (mkHash 127) = some .absent := by
  have key : (match appendAll tiny create ((List.range 128).map mkHash) with
      | .ok (s, is) => decide (is = List.range 128 ∧ getHashAtIndex s 127 = some (mkHash 127) ∧
          indexOfHash tiny s (mkHash 127) = some .absent)
      | _ => false) = true := by decide +kernel
  revert key
  cases appendAll tiny create ((List.range 128).map mkHash) with
  | ok r =>
    obtain ⟨s, is⟩ := r
    intro key
    simp only [decide_eq_true_eq] at key
    exact ⟨s, by rw [key.1], key.2⟩
  | _ => simp

/-- Parameters accepted by every check in the code (entry bytes ≤ 8, collisions per chunk ≤ 8). -/
def wide : Params := { nbits := 4, nbytes := 4, cpc := 8 }

/-- **C17 is violated for allowed parameters.** With 4-byte entries and 8 collisions per chunk the ninth hash with
the same partial key makes `AppendHash` panic: the zero buffer has only 32 bytes (hashstore.go:33, 200). -/
theorem allowed_parameters_panic :
    appendAll wide create ([3, 19, 35, 51, 67, 83, 99, 115, 131].map mkHash) = .panicked := by
  rfl

/-- Parameters with one collision per chunk. -/
def single : Params := { nbits := 4, nbytes := 4, cpc := 1 }

/-- **C17 is violated for one collision per chunk.** The second colliding hash is written where the link of the
chunk belongs (hashstore.go:133): it is accepted, and looking it up fails with a read error. -/
theorem one_per_chunk_loses_hashes :
    ∃ s, appendAll single create ([3, 19].map mkHash) = .ok (s, [0, 1]) ∧
      indexOfHash single s (mkHash 19) = some .err := by
  refine ⟨_, rfl, ?_⟩; decide +kernel

end Verif.ChainedHashStore
