import Verif.Lemmas.ChunkLevels

/-!
# A level that could be written has every node in the space foreseen
-/

namespace Verif.Chunk

open Verif.ShallowTree

theorem fullIds_length {m : IdMap} {p : List UInt8} {next : UInt8 → Tree} : ∀ (bs : List UInt8) {ids : List Nat},
    fullIds m p next bs = some ids → ids.length = bs.length := by
  intro bs
  induction bs with
  | nil => intro ids h; unfold fullIds at h; injection h with h; subst h; rfl
  | cons b bs ih =>
    intro ids h
    unfold fullIds at h
    split at h
    · obtain ⟨r, hr, rfl⟩ := Option.map_eq_some_iff.1 h
      simp [ih hr]
    · split at h
      · cases h
      · obtain ⟨r, hr, rfl⟩ := Option.map_eq_some_iff.1 h
        simp [ih hr]

theorem activeIds_length {m : IdMap} {p : List UInt8} : ∀ (bs : List UInt8) {ids : List Nat},
    activeIds m p bs = some ids → ids.length = bs.length := by
  intro bs
  induction bs with
  | nil => intro ids h; unfold activeIds at h; injection h with h; subst h; rfl
  | cons b bs ih =>
    intro ids h
    unfold activeIds at h
    split at h
    · cases h
    · obtain ⟨r, hr, rfl⟩ := Option.map_eq_some_iff.1 h
      simp [ih hr]

/-- The reassurance bytes of a leaf are no more than there is room for. -/
def ReassuranceFits (c : Config) : Tree → Prop
  | .leaf re _ => re.length ≤ c.r
  | _ => True

theorem nodeBytes_length {c : Config} (hr : c.r < 256) {spec : Spec} {m : IdMap} {n : Named} {bs : Bytes}
    (hf : ReassuranceFits c n.2) (h : nodeBytes c spec m n = some bs) : bs.length = byteSize c spec := by
  obtain ⟨p, t⟩ := n
  cases t with
  | empty => simp [nodeBytes] at h
  | leaf re pi =>
    unfold nodeBytes at h
    dsimp only at h
    unfold byteSize
    split at h
    · next hl =>
      rw [hl]
      unfold leafBytes at h
      split at h
      · cases h
      · split at h
        · cases h
        · injection h with h
          subst h
          have : re.length ≤ c.r := hf
          simp only [List.length_append, zeros_length, leEnc_length]
          omega
    · cases h
  | slots bi next =>
    unfold nodeBytes at h
    dsimp only at h
    unfold byteSize
    split at h
    · cases h
    · next hl =>
      rw [hl]
      unfold fullBytes at h
      obtain ⟨ids, hi, rfl⟩ := Option.map_eq_some_iff.1 h
      have := fullIds_length _ hi
      rw [List.length_cons, List.length_cons, flatMap_length_const _ c.w (fun a => leEnc_length _ _), this, allBytes_length]
      dsimp only
      omega
    · next hl =>
      rw [hl]
      unfold mediumBytes at h
      dsimp only at h
      split at h
      · cases h
      · next ids hi =>
        split at h
        · cases h
        · injection h with h
          subst h
          simp only [List.length_append, List.length_cons, (foldl_setBit (actives next) (zeros 32) (by simp)).1, zeros_length]
          rw [flatMap_length_const _ c.w (fun a => leEnc_length _ _)]
          have hle : ids.length ≤ spec.cap := by omega
          have := Nat.mul_le_mul_right c.w hle
          rw [Nat.mul_comm c.w, Nat.sub_mul]
          omega
    · next hl =>
      rw [hl]
      unfold tinyBytes at h
      dsimp only at h
      split at h
      · cases h
      · split at h
        · cases h
        · next ids hi =>
          split at h
          · cases h
          · injection h with h
            subst h
            rw [List.length_take, List.length_append, zeros_length]
            dsimp only
            rw [Nat.mul_comm spec.cap]
            omega

theorem allNodeBytes_some {c : Config} {spec : Spec} {m : IdMap} : ∀ {ns : List Named} {bs : Bytes},
    allNodeBytes c spec m ns = some bs → ∀ n ∈ ns, ∃ b, nodeBytes c spec m n = some b := by
  intro ns
  induction ns with
  | nil => intro bs _ n hn; simp at hn
  | cons x ns ih =>
    intro bs h n hn
    unfold allNodeBytes at h
    split at h
    · cases h
    · next b hb =>
      obtain ⟨r, hr, -⟩ := Option.map_eq_some_iff.1 h
      rcases List.mem_cons.1 hn with rfl | hn
      · exact ⟨b, hb⟩
      · exact ih hr n hn

theorem groupBytes_some {c : Config} {gs : List Group} {m : IdMap} {ns : List Named} : ∀ {rest : List Group} {i : Nat} {bs : Bytes},
    groupBytes c gs m ns i rest = some bs → ∀ (k : Nat) (g : Group), rest[k]? = some g → ∀ n ∈ ns, grp gs n = i + k →
    ∃ b, nodeBytes c g.spec m n = some b := by
  intro rest
  induction rest with
  | nil => intro i bs _ k g hg; simp at hg
  | cons x rest ih =>
    intro i bs h k g hg n hn hk
    unfold groupBytes at h
    split at h
    · cases h
    · next b hb =>
      obtain ⟨r, hr, -⟩ := Option.map_eq_some_iff.1 h
      cases k with
      | zero =>
        simp only [List.getElem?_cons_zero, Option.some.injEq] at hg
        subst hg
        exact allNodeBytes_some hb n (List.mem_filter.2 ⟨hn, by simpa [grp] using hk⟩)
      | succ k =>
        simp only [List.getElem?_cons_succ] at hg
        exact ih hr k g hg n hn (by omega)

theorem writable_of_some {c : Config} (hr : c.r < 256) {gs : List Group} {m : IdMap} {ns : List Named} {bs : Bytes}
    (hf : ∀ n ∈ ns, ReassuranceFits c n.2) (h : groupBytes c gs m ns 0 gs = some bs) : Writable c gs m ns := by
  intro n hn g hg
  obtain ⟨b, hb⟩ := groupBytes_some h _ g hg n hn (by omega)
  exact ⟨b, hb, nodeBytes_length hr (hf n hn) hb⟩

end Verif.Chunk
