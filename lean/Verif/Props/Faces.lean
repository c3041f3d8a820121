import Verif.Lemmas.Sorting
import Verif.Model.SimplicialComplex

/-!
# Property C07: `get_faces`
-/

namespace Pytspl

open List

private theorem mem_faceSet (s : List Int) (x : List Int) :
    x ∈ ((List.range s.length).reverse.map (· + 1)).foldl (fun acc r =>
      (combinations s r).foldl (fun acc face => setAdd acc (sortedInts face)) acc) [] ↔
    ∃ face, face.Sublist s ∧ 1 ≤ face.length ∧ x = sortedInts face := by
  have key : ∀ (rs : List ℕ) (acc : List (List Int)), acc.Nodup →
      ∀ x, x ∈ rs.foldl (fun acc r =>
        (combinations s r).foldl (fun acc face => setAdd acc (sortedInts face)) acc) acc ↔
      x ∈ acc ∨ ∃ r ∈ rs, ∃ face ∈ combinations s r, x = sortedInts face := by
    intro rs
    induction rs with
    | nil => intro acc _ x; simp
    | cons r rs ih =>
      intro acc hacc x
      obtain ⟨h1, h2⟩ := foldl_setAdd sortedInts (combinations s r) acc hacc
      rw [List.foldl_cons, ih _ h1, h2]
      simp only [mem_cons, exists_eq_or_imp, or_assoc]
  rw [key _ [] (by simp)]
  simp only [not_mem_nil, false_or, mem_map, mem_reverse, mem_range, mem_combinations]
  constructor
  · rintro ⟨r, ⟨k, hk, rfl⟩, face, ⟨h1, h2⟩, rfl⟩
    exact ⟨face, h1, by omega, rfl⟩
  · rintro ⟨face, h1, h2, rfl⟩
    have := h1.length_le
    exact ⟨face.length, ⟨face.length - 1, by omega, by omega⟩, face, ⟨h1, rfl⟩, rfl⟩

private theorem nodup_faceSet (s : List Int) :
    (((List.range s.length).reverse.map (· + 1)).foldl (fun acc r =>
      (combinations s r).foldl (fun acc face => setAdd acc (sortedInts face)) acc) []).Nodup := by
  have key : ∀ (rs : List ℕ) (acc : List (List Int)), acc.Nodup → (rs.foldl (fun acc r =>
        (combinations s r).foldl (fun acc face => setAdd acc (sortedInts face)) acc) acc).Nodup := by
    intro rs
    induction rs with
    | nil => intro acc h; exact h
    | cons r rs ih =>
      intro acc hacc
      exact ih _ (foldl_setAdd sortedInts (combinations s r) acc hacc).1
  exact key _ [] (by simp)

private theorem mem_getFaces {s : List Int} (h2 : 2 ≤ s.length) (x : List Int) :
    x ∈ SC.getFaces s ↔ ∃ v ∈ s, x = sortedInts (s.erase v) := by
  unfold SC.getFaces
  simp only
  rw [(sortedTuples_perm _).mem_iff, List.mem_filter, mem_faceSet]
  simp only [decide_eq_true_eq]
  constructor
  · rintro ⟨⟨face, h1, -, rfl⟩, hl⟩
    rw [(sortedInts_perm face).length_eq] at hl
    obtain ⟨v, hv, hp⟩ := sublist_drop_one h1 (by omega)
    exact ⟨v, hv, sortedInts_eq_of_perm hp⟩
  · rintro ⟨v, hv, rfl⟩
    have := List.length_erase_of_mem hv
    refine ⟨⟨s.erase v, List.erase_sublist, by omega, rfl⟩, ?_⟩
    rw [(sortedInts_perm _).length_eq]
    omega

/-- C07: for a simplex with `n ≥ 2` distinct vertices, the result is strictly increasing in
lexicographic order (so without repeats), has `n` members, and a tuple is in it exactly when it is an
increasing arrangement of the simplex with one vertex dropped. -/
theorem C07_faces_exact (s : List Int) (hd : s.Nodup) (hn : 2 ≤ s.length) :
    (SC.getFaces s).Pairwise (· < ·) ∧ (SC.getFaces s).length = s.length ∧
    ∀ t : List Int, t ∈ SC.getFaces s ↔ t.Pairwise (· < ·) ∧ ∃ v ∈ s, t.Perm (s.erase v) := by
  have hnd : (SC.getFaces s).Nodup := by
    unfold SC.getFaces
    exact (sortedTuples_perm _).nodup_iff.mpr ((nodup_faceSet s).filter _)
  have hsorted : (SC.getFaces s).Pairwise (· ≤ ·) := by
    unfold SC.getFaces; exact sortedTuples_pairwise _
  have hinj : ∀ v ∈ s, ∀ w ∈ s, sortedInts (s.erase v) = sortedInts (s.erase w) → v = w := by
    intro v hv w hw h
    have hp : (s.erase v).Perm (s.erase w) :=
      (sortedInts_perm _).symm.trans (h ▸ sortedInts_perm _)
    by_contra hne
    have h1 : v ∈ s.erase w := (List.mem_erase_of_ne hne).mpr hv
    have h2 : v ∈ s.erase v := hp.mem_iff.mpr h1
    exact hd.not_mem_erase h2
  refine ⟨hsorted.imp₂ (fun a b hab hne => lt_of_le_of_ne hab hne) hnd, ?_, ?_⟩
  · have hp : (SC.getFaces s).Perm (s.map fun v => sortedInts (s.erase v)) := by
      rw [List.perm_ext_iff_of_nodup hnd]
      · intro x
        rw [mem_getFaces hn]
        simp only [mem_map, eq_comm]
      · exact (List.nodup_map_iff_inj_on hd).mpr hinj
    rw [hp.length_eq, List.length_map]
  · intro t
    rw [mem_getFaces hn]
    constructor
    · rintro ⟨v, hv, rfl⟩
      exact ⟨sortedInts_lt (hd.erase v), v, hv, sortedInts_perm _⟩
    · rintro ⟨h1, v, hv, hp⟩
      refine ⟨v, hv, sorted_unique (h1.imp le_of_lt) (sortedInts_pairwise _) ?_⟩
      exact hp.trans (sortedInts_perm _).symm

/-- C07: a one-vertex simplex has no faces. -/
theorem C07_faces_singleton (v : Int) : SC.getFaces [v] = [] := by
  have : ∀ x, x ∉ SC.getFaces [v] := by
    intro x hx
    unfold SC.getFaces at hx
    simp only at hx
    rw [(sortedTuples_perm _).mem_iff, List.mem_filter, mem_faceSet] at hx
    obtain ⟨⟨face, -, h2, rfl⟩, hl⟩ := hx
    simp only [decide_eq_true_eq, (sortedInts_perm face).length_eq] at hl
    simp at hl
    rw [hl] at h2
    simp at h2
  exact List.eq_nil_iff_forall_not_mem.mpr this

example : ([3, 1, 2] : List Int).Nodup ∧ 2 ≤ ([3, 1, 2] : List Int).length := by decide

end Pytspl
