import Verif.Lemmas.Incidence
import Verif.Spec.Samples
import Mathlib.Tactic.FinCases
import Mathlib.Tactic.NormNum
import Mathlib.Tactic.LinearCombination

/-!
# Properties C01 - C04: the incidence matrices
-/

namespace Pytspl

variable {K : Type} [CommRing K]

/-- C01, content: `incidence_matrix(1)` of every constructed complex has, in the column of edge
`(u, v)` with different rows, `-1` in the row named by `u`, `+1` in the row named by `v`, 0
elsewhere. -/
theorem C01_incidence1_exact (sc : SC K) (hb : sc.Built) :
    sc.incidenceMatrix 1 = .ok (.mat sc.nodes.length sc.edges.length sc.B1) ∧
    ∀ (j : Fin sc.edges.length) (i : Fin sc.nodes.length),
      (¬ ∃ r : Fin sc.nodes.length, NamesRow sc.edges[j].1 r ∧ NamesRow sc.edges[j].2 r) →
      (NamesRow sc.edges[j].1 i → sc.B1 i j = -1) ∧
      (NamesRow sc.edges[j].2 i → sc.B1 i j = 1) ∧
      (¬ NamesRow sc.edges[j].1 i → ¬ NamesRow sc.edges[j].2 i → sc.B1 i j = 0) := by
  refine ⟨rfl, ?_⟩
  intro j i hne
  obtain ⟨u, v, hu, hv, hB⟩ := edgesToB1_ok_entry hb.b1 j
  have key : ∀ (w : Int) (k : Fin sc.nodes.length), npIdx sc.nodes.length w = .ok k →
      (NamesRow w i ↔ i = k) := by
    intro w k hk
    constructor
    · intro h
      have := (npIdx_ok_iff (k := i)).mpr h
      rw [this] at hk; cases hk; rfl
    · rintro rfl
      exact npIdx_ok_iff.mp hk
  rw [key _ _ hu, key _ _ hv, hB i]
  have huv : u ≠ v := by
    rintro rfl
    exact hne ⟨u, npIdx_ok_iff.mp hu, npIdx_ok_iff.mp hv⟩
  refine ⟨?_, ?_, ?_⟩
  · rintro rfl; simp [huv]
  · rintro rfl; simp
  · intro h1 h2; simp [h1, h2]

/-- C01, self-loops: an edge whose endpoints name the same row gets a single `+1` there. -/
theorem C01_incidence1_loop (sc : SC K) (hb : sc.Built) (j : Fin sc.edges.length)
    (r : Fin sc.nodes.length) (h1 : NamesRow sc.edges[j].1 r) (h2 : NamesRow sc.edges[j].2 r)
    (i : Fin sc.nodes.length) : sc.B1 i j = if i = r then 1 else 0 := by
  obtain ⟨u, v, hu, hv, hB⟩ := edgesToB1_ok_entry hb.b1 j
  rw [(npIdx_ok_iff (k := r)).mpr h1] at hu
  rw [(npIdx_ok_iff (k := r)).mpr h2] at hv
  cases hu; cases hv
  rw [hB]
  by_cases h : i = r <;> simp [h]

/-- C01, failure: construction raises `IndexError` iff some endpoint is not a valid row label,
whatever the triangles are. -/
theorem C01_construction_indexError (nodes : List Int) (edges : List Edge)
    (triangles : List (List Int)) (nf : NodeFeatures) (ef : EdgeFeatures) :
    SC.init (K := K) nodes edges triangles nf ef = .error .indexError ↔
      ∃ e ∈ edges, ¬ ValidLabel nodes.length e.1 ∨ ¬ ValidLabel nodes.length e.2 := by
  constructor
  · intro h
    unfold SC.init at h
    cases h1 : edgesToB1 (K := K) edges nodes.length with
    | error e => exact (edgesToB1_error_iff.mp h1).2
    | ok B =>
      rw [h1] at h
      cases h2 : trianglesToB2 (K := K) triangles edges with
      | error e =>
        obtain ⟨rfl, -⟩ := trianglesToB2_error_iff.mp h2
        rw [h2] at h; cases h
      | ok B' => rw [h2] at h; cases h
  · intro hbad
    have he : edgesToB1 (K := K) edges nodes.length = .error .indexError :=
      edgesToB1_error_iff.mpr ⟨rfl, hbad⟩
    unfold SC.init; rw [he]; rfl

example : ∃ sc : SC ℤ, sc.Built ∧ sc.edges = [(0, 1), (2, 1), (-1, 0)] ∧ sc.nodes = [0, 1, 2] ∧
    (¬ ∃ r : Fin 3, NamesRow (2 : Int) r ∧ NamesRow (1 : Int) r) := by
  obtain ⟨sc, h⟩ := SC.exists_built ℤ [0, 1, 2] [(0, 1), (2, 1), (-1, 0)] [] [] []
    (by simp [ValidLabel]) (by simp)
  obtain ⟨h1, h2, -, -, -, hb⟩ := SC.init_ok h
  refine ⟨sc, hb, h2, h1, ?_⟩
  rintro ⟨r, hr, hr'⟩
  unfold NamesRow at hr hr'
  omega

/-- C02, content: in the column of triangle `[a,b,c]` (with three different edges) the entry is
`+1` at the row of edge ab and of edge bc, `-1` at the row of edge ac, 0 at every other row; a row
belongs to an edge if it holds that edge, and the first such row is used, the triangle's own
orientation being preferred. -/
theorem C02_incidence2_exact (sc : SC K) (hb : sc.Built) (hl : NoLoops sc.edges) :
    sc.incidenceMatrix 2 = .ok (.mat sc.edges.length sc.triangles.length sc.B2) ∧
    ∀ t : Fin sc.triangles.length, ∃ a b c, ∃ iab ibc iac : Fin sc.edges.length,
      sc.triangles[t] = [a, b, c] ∧
      (sc.edges[iab] = (a, b) ∨ ((a, b) ∉ sc.edges ∧ sc.edges[iab] = (b, a))) ∧
      (sc.edges[ibc] = (b, c) ∨ ((b, c) ∉ sc.edges ∧ sc.edges[ibc] = (c, b))) ∧
      (sc.edges[iac] = (a, c) ∨ ((a, c) ∉ sc.edges ∧ sc.edges[iac] = (c, a))) ∧
      sc.B2 iab t = 1 ∧ sc.B2 ibc t = 1 ∧ sc.B2 iac t = -1 ∧
      (∀ i, i ≠ iab → i ≠ ibc → i ≠ iac → sc.B2 i t = 0) ∧
      (∀ j < iab, sc.edges[j] ≠ sc.edges[iab]) ∧ (∀ j < ibc, sc.edges[j] ≠ sc.edges[ibc]) ∧
      (∀ j < iac, sc.edges[j] ≠ sc.edges[iac]) := by
  refine ⟨rfl, ?_⟩
  intro t
  obtain ⟨a, b, c, ia, ib, ic, h0, h1, h2, h3, hB⟩ := hb.tri_entry t
  obtain ⟨d1, d2, d3, -, -, -⟩ := triRows_distinct hl h1 h2 h3
  have first : ∀ {x y : Edge} {k : Fin sc.edges.length}, listIndexOr sc.edges x y = .ok k →
      ∀ j < k, sc.edges[j] ≠ sc.edges[k] := by
    intro x y k hk j hj
    rcases listIndexOr_ok_spec hk with h | ⟨_, h⟩ <;>
    · have := listIndex_ok_iff.mp h
      rw [this.1]; exact this.2 j hj
  refine ⟨a, b, c, ia, ib, ic, h0, listIndexOr_get h1, listIndexOr_get h2, listIndexOr_get h3,
    ?_, ?_, ?_, ?_, first h1, first h2, first h3⟩
  · rw [hB]; simp [d1, d2]
  · rw [hB]; simp
  · rw [hB]; simp [d3.symm]
  · intro i n1 n2 n3; rw [hB]; simp [n1, n2, n3]

/-- C02, failure: construction raises `ValueError` iff all edges are valid and some triangle is not
a triple or misses one of its edges; it succeeds iff all edges are valid and all triangles are triples
with their edges present. (With an invalid edge it raises `IndexError`, `C01_construction_indexError`.) -/
theorem C02_construction_valueError (nodes : List Int) (edges : List Edge)
    (triangles : List (List Int)) (nf : NodeFeatures) (ef : EdgeFeatures) :
    (SC.init (K := K) nodes edges triangles nf ef = .error .valueError ↔
      (∀ e ∈ edges, ValidLabel nodes.length e.1 ∧ ValidLabel nodes.length e.2) ∧
      ∃ t ∈ triangles, ¬ TriPresent edges t) ∧
    ((∃ sc : SC K, SC.init nodes edges triangles nf ef = .ok sc) ↔
      (∀ e ∈ edges, ValidLabel nodes.length e.1 ∧ ValidLabel nodes.length e.2) ∧
      ∀ t ∈ triangles, TriPresent edges t) := by
  by_cases he : ∀ e ∈ edges, ValidLabel nodes.length e.1 ∧ ValidLabel nodes.length e.2
  · by_cases hbad : ∃ t ∈ triangles, ¬ TriPresent edges t
    · have h2 : trianglesToB2 (K := K) triangles edges = .error .valueError :=
        trianglesToB2_error_iff.mpr ⟨rfl, hbad⟩
      have h : SC.init (K := K) nodes edges triangles nf ef = .error .valueError := by
        unfold SC.init
        cases h1 : edgesToB1 (K := K) edges nodes.length with
        | error e =>
          obtain ⟨_, ed, hed, hb⟩ := edgesToB1_error_iff.mp h1
          have := he ed hed
          unfold ValidLabel at this
          tauto
        | ok B => rw [h2]; rfl
      refine ⟨⟨fun _ => ⟨he, hbad⟩, fun _ => h⟩, ?_, ?_⟩
      · rintro ⟨sc, hsc⟩; rw [h] at hsc; cases hsc
      · rintro ⟨-, hall⟩
        obtain ⟨t, ht, hn⟩ := hbad
        exact absurd (hall t ht) hn
    · have hall : ∀ t ∈ triangles, TriPresent edges t := fun t ht => by
        by_contra hn
        exact hbad ⟨t, ht, hn⟩
      obtain ⟨sc, hsc⟩ := SC.exists_built K nodes edges triangles nf ef he hall
      refine ⟨⟨fun h => ?_, fun h => absurd h.2 hbad⟩, fun _ => ⟨he, hall⟩, fun _ => ⟨sc, hsc⟩⟩
      rw [hsc] at h; cases h
  · have h : SC.init (K := K) nodes edges triangles nf ef = .error .indexError := by
      rw [C01_construction_indexError]
      by_contra hn
      exact he fun e hm => by
        by_contra hc
        exact hn ⟨e, hm, by tauto⟩
    refine ⟨⟨fun h' => ?_, fun h' => absurd h'.1 he⟩, ?_, fun h' => absurd h'.1 he⟩
    · rw [h] at h'; cases h'
    · rintro ⟨sc, hsc⟩; rw [h] at hsc; cases hsc

/-- an edge to a missing node and a triangle without its edges: the edge is reported; without the bad
edge the triangle is -/
example : SC.init (K := ℤ) [0, 1, 2] [(0, 3)] [[0, 1, 2]] [] [] = .error .indexError ∧
    SC.init (K := ℤ) [0, 1, 2] [(0, 1)] [[0, 1, 2]] [] [] = .error .valueError := by
  refine ⟨(C01_construction_indexError _ _ _ _ _).mpr ⟨(0, 3), by simp, by simp [ValidLabel]⟩,
    (C02_construction_valueError _ _ _ _ _).1.mpr ⟨by simp [ValidLabel], [0, 1, 2], by simp, ?_⟩⟩
  rintro ⟨a, b, c, h, -, h2, -⟩
  simp only [List.cons.injEq, and_true] at h
  obtain ⟨rfl, rfl, rfl⟩ := h
  revert h2; decide

/-- a complex with two triangles, one edge stored descending, and a dangling edge -/
example : ∃ sc : SC ℤ, sc.Built ∧ NoLoops sc.edges ∧
    sc.triangles = [[0, 1, 2], [1, 2, 3]] ∧ sc.edges = [(0, 1), (2, 1), (0, 2), (1, 3), (2, 3)] := by
  obtain ⟨sc, h⟩ := SC.exists_built ℤ [0, 1, 2, 3] [(0, 1), (2, 1), (0, 2), (1, 3), (2, 3)]
    [[0, 1, 2], [1, 2, 3]] [] [] (by simp [ValidLabel]) (by
      intro t ht
      simp only [List.mem_cons, List.not_mem_nil, or_false] at ht
      rcases ht with rfl | rfl
      · exact ⟨0, 1, 2, rfl, by decide, by decide, by decide⟩
      · exact ⟨1, 2, 3, rfl, by decide, by decide, by decide⟩)
  obtain ⟨h1, h2, h3, -, -, hb⟩ := SC.init_ok h
  exact ⟨sc, hb, by rw [h2]; decide, h3, h2⟩

/-- C03 (partial): the boundary of a boundary is zero on every consistently oriented complex.
Missing from the full claim: complexes with a triangle whose edges are stored against the
triangle's order, where it is false (`C03_counterexample`). -/
theorem C03_boundary_of_boundary_partial (sc : SC K) (h : sc.WellFormed) : sc.B1 * sc.B2 = 0 :=
  h.b1_mul_b2

example : ∃ sc : SC ℤ, sc.WellFormed ∧ sc.triangles ≠ [] := by
  obtain ⟨sc, h, -, -, -, h3⟩ := sample_wellFormed ℤ
  exact ⟨sc, h, by rw [h3]; decide⟩

/-- orientation of the stored edge relative to `(u, v)`: `+1` if stored as `(u,v)`, else `-1` -/
private theorem b1_signed {sc : SC K} (h : sc.OnSimpleGraph) {u v : Int} {k : Fin sc.E}
    (hk : listIndexOr sc.edges (u, v) (v, u) = .ok k) :
    ∃ s : K, ((u, v) ∈ sc.edges ∧ s = 1 ∨ (v, u) ∈ sc.edges ∧ (u, v) ∉ sc.edges ∧ s = -1) ∧
      ∀ i : Fin sc.N, sc.B1 i k = s * ((if ((i : ℕ) : Int) = v then 1 else 0)
        - (if ((i : ℕ) : Int) = u then 1 else 0)) := by
  have hm : sc.edges[k] ∈ sc.edges := List.getElem_mem _
  rcases listIndexOr_get hk with g | ⟨hn, g⟩
  · refine ⟨1, .inl ⟨g ▸ hm, rfl⟩, fun i => ?_⟩
    rw [h.built.b1_entry h.inRange h.noLoops, g]; ring
  · refine ⟨-1, .inr ⟨g ▸ hm, hn, rfl⟩, fun i => ?_⟩
    rw [h.built.b1_entry h.inRange h.noLoops, g]; ring

theorem noRepeats_not_both {edges : List Edge} (h : NoRepeats edges) (hl : NoLoops edges)
    {u v : Int} (h1 : (u, v) ∈ edges) (h2 : (v, u) ∈ edges) : False := by
  obtain ⟨i, hi, e1⟩ := List.getElem_of_mem h1
  obtain ⟨j, hj, e2⟩ := List.getElem_of_mem h2
  have hp := List.pairwise_iff_getElem.mp h
  rcases lt_trichotomy i j with hlt | rfl | hlt
  · exact (hp i j hi hj hlt).2 (by rw [e1, e2]; rfl)
  · rw [e1] at e2
    exact hl _ h1 (by simp only [Prod.mk.injEq] at e2; exact e2.1)
  · exact (hp j i hj hi hlt).2 (by rw [e1, e2]; rfl)

/-- C04: on a simple graph, the boundary of triangle `[a,b,c]` is zero iff its three edges are all
stored along, or all against, the triangle's vertex order. -/
theorem C04_boundary_zero_iff [CharZero K] [NoZeroDivisors K] (sc : SC K) (h : sc.OnSimpleGraph)
    (t : Fin sc.triangles.length)
    (a b c : Int) (ht : sc.triangles[t] = [a, b, c]) :
    (∀ i, (sc.B1 * sc.B2) i t = 0) ↔
      (((a, b) ∈ sc.edges ∧ (b, c) ∈ sc.edges ∧ (a, c) ∈ sc.edges) ∨
        ((b, a) ∈ sc.edges ∧ (c, b) ∈ sc.edges ∧ (c, a) ∈ sc.edges)) := by
  obtain ⟨a', b', c', ia, ib, ic, h0, h1, h2, h3, nab, nbc, nac, hs⟩ := h.built.sum_b2 h.noLoops t
  rw [ht] at h0
  simp only [List.cons.injEq, and_true] at h0
  obtain ⟨rfl, rfl, rfl⟩ := h0
  obtain ⟨s1, o1, f1⟩ := b1_signed h h1
  obtain ⟨s2, o2, f2⟩ := b1_signed h h2
  obtain ⟨s3, o3, f3⟩ := b1_signed h h3
  have rng : ∀ {u v : Int}, ((u, v) ∈ sc.edges ∨ (v, u) ∈ sc.edges) →
      (0 ≤ u ∧ u < sc.nodes.length) ∧ (0 ≤ v ∧ v < sc.nodes.length) := by
    intro u v huv
    rcases huv with g | g
    · exact h.inRange _ g
    · exact (h.inRange _ g).symm
  have rab := rng (u := a) (v := b) (by tauto)
  have rbc := rng (u := b) (v := c) (by tauto)
  have hentry : ∀ i : Fin sc.N, (sc.B1 * sc.B2) i t = sc.B1 i ia + sc.B1 i ib - sc.B1 i ic :=
    fun i => by rw [Matrix.mul_apply, hs]
  have two : (2 : K) ≠ 0 := two_ne_zero
  have key : (∀ i, (sc.B1 * sc.B2) i t = 0) ↔ (s1 = s2 ∧ s1 = s3) := by
    constructor
    · intro hz
      have za := hz ⟨a.toNat, by omega⟩
      have zb := hz ⟨b.toNat, by omega⟩
      rw [hentry, f1, f2, f3] at za zb
      have ea : (((a.toNat : ℕ)) : Int) = a := by omega
      have eb : (((b.toNat : ℕ)) : Int) = b := by omega
      simp only [ea, nab, nac, if_true, if_false] at za
      simp only [eb, nbc, nab.symm, if_true, if_false] at zb
      constructor
      · linear_combination zb
      · linear_combination -za
    · rintro ⟨rfl, rfl⟩ i
      rw [hentry, f1, f2, f3]; ring
  rw [key]
  have ne1 : (1 : K) ≠ -1 := by
    intro e
    apply two
    linear_combination e
  have nb := fun {u v : Int} (g : (u, v) ∈ sc.edges) (g' : (v, u) ∈ sc.edges) =>
    noRepeats_not_both h.noRepeats h.noLoops g g'
  rcases o1 with ⟨m1, rfl⟩ | ⟨m1, n1, rfl⟩ <;> rcases o2 with ⟨m2, rfl⟩ | ⟨m2, n2, rfl⟩ <;>
    rcases o3 with ⟨m3, rfl⟩ | ⟨m3, n3, rfl⟩ <;>
    simp only [ne1, ne1.symm, and_true, and_false, true_iff, false_iff] <;> first
      | exact .inl ⟨m1, m2, m3⟩
      | exact .inr ⟨m1, m2, m3⟩
      | (rintro (⟨g1, g2, g3⟩ | ⟨g1, g2, g3⟩) <;> first
          | exact nb m1 g1 | exact nb g1 m1 | exact nb m2 g2 | exact nb g2 m2 | exact nb m3 g3
          | exact nb g3 m3)

example : ∃ sc : SC ℤ, sc.OnSimpleGraph ∧ ∃ t : Fin sc.triangles.length,
    sc.triangles[t] = [0, 1, 2] := by
  obtain ⟨sc, -, h, -, -, h3⟩ := sample_wellFormed ℤ
  exact ⟨sc, h, ⟨0, by rw [h3]; decide⟩, by simp [h3, sampleTriangles]⟩

/-- C03, why the full claim fails: a constructed complex on a simple graph, all of whose
triangles are present, with a non-zero boundary of a boundary (edge (0,1) stored as (1,0)). -/
theorem C03_counterexample : ∃ sc : SC ℤ, sc.OnSimpleGraph ∧ sc.edges = [(1, 0), (1, 2), (0, 2)] ∧
    sc.triangles = [[0, 1, 2]] ∧ sc.B1 * sc.B2 ≠ 0 := by
  obtain ⟨sc, h, -, h2, h3⟩ := descending_onSimpleGraph ℤ
  refine ⟨sc, h, h2, h3, fun hz => ?_⟩
  have := (C04_boundary_zero_iff sc h ⟨0, by rw [h3]; decide⟩ 0 1 2 (by simp [h3])).mp
    (fun i => by rw [hz]; rfl)
  rw [h2] at this
  revert this
  decide

end Pytspl
