import Verif.Props.Operators
import Verif.Props.Incidence
import Verif.Model.GaussianProcess
import Verif.Lemmas.Double

/-!
# Properties C119, C120: the entries of the edge Laplacians, and the tensors of the trainer
-/

namespace Pytspl

open Matrix

/-! ## Specification -/

/-- the edge joins the two nodes, in either orientation -/
def Joins (e : Edge) (u v : Int) : Prop := e = (u, v) ∨ e = (v, u)

instance (e : Edge) (u v : Int) : Decidable (Joins e u v) := by unfold Joins; infer_instance

/-- The sign with which an edge occurs in the boundary of a triangle `[a, b, c]`: `+1` for the sides ab and
bc, `-1` for the side ac, 0 for an edge which is no side. -/
def sideSign (t : List Int) (e : Edge) : ℤ :=
  match t with
  | [a, b, c] => if Joins e a b ∨ Joins e b c then 1 else if Joins e a c then -1 else 0
  | _ => 0

/-- the edge is a side of the triangle -/
def IsSide (t : List Int) (e : Edge) : Prop :=
  ∃ a b c, t = [a, b, c] ∧ (Joins e a b ∨ Joins e b c ∨ Joins e a c)

/-- how often two directed edges run the same way at a common node, minus how often they run opposite ways -/
def endSign (e e' : Edge) : ℤ :=
  (if e.1 = e'.1 then 1 else 0) + (if e.2 = e'.2 then 1 else 0) -
    (if e.1 = e'.2 then 1 else 0) - (if e.2 = e'.1 then 1 else 0)

/-! ## C119 -/

section
variable {K : Type} [CommRing K]

/-- C119, lower Laplacian: entry `(e, e')` counts the common nodes at which the two edges both start or both
end, minus those at which one starts and the other ends. -/
theorem C119_lower (sc : SC K) (hb : sc.Built) (hr : EdgesInRange sc.nodes.length sc.edges)
    (hl : NoLoops sc.edges) :
    sc.lowerLaplacianMatrix 1 = .ok (.mat sc.edges.length sc.edges.length sc.L1l) ∧
    ∀ i j : Fin sc.edges.length, sc.L1l i j = (endSign sc.edges[i] sc.edges[j] : K) := by
  refine ⟨rfl, fun i j => ?_⟩
  have hcol : sc.L1l i j = sc.B1.transpose.mulVec (fun k => sc.B1 k j) i := rfl
  have hm : ∀ k : Fin sc.edges.length, sc.edges[k] ∈ sc.edges := fun k => List.getElem_mem _
  have hval : ∀ u : Int, 0 ≤ u ∧ u < sc.nodes.length → valueAt (fun k => sc.B1 k j) u =
      (if u = sc.edges[j].2 then 1 else 0) - (if u = sc.edges[j].1 then 1 else 0) := by
    intro u hu
    unfold valueAt
    rw [dif_pos hu]
    beta_reduce
    rw [hb.b1_entry hr hl]
    have : ((u.toNat : ℕ) : Int) = u := by omega
    simp only [this]
  rw [hcol, b1_transpose_apply hb hr hl, hval _ (hr _ (hm i)).2, hval _ (hr _ (hm i)).1]
  unfold endSign
  push_cast
  ring

/-- C119: on a simple graph the diagonal of the lower Laplacian is 2, and off the diagonal it is `+1` at edges
which both start or both end at a common node, `-1` at edges one of which starts where the other ends, and 0
at edges without a common node. -/
theorem C119_lower_cases (sc : SC K) (h : sc.OnSimpleGraph) (i j : Fin sc.edges.length) :
    (i = j → sc.L1l i j = 2) ∧
    (i ≠ j → (sc.edges[i].1 = sc.edges[j].1 ∨ sc.edges[i].2 = sc.edges[j].2) → sc.L1l i j = 1) ∧
    (i ≠ j → (sc.edges[i].1 = sc.edges[j].2 ∨ sc.edges[i].2 = sc.edges[j].1) → sc.L1l i j = -1) ∧
    (sc.edges[i].1 ≠ sc.edges[j].1 → sc.edges[i].2 ≠ sc.edges[j].2 → sc.edges[i].1 ≠ sc.edges[j].2 →
      sc.edges[i].2 ≠ sc.edges[j].1 → sc.L1l i j = 0) := by
  rw [(C119_lower sc h.built h.inRange h.noLoops).2 i j]
  have l1 : sc.edges[i].1 ≠ sc.edges[i].2 := h.noLoops _ (List.getElem_mem _)
  have l2 : sc.edges[j].1 ≠ sc.edges[j].2 := h.noLoops _ (List.getElem_mem _)
  have hne : i ≠ j → sc.edges[i] ≠ sc.edges[j] ∧ sc.edges[i] ≠ sc.edges[j].swap := by
    intro hij
    have hp := List.pairwise_iff_getElem.mp h.noRepeats
    rcases lt_or_gt_of_ne hij with hlt | hlt
    · exact hp i j i.2 j.2 hlt
    · have := hp j i j.2 i.2 hlt
      refine ⟨fun g => this.1 g.symm, fun g => this.2 ?_⟩
      change sc.edges[j] = sc.edges[i].swap
      rw [g, Prod.swap_swap]
  refine ⟨?_, ?_, ?_, ?_⟩
  · rintro rfl
    generalize sc.edges[i] = e at *
    unfold endSign
    simp only [if_true, l1, l1.symm, if_false]
    norm_num
  · intro hij hh
    have := hne hij
    generalize sc.edges[i] = e at *
    generalize sc.edges[j] = e' at *
    obtain ⟨a, b⟩ := e
    obtain ⟨c, d⟩ := e'
    simp only [ne_eq, Prod.mk.injEq, Prod.swap_prod_mk] at *
    unfold endSign
    rcases hh with rfl | rfl
    · have h1 : b ≠ d := fun g => this.1 ⟨rfl, g⟩
      simp [h1, l2, Ne.symm l1]
    · have h1 : a ≠ c := fun g => this.1 ⟨g, rfl⟩
      simp [h1, l1, Ne.symm l2]
  · intro hij hh
    have := hne hij
    generalize sc.edges[i] = e at *
    generalize sc.edges[j] = e' at *
    obtain ⟨a, b⟩ := e
    obtain ⟨c, d⟩ := e'
    simp only [ne_eq, Prod.mk.injEq, Prod.swap_prod_mk] at *
    unfold endSign
    rcases hh with rfl | rfl
    · have h1 : b ≠ c := fun g => this.2 ⟨rfl, g⟩
      simp [h1, Ne.symm l2, Ne.symm l1]
    · have h1 : a ≠ d := fun g => this.2 ⟨g, rfl⟩
      simp [h1, l1, l2]
  · intro h1 h2 h3 h4
    generalize sc.edges[i] = e at *
    generalize sc.edges[j] = e' at *
    unfold endSign
    simp [h1, h2, h3, h4]

/-- the rows found for the sides of a triangle are the rows of the edges joining its vertices -/
private theorem row_iff {sc : SC K} (h : sc.OnSimpleGraph) {u v : Int} {k : Fin sc.edges.length}
    (hk : listIndexOr sc.edges (u, v) (v, u) = .ok k) (i : Fin sc.edges.length) :
    i = k ↔ Joins sc.edges[i] u v := by
  have hg := listIndexOr_get hk
  constructor
  · rintro rfl
    rcases hg with g | ⟨-, g⟩
    · exact .inl g
    · exact .inr g
  · intro hj
    by_contra hne
    have hp := List.pairwise_iff_getElem.mp h.noRepeats
    have hsep : sc.edges[i] ≠ sc.edges[k] ∧ sc.edges[i] ≠ sc.edges[k].swap := by
      rcases lt_or_gt_of_ne hne with hlt | hlt
      · exact hp i k i.2 k.2 hlt
      · have := hp k i k.2 i.2 hlt
        refine ⟨fun g => this.1 g.symm, fun g => this.2 ?_⟩
        change sc.edges[k] = sc.edges[i].swap
        rw [g, Prod.swap_swap]
    rcases hg with g | ⟨-, g⟩ <;> rcases hj with g' | g' <;> rw [g, g'] at hsep
    · exact hsep.1 rfl
    · exact hsep.2 rfl
    · exact hsep.2 rfl
    · exact hsep.1 rfl

/-- On a simple graph the columns of `incidence_matrix(2)` hold the signs of the sides. -/
theorem b2_sideSign {sc : SC K} (h : sc.OnSimpleGraph) (i : Fin sc.edges.length) (t : Fin sc.triangles.length) :
    sc.B2 i t = (sideSign sc.triangles[t] sc.edges[i] : K) := by
  obtain ⟨a, b, c, ia, ib, ic, h0, h1, h2, h3, hB⟩ := h.built.tri_entry t
  obtain ⟨d1, d2, d3, -, -, -⟩ := triRows_distinct h.noLoops h1 h2 h3
  rw [hB i, h0]
  unfold sideSign
  simp only [← row_iff h h1, ← row_iff h h2, ← row_iff h h3]
  by_cases c1 : i = ia
  · subst c1; simp [d1, d2]
  · by_cases c2 : i = ib
    · subst c2; simp
    · by_cases c3 : i = ic
      · subst c3; simp [c1, c2]
      · simp [c1, c2, c3]

/-- C119, upper Laplacian: entry `(e, e')` adds up, over the triangles, the product of the signs of the two
edges in the triangle's boundary. -/
theorem C119_upper (sc : SC K) (h : sc.OnSimpleGraph) :
    sc.upperLaplacianMatrix 1 = .ok (.mat sc.edges.length sc.edges.length sc.L1u) ∧
    ∀ i j : Fin sc.edges.length,
      sc.L1u i j = ((sc.triangles.map fun t => sideSign t sc.edges[i] * sideSign t sc.edges[j]).sum : ℤ) := by
  refine ⟨rfl, fun i j => ?_⟩
  have : sc.L1u i j = ∑ t : Fin sc.triangles.length, sc.B2 i t * sc.B2 j t := rfl
  rw [this]
  have hs : (sc.triangles.map fun t => sideSign t sc.edges[i] * sideSign t sc.edges[j]).sum =
      ∑ t : Fin sc.triangles.length, sideSign sc.triangles[t] sc.edges[i] * sideSign sc.triangles[t] sc.edges[j] := by
    rw [← List.sum_ofFn]
    congr 1
    apply List.ext_getElem <;> simp
  rw [hs]
  push_cast
  exact Finset.sum_congr rfl fun t _ => by rw [b2_sideSign h, b2_sideSign h]

open Classical in
/-- C119: on a simple graph the diagonal of the upper Laplacian counts the triangles at the edge, and the entry
of two edges which are not sides of a common triangle is 0. -/
theorem C119_upper_cases (sc : SC K) (h : sc.OnSimpleGraph) (i j : Fin sc.edges.length) :
    sc.L1u i i = ((sc.triangles.filter fun t => IsSide t sc.edges[i]).length : K) ∧
    ((∀ t ∈ sc.triangles, ¬ (IsSide t sc.edges[i] ∧ IsSide t sc.edges[j])) → sc.L1u i j = 0) := by
  have hz : ∀ (t : List Int) (e : Edge), ¬ IsSide t e → sideSign t e = 0 := by
    intro t e hn
    unfold sideSign
    split
    · next a b c =>
      have : ¬ Joins e a b ∧ ¬ Joins e b c ∧ ¬ Joins e a c :=
        ⟨fun g => hn ⟨a, b, c, rfl, .inl g⟩, fun g => hn ⟨a, b, c, rfl, .inr (.inl g)⟩,
          fun g => hn ⟨a, b, c, rfl, .inr (.inr g)⟩⟩
      simp [this]
    · rfl
  have ho : ∀ (t : List Int) (e : Edge), IsSide t e → sideSign t e * sideSign t e = 1 := by
    rintro t e ⟨a, b, c, rfl, hs⟩
    unfold sideSign
    by_cases c1 : Joins e a b ∨ Joins e b c
    · simp [c1]
    · have c2 : Joins e a c := by
        rcases hs with g | g | g
        · exact absurd (.inl g) c1
        · exact absurd (.inr g) c1
        · exact g
      simp [c1, c2]
  refine ⟨?_, fun hno => ?_⟩
  · rw [(C119_upper sc h).2 i i]
    generalize sc.edges[i] = e
    generalize sc.triangles = l
    induction l with
    | nil => simp
    | cons t l ih =>
      rw [List.map_cons, List.sum_cons, Int.cast_add, ih]
      by_cases hs : IsSide t e
      · rw [ho _ _ hs, List.filter_cons_of_pos (by simpa using hs), List.length_cons]
        push_cast
        ring
      · rw [hz _ _ hs, List.filter_cons_of_neg (by simpa using hs)]
        simp
  · rw [(C119_upper sc h).2 i j]
    have : ((sc.triangles.map fun t => sideSign t sc.edges[i] * sideSign t sc.edges[j]).sum : ℤ) = 0 := by
      apply List.sum_eq_zero
      intro x hx
      obtain ⟨t, ht, rfl⟩ := List.mem_map.mp hx
      by_cases hs : IsSide t sc.edges[i]
      · rw [hz t sc.edges[j] (fun g => hno t ht ⟨hs, g⟩), mul_zero]
      · rw [hz t sc.edges[i] hs, zero_mul]
    rw [this, Int.cast_zero]

/-- C119: the Hodge Laplacian is the entrywise sum of the two. -/
theorem C119_hodge (sc : SC K) (h : sc.OnSimpleGraph) :
    sc.hodgeLaplacianMatrix 1 = .ok (.mat sc.edges.length sc.edges.length sc.L1) ∧
    ∀ i j : Fin sc.edges.length, sc.L1 i j = (endSign sc.edges[i] sc.edges[j] : K) +
      ((sc.triangles.map fun t => sideSign t sc.edges[i] * sideSign t sc.edges[j]).sum : ℤ) := by
  refine ⟨rfl, fun i j => ?_⟩
  rw [← (C119_lower sc h.built h.inRange h.noLoops).2, ← (C119_upper sc h).2]
  rfl

example : ∃ sc : SC ℤ, sc.OnSimpleGraph ∧ sc.edges ≠ [] ∧ sc.triangles ≠ [] := by
  obtain ⟨sc, -, h, -, h2, h3⟩ := sample_wellFormed ℤ
  exact ⟨sc, h, by rw [h2]; decide, by rw [h3]; decide⟩
end

/-! ## C120 -/

private theorem sideSign_abs (t : List Int) (e : Edge) : |sideSign t e| ≤ 1 := by
  unfold sideSign
  split
  · split_ifs <;> simp
  · simp

private theorem upper_bound (l : List (List Int)) (e e' : Edge) :
    |(l.map fun t => sideSign t e * sideSign t e').sum| ≤ l.length := by
  induction l with
  | nil => simp
  | cons t l ih =>
    rw [List.map_cons, List.sum_cons, List.length_cons]
    have h1 : |sideSign t e * sideSign t e'| ≤ 1 := by
      rw [abs_mul]
      exact mul_le_one₀ (sideSign_abs t e) (abs_nonneg _) (sideSign_abs t e')
    refine (abs_add_le _ _).trans ?_
    push_cast
    linarith

private theorem endSign_abs (e e' : Edge) : |endSign e e'| ≤ 2 := by
  unfold endSign
  rw [abs_le]
  split_ifs <;> constructor <;> norm_num

/-- C120: the trainer's tensors are exact although they are stored as float32, as long as the complex, on a
simple graph, has fewer than `2^24 - 2` triangles: the Laplacians are, in this order, the Hodge, the lower and
the upper Laplacian of the complex, the incidence matrices are its two incidence matrices. -/
theorem C120_tensors (R : SingleRounding) (sc : SC ℝ) (h : sc.OnSimpleGraph) (hT : sc.triangles.length + 2 ≤ 2 ^ 24) :
    sc.gpIncidence R = (sc.B1, sc.B2) ∧
    ∃ M Ml Mu, sc.gpLaplacians R = [M, Ml, Mu] ∧
      sc.hodgeLaplacianMatrix 1 = .ok (.mat sc.edges.length sc.edges.length M) ∧
      sc.lowerLaplacianMatrix 1 = .ok (.mat sc.edges.length sc.edges.length Ml) ∧
      sc.upperLaplacianMatrix 1 = .ok (.mat sc.edges.length sc.edges.length Mu) := by
  have hT' : (sc.triangles.length : ℤ) + 2 ≤ 2 ^ 24 := by exact_mod_cast hT
  have e1 : sc.L1.map R.rnd = sc.L1 := by
    refine Matrix.ext fun (i j : Fin sc.edges.length) => ?_
    have hB := upper_bound sc.triangles sc.edges[i] sc.edges[j]
    have hE := endSign_abs sc.edges[i] sc.edges[j]
    rw [Matrix.map_apply, (C119_hodge sc h).2 i j, ← Int.cast_add]
    exact R.int _ ((abs_add_le _ _).trans (by linarith))
  have e2 : sc.L1l.map R.rnd = sc.L1l := by
    refine Matrix.ext fun (i j : Fin sc.edges.length) => ?_
    have hE := endSign_abs sc.edges[i] sc.edges[j]
    rw [Matrix.map_apply, (C119_lower sc h.built h.inRange h.noLoops).2 i j]
    exact R.int _ (by linarith)
  have e3 : sc.L1u.map R.rnd = sc.L1u := by
    refine Matrix.ext fun (i j : Fin sc.edges.length) => ?_
    have hB := upper_bound sc.triangles sc.edges[i] sc.edges[j]
    rw [Matrix.map_apply, (C119_upper sc h).2 i j]
    exact R.int _ (by linarith)
  have e4 : sc.B1.map R.rnd = sc.B1 := by
    ext i j
    rw [Matrix.map_apply, h.built.b1_entry h.inRange h.noLoops i j]
    have h0 := R.int 0 (by norm_num)
    have h1 := R.int 1 (by norm_num)
    have h2 := R.int (-1) (by norm_num)
    push_cast at h0 h1 h2
    split_ifs <;> simp [h0, h1, h2]
  have e5 : sc.B2.map R.rnd = sc.B2 := by
    refine Matrix.ext fun (i : Fin sc.edges.length) (j : Fin sc.triangles.length) => ?_
    have hS := sideSign_abs sc.triangles[j] sc.edges[i]
    rw [Matrix.map_apply, b2_sideSign h i j]
    exact R.int _ (by linarith)
  refine ⟨by unfold SC.gpIncidence; rw [e4, e5], sc.L1, sc.L1l, sc.L1u, ?_, rfl, rfl, rfl⟩
  unfold SC.gpLaplacians
  simp only [List.map_cons, List.map_nil, e1, e2, e3]

/-- C120: so the tensors fit together exactly: the Laplacians are the products of the incidence matrices, the
first is the sum of the other two, and on a consistently oriented complex the products which should vanish do. -/
theorem C120_consistent (R : SingleRounding) (sc : SC ℝ) (h : sc.OnSimpleGraph) (ho : Oriented sc.edges sc.triangles)
    (hT : sc.triangles.length + 2 ≤ 2 ^ 24) (M Ml Mu) (hM : sc.gpLaplacians R = [M, Ml, Mu])
    (B1 B2) (hB : sc.gpIncidence R = (B1, B2)) :
    M = Ml + Mu ∧ Ml = B1.transpose * B1 ∧ Mu = B2 * B2.transpose ∧ B1 * B2 = 0 ∧ Ml * Mu = 0 ∧ Mu * Ml = 0 := by
  obtain ⟨hI, M', Ml', Mu', hL, g1, g2, g3⟩ := C120_tensors R sc h hT
  have hw : sc.WellFormed := ⟨h.built, h.inRange, h.noLoops, ho⟩
  rw [hL] at hM
  rw [hI] at hB
  simp only [List.cons.injEq, and_true, Prod.mk.injEq] at hM hB
  obtain ⟨rfl, rfl, rfl⟩ := hM
  obtain ⟨rfl, rfl⟩ := hB
  have k1 : M' = sc.L1 := by have := Except.ok.inj g1; cases this; rfl
  have k2 : Ml' = sc.L1l := by have := Except.ok.inj g2; cases this; rfl
  have k3 : Mu' = sc.L1u := by have := Except.ok.inj g3; cases this; rfl
  subst k1 k2 k3
  have hz := hw.b1_mul_b2
  have hz' := C12_lower_upper_annihilate sc hw
  exact ⟨rfl, rfl, rfl, hz, hz'.1, hz'.2⟩

/-- Non-vacuity of C120. -/
example : ∃ (R : SingleRounding) (sc : SC ℝ), sc.OnSimpleGraph ∧ Oriented sc.edges sc.triangles ∧
    sc.triangles ≠ [] ∧ sc.triangles.length + 2 ≤ 2 ^ 24 := by
  obtain ⟨sc, hw, h, -, h2, h3⟩ := sample_wellFormed ℝ
  exact ⟨⟨double.rnd, fun x => (double.rel x).trans (mul_le_mul_of_nonneg_right (by norm_num) (abs_nonneg x)),
    fun n hn => double.int n (hn.trans (by norm_num))⟩, sc, h, hw.oriented, by rw [h3]; decide,
    by rw [h3]; decide⟩

end Pytspl
