import Verif.Lemmas.Construction
import Verif.Spec.WellFormed
import Mathlib.Data.Matrix.Basic
import Mathlib.Algebra.BigOperators.Fin
import Mathlib.Tactic.Abel

/-! Entry formulas of B1 and B2 and their consequences. -/

namespace Pytspl

variable {K : Type} [CommRing K]

theorem SC.exists_built (K : Type) [CommRing K] (nodes : List Int) (edges : List Edge)
    (triangles : List (List Int)) (nf ef)
    (h1 : ∀ e ∈ edges, ValidLabel nodes.length e.1 ∧ ValidLabel nodes.length e.2)
    (h2 : ∀ t ∈ triangles, TriPresent edges t) :
    ∃ sc : SC K, SC.init nodes edges triangles nf ef = .ok sc := by
  unfold SC.init
  cases hB1 : edgesToB1 (K := K) edges nodes.length with
  | error e =>
    obtain ⟨_, ed, hed, hb⟩ := edgesToB1_error_iff.mp hB1
    have := h1 ed hed
    unfold ValidLabel at this
    tauto
  | ok B1 =>
    cases hB2 : trianglesToB2 (K := K) triangles edges with
    | error e =>
      obtain ⟨_, t, ht, hb⟩ := trianglesToB2_error_iff.mp hB2
      exact absurd (h2 t ht) hb
    | ok B2 => exact ⟨_, rfl⟩

theorem SC.exists_wellFormed (K : Type) [CommRing K] (nodes : List Int) (edges : List Edge)
    (triangles : List (List Int)) (nf ef)
    (h1 : EdgesInRange nodes.length edges) (h2 : NoLoops edges)
    (h3 : Oriented edges triangles) :
    ∃ sc : SC K, SC.init nodes edges triangles nf ef = .ok sc ∧ sc.WellFormed := by
  obtain ⟨sc, h⟩ := SC.exists_built K nodes edges triangles nf ef (fun e he => by
    have := h1 e he; unfold ValidLabel; omega) (fun t ht => by
    obtain ⟨a, b, c, rfl, h⟩ := h3 t ht
    exact ⟨a, b, c, rfl, .inl h.1, .inl h.2.1, .inl h.2.2⟩)
  obtain ⟨rfl, rfl, rfl, rfl, rfl, hb⟩ := SC.init_ok h
  exact ⟨sc, h, hb, h1, h2, h3⟩

theorem SC.exists_simple (K : Type) [CommRing K] (nodes : List Int) (edges : List Edge)
    (triangles : List (List Int)) (nf ef)
    (h1 : EdgesInRange nodes.length edges) (h2 : NoLoops edges) (h4 : NoRepeats edges)
    (h3 : ∀ t ∈ triangles, TriPresent edges t) :
    ∃ sc : SC K, SC.init nodes edges triangles nf ef = .ok sc ∧ sc.OnSimpleGraph := by
  obtain ⟨sc, h⟩ := SC.exists_built K nodes edges triangles nf ef (fun e he => by
    have := h1 e he; unfold ValidLabel; omega) h3
  obtain ⟨rfl, rfl, rfl, rfl, rfl, hb⟩ := SC.init_ok h
  exact ⟨sc, h, hb, h1, h2, h4⟩

theorem npIdx_inRange {n : ℕ} {u : Int} {k : Fin n} (h : npIdx n u = .ok k) (h0 : 0 ≤ u) :
    u = (k : ℕ) := by
  have := npIdx_ok_iff.mp h
  have := k.2
  omega

/-- entry of B1 for loop-free edges in range -/
theorem SC.Built.b1_entry {sc : SC K} (hb : sc.Built) (hr : EdgesInRange sc.nodes.length sc.edges)
    (hl : NoLoops sc.edges) (i : Fin sc.N) (j : Fin sc.E) :
    sc.B1 i j = (if ((i : ℕ) : Int) = sc.edges[j].2 then 1 else 0)
      - (if ((i : ℕ) : Int) = sc.edges[j].1 then 1 else 0) := by
  obtain ⟨u, v, hu, hv, hB⟩ := edgesToB1_ok_entry hb.b1 j
  have hm : sc.edges[j] ∈ sc.edges := List.getElem_mem _
  have hr' := hr _ hm
  have hl' := hl _ hm
  have hu' := npIdx_inRange hu hr'.1.1
  have hv' := npIdx_inRange hv hr'.2.1
  rw [hB i, hu', hv']
  rw [hu', hv'] at hl'
  have huv : u ≠ v := fun h => hl' (by rw [h])
  have e1 : (((i : ℕ) : Int) = ((v : ℕ) : Int)) ↔ i = v := by
    rw [Int.natCast_inj, Fin.val_inj]
  have e2 : (((i : ℕ) : Int) = ((u : ℕ) : Int)) ↔ i = u := by
    rw [Int.natCast_inj, Fin.val_inj]
  simp only [e1, e2]
  by_cases h1 : i = v
  · have : i ≠ u := fun h => huv (h.symm.trans h1)
    simp [h1, huv.symm]
  · by_cases h2 : i = u <;> simp [h1, h2, huv]

/-- summing against a column of B2 whose three rows are distinct -/
theorem sum_b2_col {m : ℕ} (g c : Fin m → K) {ia ib ic : Fin m} (hab : ia ≠ ib) (hac : ia ≠ ic)
    (hbc : ib ≠ ic)
    (hc : ∀ i, c i = if i = ib then 1 else if i = ic then -1 else if i = ia then 1 else 0) :
    ∑ i, g i * c i = g ia + g ib - g ic := by
  have : ∀ i, g i * c i = (if i = ia then g i else 0) + (if i = ib then g i else 0)
      - (if i = ic then g i else 0) := by
    intro i
    rw [hc]
    by_cases h1 : i = ib
    · subst h1; simp [hbc, hab.symm]
    · by_cases h2 : i = ic
      · subst h2; simp [h1, hac.symm]
      · by_cases h3 : i = ia
        · subst h3; simp [h1, h2]
        · simp [h1, h2, h3]
  simp only [this, Finset.sum_sub_distrib, Finset.sum_add_distrib, Finset.sum_ite_eq',
    Finset.mem_univ, if_true]

/-- the three looked-up rows of a triangle of a simple or oriented complex are distinct -/
theorem triRows_distinct {edges : List Edge} (hl : NoLoops edges) {a b c : Int}
    {ia ib ic : Fin edges.length}
    (h1 : listIndexOr edges (a, b) (b, a) = .ok ia)
    (h2 : listIndexOr edges (b, c) (c, b) = .ok ib)
    (h3 : listIndexOr edges (a, c) (c, a) = .ok ic) :
    ia ≠ ib ∧ ia ≠ ic ∧ ib ≠ ic ∧ a ≠ b ∧ b ≠ c ∧ a ≠ c := by
  have g1 := listIndexOr_get h1
  have g2 := listIndexOr_get h2
  have g3 := listIndexOr_get h3
  have l1 := hl _ (List.getElem_mem ia.2)
  have l2 := hl _ (List.getElem_mem ib.2)
  have l3 := hl _ (List.getElem_mem ic.2)
  simp only [Fin.getElem_fin] at g1 g2 g3
  have hab : a ≠ b := by
    rintro rfl
    rcases g1 with g | ⟨_, g⟩ <;> (rw [g] at l1; exact l1 rfl)
  have hbc : b ≠ c := by
    rintro rfl
    rcases g2 with g | ⟨_, g⟩ <;> (rw [g] at l2; exact l2 rfl)
  have hac : a ≠ c := by
    rintro rfl
    rcases g3 with g | ⟨_, g⟩ <;> (rw [g] at l3; exact l3 rfl)
  refine ⟨?_, ?_, ?_, hab, hbc, hac⟩
  · rintro rfl
    rcases g1 with g | ⟨_, g⟩ <;> rcases g2 with g' | ⟨_, g'⟩ <;> rw [g] at g' <;>
      simp only [Prod.mk.injEq] at g' <;> omega
  · rintro rfl
    rcases g1 with g | ⟨_, g⟩ <;> rcases g3 with g' | ⟨_, g'⟩ <;> rw [g] at g' <;>
      simp only [Prod.mk.injEq] at g' <;> omega
  · rintro rfl
    rcases g2 with g | ⟨_, g⟩ <;> rcases g3 with g' | ⟨_, g'⟩ <;> rw [g] at g' <;>
      simp only [Prod.mk.injEq] at g' <;> omega

theorem SC.Built.tri_entry {sc : SC K} (hb : sc.Built) (t : Fin sc.T) :
    ∃ a b c ia ib ic, sc.triangles[t] = [a, b, c] ∧
      listIndexOr sc.edges (a, b) (b, a) = .ok ia ∧
      listIndexOr sc.edges (b, c) (c, b) = .ok ib ∧
      listIndexOr sc.edges (a, c) (c, a) = .ok ic ∧
      ∀ i, sc.B2 i t = if i = ib then 1 else if i = ic then -1 else if i = ia then 1 else 0 :=
  trianglesToB2_ok_entry hb.b2 t

/-- product with B2 on a loop-free complex -/
theorem SC.Built.sum_b2 {sc : SC K} (hb : sc.Built) (hl : NoLoops sc.edges) (t : Fin sc.T) :
    ∃ a b c ia ib ic, sc.triangles[t] = [a, b, c] ∧
      listIndexOr sc.edges (a, b) (b, a) = .ok ia ∧
      listIndexOr sc.edges (b, c) (c, b) = .ok ib ∧
      listIndexOr sc.edges (a, c) (c, a) = .ok ic ∧
      a ≠ b ∧ b ≠ c ∧ a ≠ c ∧
      ∀ g : Fin sc.E → K, ∑ i, g i * sc.B2 i t = g ia + g ib - g ic := by
  obtain ⟨a, b, c, ia, ib, ic, h0, h1, h2, h3, hB⟩ := hb.tri_entry t
  obtain ⟨d1, d2, d3, d4, d5, d6⟩ := triRows_distinct hl h1 h2 h3
  exact ⟨a, b, c, ia, ib, ic, h0, h1, h2, h3, d4, d5, d6,
    fun g => sum_b2_col g (fun i => sc.B2 i t) d1 d2 d3 hB⟩

theorem SC.WellFormed.b1_mul_b2 {sc : SC K} (h : sc.WellFormed) : sc.B1 * sc.B2 = 0 := by
  ext i t
  obtain ⟨a, b, c, ia, ib, ic, h0, h1, h2, h3, -, -, -, hs⟩ := h.built.sum_b2 h.noLoops t
  rw [Matrix.mul_apply, hs, Matrix.zero_apply]
  obtain ⟨a', b', c', h0', m1, m2, m3⟩ := h.oriented _ (List.getElem_mem t.2)
  simp only [Fin.getElem_fin] at h0
  rw [h0] at h0'
  simp only [List.cons.injEq, and_true] at h0'
  obtain ⟨rfl, rfl, rfl⟩ := h0'
  have e1 : sc.edges[ia] = (a, b) := by
    rcases listIndexOr_get h1 with g | ⟨g, _⟩
    · exact g
    · exact absurd m1 g
  have e2 : sc.edges[ib] = (b, c) := by
    rcases listIndexOr_get h2 with g | ⟨g, _⟩
    · exact g
    · exact absurd m2 g
  have e3 : sc.edges[ic] = (a, c) := by
    rcases listIndexOr_get h3 with g | ⟨g, _⟩
    · exact g
    · exact absurd m3 g
  rw [h.built.b1_entry h.inRange h.noLoops, h.built.b1_entry h.inRange h.noLoops,
    h.built.b1_entry h.inRange h.noLoops, e1, e2, e3]
  ring

end Pytspl
