import Verif.Lemmas.Incidence
import Mathlib.Data.Real.Basic
import Mathlib.LinearAlgebra.Matrix.Notation
import Mathlib.Tactic.NormNum
import Mathlib.Tactic.Linarith

/-!
# Building concrete real complexes from integer matrices computed by the model
-/

namespace Pytspl

open Matrix

theorem edgesToB1_cast {edges : List Edge} {n : ℕ} {B : Matrix (Fin n) (Fin edges.length) ℤ}
    (h : edgesToB1 edges n = .ok B) : edgesToB1 edges n = .ok (B.map (Int.cast : ℤ → ℝ)) := by
  cases h' : edgesToB1 (K := ℝ) edges n with
  | error e =>
    have h2 : edgesToB1 (K := ℤ) edges n = .error e := edgesToB1_error_iff.mpr (edgesToB1_error_iff.mp h')
    rw [h] at h2; cases h2
  | ok B' =>
    congr 1
    ext i j
    obtain ⟨u, v, hu, hv, hB⟩ := edgesToB1_ok_entry h j
    obtain ⟨u', v', hu', hv', hB'⟩ := edgesToB1_ok_entry h' j
    rw [hu] at hu'; rw [hv] at hv'
    cases hu'; cases hv'
    rw [hB', map_apply, hB]
    split
    · simp
    · split <;> simp

theorem trianglesToB2_cast {triangles : List (List Int)} {edges : List Edge}
    {B : Matrix (Fin edges.length) (Fin triangles.length) ℤ}
    (h : trianglesToB2 triangles edges = .ok B) :
    trianglesToB2 triangles edges = .ok (B.map (Int.cast : ℤ → ℝ)) := by
  cases h' : trianglesToB2 (K := ℝ) triangles edges with
  | error e =>
    have h2 : trianglesToB2 (K := ℤ) triangles edges = .error e :=
      trianglesToB2_error_iff.mpr (trianglesToB2_error_iff.mp h')
    rw [h] at h2; cases h2
  | ok B' =>
    congr 1
    ext i j
    obtain ⟨a, b, c, ia, ib, ic, ht, h1, h2, h3, hB⟩ := trianglesToB2_ok_entry h j
    obtain ⟨a', b', c', ia', ib', ic', ht', h1', h2', h3', hB'⟩ := trianglesToB2_ok_entry h' j
    rw [ht] at ht'
    cases ht'
    rw [h1] at h1'; rw [h2] at h2'; rw [h3] at h3'
    cases h1'; cases h2'; cases h3'
    rw [hB', map_apply, hB]
    split
    · simp
    · split
      · simp
      · split <;> simp

/-- entrywise check of a computed matrix -/
def okEq {m n : ℕ} (r : Py (Matrix (Fin m) (Fin n) ℤ)) (B : Matrix (Fin m) (Fin n) ℤ) : Bool :=
  match r with
  | .ok M => decide (M = B)
  | .error _ => false

theorem okEq_spec {m n : ℕ} {r : Py (Matrix (Fin m) (Fin n) ℤ)} {B : Matrix (Fin m) (Fin n) ℤ}
    (h : okEq r B = true) : r = .ok B := by
  cases r with
  | error e => simp [okEq] at h
  | ok M =>
    congr 1
    exact of_decide_eq_true (p := M = B) h

/-- the real complex with the given integer matrices -/
noncomputable def SC.ofInt (nodes : List Int) (edges : List Edge) (triangles : List (List Int))
    (B1 : Matrix (Fin nodes.length) (Fin edges.length) ℤ)
    (B2 : Matrix (Fin edges.length) (Fin triangles.length) ℤ) : SC ℝ :=
  ⟨nodes, edges, triangles, [], [], B1.map (Int.cast : ℤ → ℝ), B2.map (Int.cast : ℤ → ℝ)⟩

theorem SC.ofInt_built {nodes : List Int} {edges : List Edge} {triangles : List (List Int)}
    {B1 : Matrix (Fin nodes.length) (Fin edges.length) ℤ}
    {B2 : Matrix (Fin edges.length) (Fin triangles.length) ℤ}
    (h1 : edgesToB1 edges nodes.length = .ok B1) (h2 : trianglesToB2 triangles edges = .ok B2) :
    (SC.ofInt nodes edges triangles B1 B2).Built := by
  show SC.init nodes edges triangles [] [] = _
  rw [SC.init, edgesToB1_cast h1, trianglesToB2_cast h2]
  rfl

/-- a filled triangle 0-1-2 beside a hollow triangle 3-4-5 -/
def twoTriB1 : Matrix (Fin 6) (Fin 6) ℤ :=
  !![-1, -1, 0, 0, 0, 0; 1, 0, -1, 0, 0, 0; 0, 1, 1, 0, 0, 0;
    0, 0, 0, -1, -1, 0; 0, 0, 0, 1, 0, -1; 0, 0, 0, 0, 1, 1]
def twoTriB2 : Matrix (Fin 6) (Fin 1) ℤ := !![1; -1; 1; 0; 0; 0]

noncomputable def twoTri : SC ℝ :=
  SC.ofInt [0, 1, 2, 3, 4, 5] [(0, 1), (0, 2), (1, 2), (3, 4), (3, 5), (4, 5)] [[0, 1, 2]]
    twoTriB1 twoTriB2

theorem twoTri_wellFormed : twoTri.WellFormed := by
  refine ⟨SC.ofInt_built (okEq_spec (by decide +kernel)) (okEq_spec (by decide +kernel)), ?_, ?_, ?_⟩
  · show EdgesInRange 6 [(0, 1), (0, 2), (1, 2), (3, 4), (3, 5), (4, 5)]
    decide
  · show NoLoops [(0, 1), (0, 2), (1, 2), (3, 4), (3, 5), (4, 5)]
    decide
  · intro t ht
    have ht' : t ∈ [[(0 : Int), 1, 2]] := ht
    simp only [List.mem_cons, List.not_mem_nil, or_false] at ht'
    subst ht'
    refine ⟨0, 1, 2, rfl, ?_, ?_, ?_⟩ <;> simp [twoTri, SC.ofInt]

/-- its Laplacian satisfies `L² = 3 L` -/
theorem twoTri_sq : twoTri.L1 * twoTri.L1 = (3 : ℝ) • twoTri.L1 := by
  have h : (twoTriB1.transpose * twoTriB1 + twoTriB2 * twoTriB2.transpose) *
      (twoTriB1.transpose * twoTriB1 + twoTriB2 * twoTriB2.transpose) =
      3 • (twoTriB1.transpose * twoTriB1 + twoTriB2 * twoTriB2.transpose) := by decide +kernel
  have h' := congrArg (Int.castRingHom ℝ).mapMatrix h
  rw [map_mul, map_nsmul] at h'
  have e : twoTri.L1 = (Int.castRingHom ℝ).mapMatrix
      (twoTriB1.transpose * twoTriB1 + twoTriB2 * twoTriB2.transpose) := by
    rw [RingHom.mapMatrix_apply, Matrix.map_add _ (fun a b => map_add _ a b), Matrix.map_mul,
      Matrix.map_mul]
    rfl
  rw [← Nat.cast_smul_eq_nsmul ℝ, Nat.cast_ofNat] at h'
  rw [e]
  exact h'

/-- so its only eigenvalues are 0 and 3 -/
theorem twoTri_eigen {lam : ℝ} {v : Fin twoTri.E → ℝ} (hv : v ≠ 0)
    (h : twoTri.L1.mulVec v = lam • v) : lam = 0 ∨ lam = 3 := by
  have h1 : twoTri.L1.mulVec (twoTri.L1.mulVec v) = (3 : ℝ) • twoTri.L1.mulVec v := by
    rw [mulVec_mulVec, twoTri_sq, smul_mulVec]
  rw [h, mulVec_smul, h, smul_smul, smul_smul, ← sub_eq_zero, ← sub_smul] at h1
  have h2 := (smul_eq_zero.mp h1).resolve_right hv
  have h3 : lam * (lam - 3) = 0 := by linarith
  rcases mul_eq_zero.mp h3 with h4 | h4
  · exact .inl h4
  · right; linarith

end Pytspl
