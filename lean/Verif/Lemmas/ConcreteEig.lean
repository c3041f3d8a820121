import Verif.Lemmas.Concrete
import Verif.Spec.Spectrum
import Mathlib.Tactic.FinCases

/-!
# Spectra of concrete complexes, computed over the integers
-/

namespace Pytspl

open Matrix

section general
variable {nodes : List Int} {edges : List Edge} {triangles : List (List Int)}
  {B1 : Matrix (Fin nodes.length) (Fin edges.length) ℤ}
  {B2 : Matrix (Fin edges.length) (Fin triangles.length) ℤ}

theorem SC.ofInt_L1l : (SC.ofInt nodes edges triangles B1 B2).L1l =
    (B1.transpose * B1).map (Int.cast : ℤ → ℝ) := by
  have := Matrix.map_mul (L := B1.transpose) (M := B1) (f := Int.castRingHom ℝ)
  exact this.symm

theorem SC.ofInt_L1u : (SC.ofInt nodes edges triangles B1 B2).L1u =
    (B2 * B2.transpose).map (Int.cast : ℤ → ℝ) := by
  have := Matrix.map_mul (L := B2) (M := B2.transpose) (f := Int.castRingHom ℝ)
  exact this.symm

theorem SC.ofInt_L1 : (SC.ofInt nodes edges triangles B1 B2).L1 =
    (B1.transpose * B1 + B2 * B2.transpose).map (Int.cast : ℤ → ℝ) := by
  rw [SC.L1, SC.ofInt_L1l, SC.ofInt_L1u]
  exact (Matrix.map_add (Int.cast : ℤ → ℝ) (fun a b => Int.cast_add a b) _ _).symm
end general

variable {n : ℕ}

/-- an integer eigenvector is a real one -/
theorem isEigenvalue_int (A : Matrix (Fin n) (Fin n) ℤ) (v : Fin n → ℤ) (c : ℤ) (i : Fin n)
    (hi : v i ≠ 0) (h : A.mulVec v = c • v) : IsEigenvalue (A.map (Int.cast : ℤ → ℝ)) (c : ℝ) := by
  refine ⟨fun k => (v k : ℝ), fun h0 => hi ?_, ?_⟩
  · have := congrFun h0 i
    simpa using this
  · funext k
    have h1 := congrFun h k
    have h2 : (A.mulVec v) k = ∑ j, A k j * v j := rfl
    rw [h2] at h1
    have h3 : ((A.map (Int.cast : ℤ → ℝ)).mulVec fun k => (v k : ℝ)) k =
        ∑ j, (A k j : ℝ) * (v j : ℝ) := rfl
    rw [h3]
    have h4 := congrArg (Int.cast : ℤ → ℝ) h1
    push_cast at h4
    simpa using h4

/-- products with integer vectors -/
theorem mulVec_int {m : ℕ} (A : Matrix (Fin m) (Fin n) ℤ) (v : Fin n → ℤ) (u : Fin m → ℤ)
    (h : A.mulVec v = u) :
    (A.map (Int.cast : ℤ → ℝ)).mulVec (fun k => (v k : ℝ)) = fun k => (u k : ℝ) := by
  funext k
  have h1 := congrFun h k
  have h2 : (A.mulVec v) k = ∑ j, A k j * v j := rfl
  rw [h2] at h1
  have h3 : ((A.map (Int.cast : ℤ → ℝ)).mulVec fun k => (v k : ℝ)) k =
      ∑ j, (A k j : ℝ) * (v j : ℝ) := rfl
  rw [h3]
  have h4 := congrArg (Int.cast : ℤ → ℝ) h1
  push_cast at h4
  exact h4

/-- `A (A - c) = 0` bounds the spectrum -/
theorem eig_of_sq (A : Matrix (Fin n) (Fin n) ℤ) (c : ℤ) (h : A * A = c • A) {lam : ℝ}
    (hl : IsEigenvalue (A.map (Int.cast : ℤ → ℝ)) lam) : lam = 0 ∨ lam = c := by
  obtain ⟨v, hv, he⟩ := hl
  have hm : (A.map (Int.cast : ℤ → ℝ)) * (A.map (Int.cast : ℤ → ℝ)) =
      (c : ℝ) • (A.map (Int.cast : ℤ → ℝ)) := by
    have h1 := Matrix.map_mul (L := A) (M := A) (f := Int.castRingHom ℝ)
    rw [h] at h1
    refine Eq.trans h1.symm ?_
    ext i j
    exact Int.cast_mul c (A i j)
  have h1 : (A.map (Int.cast : ℤ → ℝ)).mulVec ((A.map (Int.cast : ℤ → ℝ)).mulVec v) =
      (c : ℝ) • (A.map (Int.cast : ℤ → ℝ)).mulVec v := by
    rw [mulVec_mulVec, hm, smul_mulVec]
  rw [he, mulVec_smul, he, smul_smul, smul_smul, ← sub_eq_zero, ← sub_smul] at h1
  have h2 := (smul_eq_zero.mp h1).resolve_right hv
  have h3 : lam * (lam - c) = 0 := by linarith
  rcases mul_eq_zero.mp h3 with h4 | h4
  · exact .inl h4
  · right; linarith

/-- `(A - a) (A - b) = 0` bounds the spectrum -/
theorem eig_of_quad (A : Matrix (Fin n) (Fin n) ℤ) (s p : ℤ) (h : A * A = s • A - p • 1) {lam : ℝ}
    (hl : IsEigenvalue (A.map (Int.cast : ℤ → ℝ)) lam) : lam * lam = s * lam - p := by
  obtain ⟨v, hv, he⟩ := hl
  have hm : (A.map (Int.cast : ℤ → ℝ)) * (A.map (Int.cast : ℤ → ℝ)) =
      (s : ℝ) • (A.map (Int.cast : ℤ → ℝ)) - (p : ℝ) • 1 := by
    have h1 := Matrix.map_mul (L := A) (M := A) (f := Int.castRingHom ℝ)
    rw [h] at h1
    refine Eq.trans h1.symm ?_
    ext i j
    have e : ((s * A i j - p * (1 : Matrix (Fin n) (Fin n) ℤ) i j : ℤ) : ℝ) =
        (s : ℝ) * (A i j : ℝ) - (p : ℝ) * (1 : Matrix (Fin n) (Fin n) ℝ) i j := by
      push_cast
      congr 2
      rw [Matrix.one_apply, Matrix.one_apply]
      split_ifs <;> simp
    exact e
  have h1 : (A.map (Int.cast : ℤ → ℝ)).mulVec ((A.map (Int.cast : ℤ → ℝ)).mulVec v) =
      (s : ℝ) • (A.map (Int.cast : ℤ → ℝ)).mulVec v - (p : ℝ) • v := by
    rw [mulVec_mulVec, hm, sub_mulVec, smul_mulVec, smul_mulVec, one_mulVec]
  rw [he, mulVec_smul, he, smul_smul, smul_smul, ← sub_smul, ← sub_eq_zero, ← sub_smul] at h1
  have := (smul_eq_zero.mp h1).resolve_right hv
  linarith

/-! ## A filled triangle beside a hollow one -/

theorem twoTri_lower {lam : ℝ} (h : IsEigenvalue twoTri.L1l lam) : lam = 0 ∨ lam = 3 := by
  have h' : IsEigenvalue ((twoTriB1.transpose * twoTriB1).map (Int.cast : ℤ → ℝ)) lam := by
    rw [twoTri, SC.ofInt_L1l] at h; exact h
  exact_mod_cast eig_of_sq _ 3 (by decide +kernel) h'

theorem twoTri_upper {lam : ℝ} (h : IsEigenvalue twoTri.L1u lam) : lam = 0 ∨ lam = 3 := by
  have h' : IsEigenvalue ((twoTriB2 * twoTriB2.transpose).map (Int.cast : ℤ → ℝ)) lam := by
    rw [twoTri, SC.ofInt_L1u] at h; exact h
  exact_mod_cast eig_of_sq _ 3 (by decide +kernel) h'

theorem twoTri_lower_zero : IsEigenvalue twoTri.L1l 0 := by
  have := isEigenvalue_int (twoTriB1.transpose * twoTriB1) ![1, -1, 1, 0, 0, 0] 0 0 (by decide)
    (by decide +kernel)
  rw [twoTri, SC.ofInt_L1l]; exact_mod_cast this

theorem twoTri_upper_zero : IsEigenvalue twoTri.L1u 0 := by
  have := isEigenvalue_int (twoTriB2 * twoTriB2.transpose) ![0, 0, 0, 1, 0, 0] 0 3 (by decide)
    (by decide +kernel)
  rw [twoTri, SC.ofInt_L1u]; exact_mod_cast this

theorem twoTri_lower_three : IsEigenvalue twoTri.L1l 3 := by
  have := isEigenvalue_int (twoTriB1.transpose * twoTriB1) ![1, 1, 0, 0, 0, 0] 3 0 (by decide)
    (by decide +kernel)
  rw [twoTri, SC.ofInt_L1l]; exact_mod_cast this

theorem twoTri_upper_three : IsEigenvalue twoTri.L1u 3 := by
  have := isEigenvalue_int (twoTriB2 * twoTriB2.transpose) ![1, -1, 1, 0, 0, 0] 3 0 (by decide)
    (by decide +kernel)
  rw [twoTri, SC.ofInt_L1u]; exact_mod_cast this

/-! ## The complete graph on four nodes with one filled triangle -/

def k4B1 : Matrix (Fin 4) (Fin 6) ℤ :=
  !![-1, -1, -1, 0, 0, 0; 1, 0, 0, -1, -1, 0; 0, 1, 0, 1, 0, -1; 0, 0, 1, 0, 1, 1]
def k4B2 : Matrix (Fin 6) (Fin 1) ℤ := !![1; -1; 0; 1; 0; 0]

noncomputable def k4Tri : SC ℝ :=
  SC.ofInt [0, 1, 2, 3] [(0, 1), (0, 2), (0, 3), (1, 2), (1, 3), (2, 3)] [[0, 1, 2]] k4B1 k4B2

theorem k4Tri_wellFormed : k4Tri.WellFormed := by
  refine ⟨SC.ofInt_built (okEq_spec (by decide +kernel)) (okEq_spec (by decide +kernel)), ?_, ?_, ?_⟩
  · show EdgesInRange 4 [(0, 1), (0, 2), (0, 3), (1, 2), (1, 3), (2, 3)]
    decide
  · show NoLoops [(0, 1), (0, 2), (0, 3), (1, 2), (1, 3), (2, 3)]
    decide
  · intro t ht
    have ht' : t ∈ [[(0 : Int), 1, 2]] := ht
    simp only [List.mem_cons, List.not_mem_nil, or_false] at ht'
    subst ht'
    refine ⟨0, 1, 2, rfl, ?_, ?_, ?_⟩ <;> simp [k4Tri, SC.ofInt]

theorem k4Tri_lower {lam : ℝ} (h : IsEigenvalue k4Tri.L1l lam) : lam = 0 ∨ lam = 4 := by
  have h' : IsEigenvalue ((k4B1.transpose * k4B1).map (Int.cast : ℤ → ℝ)) lam := by
    rw [k4Tri, SC.ofInt_L1l] at h; exact h
  exact_mod_cast eig_of_sq _ 4 (by decide +kernel) h'

theorem k4Tri_upper {lam : ℝ} (h : IsEigenvalue k4Tri.L1u lam) : lam = 0 ∨ lam = 3 := by
  have h' : IsEigenvalue ((k4B2 * k4B2.transpose).map (Int.cast : ℤ → ℝ)) lam := by
    rw [k4Tri, SC.ofInt_L1u] at h; exact h
  exact_mod_cast eig_of_sq _ 3 (by decide +kernel) h'

theorem k4Tri_lower_zero : IsEigenvalue k4Tri.L1l 0 := by
  have := isEigenvalue_int (k4B1.transpose * k4B1) ![1, -1, 0, 1, 0, 0] 0 0 (by decide)
    (by decide +kernel)
  rw [k4Tri, SC.ofInt_L1l]; exact_mod_cast this

theorem k4Tri_upper_zero : IsEigenvalue k4Tri.L1u 0 := by
  have := isEigenvalue_int (k4B2 * k4B2.transpose) ![0, 0, 1, 0, 0, 0] 0 2 (by decide)
    (by decide +kernel)
  rw [k4Tri, SC.ofInt_L1u]; exact_mod_cast this

/-! ## A filled triangle -/

def triB1 : Matrix (Fin 3) (Fin 3) ℤ := !![-1, -1, 0; 1, 0, -1; 0, 1, 1]
def triB2 : Matrix (Fin 3) (Fin 1) ℤ := !![1; -1; 1]

noncomputable def tri : SC ℝ :=
  SC.ofInt [0, 1, 2] [(0, 1), (0, 2), (1, 2)] [[0, 1, 2]] triB1 triB2

theorem tri_wellFormed : tri.WellFormed := by
  refine ⟨SC.ofInt_built (okEq_spec (by decide +kernel)) (okEq_spec (by decide +kernel)), ?_, ?_, ?_⟩
  · show EdgesInRange 3 [(0, 1), (0, 2), (1, 2)]
    decide
  · show NoLoops [(0, 1), (0, 2), (1, 2)]
    decide
  · intro t ht
    have ht' : t ∈ [[(0 : Int), 1, 2]] := ht
    simp only [List.mem_cons, List.not_mem_nil, or_false] at ht'
    subst ht'
    refine ⟨0, 1, 2, rfl, ?_, ?_, ?_⟩ <;> simp [tri, SC.ofInt]

/-! ## A path with two edges -/

def path2B1 : Matrix (Fin 3) (Fin 2) ℤ := !![-1, 0; 1, -1; 0, 1]
def path2B2 : Matrix (Fin 2) (Fin 0) ℤ := 0

noncomputable def path2 : SC ℝ := SC.ofInt [0, 1, 2] [(0, 1), (1, 2)] [] path2B1 path2B2

theorem path2_wellFormed : path2.WellFormed := by
  refine ⟨SC.ofInt_built (okEq_spec (by decide +kernel)) (okEq_spec (by decide +kernel)), ?_, ?_, ?_⟩
  · show EdgesInRange 3 [(0, 1), (1, 2)]
    decide
  · show NoLoops [(0, 1), (1, 2)]
    decide
  · intro t ht
    have ht' : t ∈ ([] : List (List Int)) := ht
    cases ht'

theorem path2_lower {lam : ℝ} (h : IsEigenvalue path2.L1l lam) : lam = 1 ∨ lam = 3 := by
  have h' : IsEigenvalue ((path2B1.transpose * path2B1).map (Int.cast : ℤ → ℝ)) lam := by
    rw [path2, SC.ofInt_L1l] at h; exact h
  have h2 := eig_of_quad _ 4 3 (by decide +kernel) h'
  push_cast at h2
  have h3 : (lam - 1) * (lam - 3) = 0 := by linarith
  rcases mul_eq_zero.mp h3 with h4 | h4
  · left; linarith
  · right; linarith

end Pytspl
