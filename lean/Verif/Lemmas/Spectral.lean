import Mathlib.LinearAlgebra.Matrix.Charpoly.Basic
import Mathlib.LinearAlgebra.Matrix.Charpoly.Coeff
import Mathlib.LinearAlgebra.Matrix.Rank
import Mathlib.LinearAlgebra.Matrix.NonsingularInverse
import Mathlib.Data.Real.Basic
import Mathlib.Algebra.Polynomial.Roots
import Mathlib.Tactic.Ring
import Mathlib.Tactic.Linarith
import Verif.Lemmas.LeastSquares

/-!
# Spectral facts about real symmetric matrices given by an orthonormal eigenbasis
-/

namespace Pytspl

open Matrix Polynomial

variable {n : ℕ}

/-- `U` is an orthonormal eigenbasis of `A` (in columns) with eigenvalues `w` -/
structure IsEig (A U : Matrix (Fin n) (Fin n) ℝ) (w : Fin n → ℝ) : Prop where
  orth : U.transpose * U = 1
  eig : A * U = U * diagonal w

namespace IsEig

variable {A U : Matrix (Fin n) (Fin n) ℝ} {w : Fin n → ℝ}

theorem orth' (h : IsEig A U w) : U * U.transpose = 1 := mul_eq_one_comm.mp h.orth

theorem recon (h : IsEig A U w) : A = U * diagonal w * U.transpose := by
  rw [← h.eig, Matrix.mul_assoc, h.orth', Matrix.mul_one]

theorem col_eig (h : IsEig A U w) (i : Fin n) :
    A.mulVec (fun k => U k i) = w i • fun k => U k i := by
  ext k
  have := congrFun (congrFun h.eig k) i
  rw [mul_diagonal] at this
  rw [Pi.smul_apply, smul_eq_mul, mul_comm, ← this]
  rfl

theorem col_dot (h : IsEig A U w) (i j : Fin n) :
    (fun k => U k i) ⬝ᵥ (fun k => U k j) = if i = j then 1 else 0 := by
  have := congrFun (congrFun h.orth i) j
  rw [Matrix.one_apply] at this
  rw [← this]
  rfl

theorem col_ne_zero (h : IsEig A U w) (i : Fin n) : (fun k => U k i) ≠ 0 := by
  intro h0
  have := h.col_dot i i
  rw [h0] at this
  simp at this

theorem charpoly_eq (h : IsEig A U w) : A.charpoly = ∏ i, (X - C (w i)) := by
  rw [h.recon, Matrix.mul_assoc, charpoly_mul_comm, Matrix.mul_assoc, h.orth, Matrix.mul_one,
    charpoly_diagonal]

theorem roots_eq (h : IsEig A U w) : A.charpoly.roots = Finset.univ.val.map w := by
  rw [h.charpoly_eq]
  have := roots_multiset_prod_X_sub_C (Finset.univ.val.map w)
  rw [Multiset.map_map] at this
  exact this

theorem rank_eq (h : IsEig A U w) : A.rank = Fintype.card {i // w i ≠ 0} := by
  have hu : IsUnit U.det := by
    apply Matrix.isUnit_det_of_left_inverse h.orth
  have hu' : IsUnit U.transpose.det := by rw [det_transpose]; exact hu
  rw [h.recon, rank_mul_eq_left_of_isUnit_det _ _ hu', rank_mul_eq_right_of_isUnit_det _ _ hu,
    rank_diagonal]

/-- expansion of a vector in the eigenbasis -/
theorem expand (h : IsEig A U w) (f : Fin n → ℝ) :
    f = ∑ i, (U.transpose.mulVec f i) • fun k => U k i := by
  have h1 : f = U.mulVec (U.transpose.mulVec f) := by
    rw [mulVec_mulVec, h.orth', one_mulVec]
  conv_lhs => rw [h1]
  ext k
  rw [Finset.sum_apply]
  simp only [Pi.smul_apply, smul_eq_mul]
  have : (U.mulVec (U.transpose.mulVec f)) k = ∑ i, U k i * U.transpose.mulVec f i := rfl
  rw [this]
  exact Finset.sum_congr rfl fun i _ => mul_comm _ _

/-- every eigenvalue occurs in the list -/
theorem mem_of_eigen (h : IsEig A U w) {lam : ℝ} {v : Fin n → ℝ} (hv : v ≠ 0)
    (hA : A.mulVec v = lam • v) : ∃ i, w i = lam := by
  by_contra hne
  push Not at hne
  apply hv
  have hz : U.transpose.mulVec v = 0 := by
    have h1 : U.transpose * A = diagonal w * U.transpose := by
      rw [h.recon, ← Matrix.mul_assoc, ← Matrix.mul_assoc, h.orth, Matrix.one_mul]
    have h2 : (diagonal w).mulVec (U.transpose.mulVec v) = lam • U.transpose.mulVec v := by
      rw [mulVec_mulVec, ← h1, ← mulVec_mulVec, hA, mulVec_smul]
    ext i
    have := congrFun h2 i
    rw [mulVec_diagonal, Pi.smul_apply, smul_eq_mul] at this
    have h3 : (w i - lam) * U.transpose.mulVec v i = 0 := by linarith
    rcases mul_eq_zero.mp h3 with h4 | h4
    · exact absurd (by linarith) (hne i)
    · exact h4
  rw [h.expand v, hz]
  simp

theorem quad (h : IsEig A U w) (i : Fin n) :
    (fun k => U k i) ⬝ᵥ A.mulVec (fun k => U k i) = w i := by
  rw [h.col_eig, dotProduct_smul, h.col_dot]
  simp

/-- the diagonal of `Uᵀ p(A) U` for a matrix with the same eigenvectors -/
theorem diag_conj {M : Matrix (Fin n) (Fin n) ℝ} (h : IsEig A U w) {c : ℝ} (i : Fin n)
    (hM : M.mulVec (fun k => U k i) = c • fun k => U k i) : (U.transpose * M * U) i i = c := by
  rw [Matrix.mul_assoc]
  have e : (U.transpose * (M * U)) i i = (fun k => U k i) ⬝ᵥ M.mulVec (fun k => U k i) := rfl
  rw [e, hM, dotProduct_smul, h.col_dot]
  simp

end IsEig

/-- characteristic polynomials of matrices with `A B = 0` -/
theorem charpoly_mul_of_mul_eq_zero {A B : Matrix (Fin n) (Fin n) ℝ} (h : A * B = 0) :
    A.charpoly * B.charpoly = X ^ n * (A + B).charpoly := by
  have hX : (X ^ n : ℝ[X]) = (scalar (Fin n) (X : ℝ[X])).det := by
    simp
  rw [charpoly, charpoly, charpoly, ← det_mul, hX, ← det_mul]
  congr 1
  have hc : Commute (scalar (Fin n) (X : ℝ[X])) (C.mapMatrix A) := by
    exact scalar_commute _ (fun r => Commute.all _ _) _
  have hm : (C.mapMatrix A) * (C.mapMatrix B) = (0 : Matrix (Fin n) (Fin n) ℝ[X]) := by
    rw [← map_mul, h, map_zero]
  unfold charmatrix
  rw [map_add, sub_mul, mul_sub, mul_sub, mul_sub, hm, ← hc.eq, mul_add]
  abel

theorem roots_of_mul_eq_zero {A B : Matrix (Fin n) (Fin n) ℝ} (h : A * B = 0) :
    A.charpoly.roots + B.charpoly.roots = Multiset.replicate n 0 + (A + B).charpoly.roots := by
  have hA := (charpoly_monic A).ne_zero
  have hB := (charpoly_monic B).ne_zero
  have hAB := (charpoly_monic (A + B)).ne_zero
  have := congrArg Polynomial.roots (charpoly_mul_of_mul_eq_zero h)
  rw [roots_mul (mul_ne_zero hA hB), roots_mul (mul_ne_zero (pow_ne_zero _ X_ne_zero) hAB),
    roots_X_pow, Multiset.nsmul_singleton] at this
  exact this

end Pytspl
