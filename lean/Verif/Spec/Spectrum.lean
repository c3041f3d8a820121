import Mathlib.Data.Matrix.Mul
import Mathlib.Data.Real.Basic

/-!
# Hypotheses about spectra
-/

namespace Pytspl

variable {n : ℕ}

/-- `A` has no eigenvalue in the interval `(0, tol]` -/
def NoSmallEigenvalue (A : Matrix (Fin n) (Fin n) ℝ) (tol : ℝ) : Prop :=
  ∀ (lam : ℝ) (v : Fin n → ℝ), v ≠ 0 → A.mulVec v = lam • v → ¬ (0 < lam ∧ lam ≤ tol)

/-- `lam` is an eigenvalue of `A` -/
def IsEigenvalue (A : Matrix (Fin n) (Fin n) ℝ) (lam : ℝ) : Prop :=
  ∃ v : Fin n → ℝ, v ≠ 0 ∧ A.mulVec v = lam • v

end Pytspl
