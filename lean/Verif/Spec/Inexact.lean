import Verif.Spec.Spectrum

/-!
# Specification of an eigensolver with errors
-/

namespace Pytspl

open Matrix

/-- The computed eigenvalues `w` and (orthonormal) eigenvectors `U` reproduce the matrix up to an error of `δ`: the
difference of `A` and `U @ diag(w) @ U.T` moves no vector by more than `δ` times its length. -/
structure Reconstructs {n : ℕ} (δ : ℝ) (A U : Matrix (Fin n) (Fin n) ℝ) (w : Fin n → ℝ) : Prop where
  orth : U.transpose * U = 1
  error : ∀ x : Fin n → ℝ, (A - U * diagonal w * U.transpose).mulVec x ⬝ᵥ
    (A - U * diagonal w * U.transpose).mulVec x ≤ δ ^ 2 * (x ⬝ᵥ x)

end Pytspl
