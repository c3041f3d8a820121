import Verif.Model.Py
import Mathlib.Data.Real.Basic
import Mathlib.Data.Matrix.Diagonal
import Mathlib.Algebra.Order.Archimedean.Real.Basic

/-!
# Numerical library routines used by the code, as oracles with a contract

The code calls LAPACK through numpy/scipy.  A `NumLib` is *any* choice of results satisfying the
mathematical contract of these routines (in exact arithmetic).  Every theorem about the numerical
part holds for every `NumLib`; `Verif/Lemmas/NumLibExists.lean` shows that one exists.
-/

namespace Pytspl

open Matrix

/-- Contract of the numerical routines.

* `eigh` (scipy `eigsh(A, k=n)`, which for `k = n` falls back to dense `eigh`;
  eigendecomposition.py:155): for a symmetric matrix, ascending eigenvalues `w` and an orthogonal
  matrix `U` of eigenvectors in its columns.
* `lstsq` (`np.linalg.lstsq(A, b, rcond=None)[0]`; hodge_decomposition.py:36): a minimiser of the
  residual norm, and among the minimisers the one of least norm.  Simplification: the relative
  singular value cut-off `rcond` is not modelled.
* `argsort` (`np.argsort`; base_filter.py:194): some permutation of the positions that sorts the
  list; ties in any order. -/
structure NumLib where
  eigh : ∀ n : ℕ, Matrix (Fin n) (Fin n) ℝ → (Fin n → ℝ) × Matrix (Fin n) (Fin n) ℝ
  eigh_spec : ∀ (n : ℕ) (A : Matrix (Fin n) (Fin n) ℝ), A.transpose = A →
    Monotone (eigh n A).1 ∧ (eigh n A).2.transpose * (eigh n A).2 = 1 ∧
      A * (eigh n A).2 = (eigh n A).2 * diagonal (eigh n A).1
  lstsq : ∀ m n : ℕ, Matrix (Fin m) (Fin n) ℝ → (Fin m → ℝ) → (Fin n → ℝ)
  lstsq_min : ∀ (m n : ℕ) (A : Matrix (Fin m) (Fin n) ℝ) (b : Fin m → ℝ) (x : Fin n → ℝ),
    (A.mulVec (lstsq m n A b) - b) ⬝ᵥ (A.mulVec (lstsq m n A b) - b) ≤
      (A.mulVec x - b) ⬝ᵥ (A.mulVec x - b)
  lstsq_least : ∀ (m n : ℕ) (A : Matrix (Fin m) (Fin n) ℝ) (b : Fin m → ℝ) (x : Fin n → ℝ),
    A.mulVec x = A.mulVec (lstsq m n A b) → lstsq m n A b ⬝ᵥ lstsq m n A b ≤ x ⬝ᵥ x
  argsort : List ℝ → List ℕ
  argsort_perm : ∀ l : List ℝ, (argsort l).Perm (List.range l.length)
  argsort_sorted : ∀ l : List ℝ, ((argsort l).map fun i => l[i]?.getD 0).Pairwise (· ≤ ·)

/-- `np.rint`: round to the nearest integer, halves to even (inside `np.round`, hodge_decomposition.py:40). -/
noncomputable def rint (x : ℝ) : ℤ :=
  if Int.fract x < 1 / 2 then ⌊x⌋
  else if 1 / 2 < Int.fract x then ⌊x⌋ + 1
  else if Even ⌊x⌋ then ⌊x⌋ else ⌊x⌋ + 1

/-- `np.round(x, d)` on one entry (hodge_decomposition.py:40): scale by `10^d`, `rint`, scale back. -/
noncomputable def npRound (x : ℝ) (d : ℤ) : ℝ := (rint (x * (10 : ℝ) ^ d) : ℝ) / (10 : ℝ) ^ d

/-- Machine epsilon `np.finfo(float).eps` (eigendecomposition.py:128). -/
noncomputable def machineEps : ℝ := 1 / 2 ^ 52

end Pytspl
