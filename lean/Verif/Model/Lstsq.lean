import Verif.Model.HodgeDecomposition

/-!
# `np.linalg.lstsq` with its cut-off for small singular values

`NumLib.lstsq` is the exact least-squares solution.  Here the cut-off which numpy applies for `rcond=None` is
described as numpy documents it: singular values of at most `rcond` times the largest one are treated as zero,
with `rcond` the machine precision times the larger dimension.
-/

namespace Pytspl

open Matrix

/-- `x = np.linalg.lstsq(A, b, rcond)[0]` (hodge_decomposition.py:36, 64): for some singular value decomposition,
given by orthonormal eigenvectors `V` of `A.T @ A` and singular values `s`, the solution in the directions of the
singular values which are kept, and 0 in the others.  (LAPACK's rounding errors are left out.) -/
def LstsqRcond {m n : ℕ} (A : Matrix (Fin m) (Fin n) ℝ) (b : Fin m → ℝ) (rcond : ℝ) (x : Fin n → ℝ) : Prop :=
  ∃ (V : Matrix (Fin n) (Fin n) ℝ) (s : Fin n → ℝ), (∀ i, 0 ≤ s i) ∧ V.transpose * V = 1 ∧
    A.transpose * A * V = V * diagonal (fun i => s i ^ 2) ∧
    ∃ keep : Finset (Fin n), (∀ i, i ∈ keep ↔ ∀ j, rcond * s j < s i) ∧
      x = ∑ i ∈ keep, (((fun k => V k i) ⬝ᵥ A.transpose.mulVec b) / s i ^ 2) • fun k => V k i

/-- `rcond=None`: `np.finfo(float).eps * max(M, N)`
(the calls in hodge_decomposition.py:36, 64, ls_filter_design.py:61, grid_based_filter_design.py:131) -/
noncomputable def defaultRcond (m n : ℕ) : ℝ := machineEps * (max m n : ℕ)

/-- hodge_decomposition.py:36-37 in `get_gradient_flow`, before the rounding. -/
def SC.GradientFlowRcond (sc : SC ℝ) (flow g : Fin sc.E → ℝ) : Prop :=
  ∃ p, LstsqRcond sc.B1.transpose flow (defaultRcond sc.E sc.N) p ∧ g = sc.B1.transpose.mulVec p

/-- hodge_decomposition.py:64-65 in `get_curl_flow`, before the rounding. -/
def SC.CurlFlowRcond (sc : SC ℝ) (flow c : Fin sc.E → ℝ) : Prop :=
  ∃ w, LstsqRcond sc.B2 flow (defaultRcond sc.E sc.T) w ∧ c = sc.B2.mulVec w

/-- hodge_decomposition.py:93-98 in `get_harmonic_flow`, before the rounding. -/
def SC.HarmonicFlowRcond (sc : SC ℝ) (flow h : Fin sc.E → ℝ) : Prop :=
  ∃ g c, sc.GradientFlowRcond flow g ∧ sc.CurlFlowRcond flow c ∧ h = flow - g - c

end Pytspl
