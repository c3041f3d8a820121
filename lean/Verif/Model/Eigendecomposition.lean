import Verif.Model.NumLib
import Verif.Model.SimplicialComplex

/-!
# `pytspl/decomposition/eigendecomposition.py` and the eigenpair methods of `SimplicialComplex`
-/

namespace Pytspl

open Matrix

/-- A square matrix argument: a numpy array or a scipy csr matrix (the code distinguishes them by
`isinstance`, eigendecomposition.py:149). -/
inductive MatArg (n : ℕ)
  | ndarray (M : Matrix (Fin n) (Fin n) ℝ)
  | csr (M : Matrix (Fin n) (Fin n) ℝ)

/-- eigendecomposition.py:127-159 `get_eigendecomposition`: `AssertionError` unless dense; `eigsh`
with `k = 0` raises `ValueError`; values of size below the tolerance are replaced by 0.  Returns
(eigenvectors, eigenvalues). -/
noncomputable def getEigendecomposition (lib : NumLib) {n : ℕ} (lapMat : MatArg n)
    (tolerance : ℝ := machineEps) : Py (Matrix (Fin n) (Fin n) ℝ × (Fin n → ℝ)) :=
  match lapMat with
  | .csr _ => .error .assertionError
  | .ndarray M =>
    if n = 0 then .error .valueError
    else
      let r := lib.eigh n M
      .ok (r.2, fun i => if |r.1 i| < tolerance then 0 else r.1 i)

/-- Result of the `get_*_eigenpair` functions: `num` eigenvectors (as columns) with their
eigenvalues (eigendecomposition.py:75-77, 98-100, 122-124). -/
structure EigPairs (n : ℕ) where
  num : ℕ
  vecs : Matrix (Fin n) (Fin num) ℝ
  vals : Fin num → ℝ

/-- `eigenvectors[:, np.where(cond)[0]], eigenvalues[np.where(cond)[0]]`
(eigendecomposition.py:75-76): the positions where the condition holds, in order. -/
noncomputable def selectPairs {n : ℕ} (U : Matrix (Fin n) (Fin n) ℝ) (w : Fin n → ℝ)
    (cond : ℝ → Prop) [DecidablePred cond] : EigPairs n :=
  let idx := (List.finRange n).filter fun i => decide (cond (w i))
  ⟨idx.length, Matrix.of fun i j => U i idx[j], fun j => w idx[j]⟩

/-- eigendecomposition.py:57-77 `get_gradient_eigenpair` (keeps eigenvalues `> tolerance`). -/
noncomputable def getGradientEigenpair (lib : NumLib) {n : ℕ} (lap : MatArg n)
    (tolerance : ℝ := machineEps) : Py (EigPairs n) := do
  let (U, w) ← getEigendecomposition lib lap
  pure (selectPairs U w fun x => tolerance < x)

/-- eigendecomposition.py:80-100 `get_curl_eigenpair` (keeps eigenvalues `>= tolerance`). -/
noncomputable def getCurlEigenpair (lib : NumLib) {n : ℕ} (lap : MatArg n)
    (tolerance : ℝ := machineEps) : Py (EigPairs n) := do
  let (U, w) ← getEigendecomposition lib lap
  pure (selectPairs U w fun x => tolerance ≤ x)

/-- eigendecomposition.py:103-124 `get_harmonic_eigenpair` (keeps eigenvalues `<= tolerance`). -/
noncomputable def getHarmonicEigenpair (lib : NumLib) {n : ℕ} (lap : MatArg n)
    (tolerance : ℝ := machineEps) : Py (EigPairs n) := do
  let (U, w) ← getEigendecomposition lib lap
  pure (selectPairs U w fun x => x ≤ tolerance)

/-- eigendecomposition.py:15-26 `get_total_variance`. -/
noncomputable def getTotalVariance (lib : NumLib) {n : ℕ} (lap : MatArg n) : Py (Fin n → ℝ) := do
  let (U, _) ← getEigendecomposition lib lap
  let M := match lap with | .ndarray M => M | .csr M => M
  pure fun i => (U.transpose * M * U) i i

namespace SC

/-- simplicial_complex.py:437-474 `get_component_eigenpair` (`1e-3` is read as the rational
1/1000). -/
noncomputable def getComponentEigenpair (lib : NumLib) (sc : SC ℝ) (component : String := "harmonic")
    (tolerance : ℝ := 1 / 1000) : Py (EigPairs sc.E) :=
  if component = "harmonic" then getHarmonicEigenpair lib (.ndarray sc.L1) tolerance
  else if component = "curl" then getCurlEigenpair lib (.ndarray sc.L1u) tolerance
  else if component = "gradient" then getGradientEigenpair lib (.ndarray sc.L1l) tolerance
  else .error .valueError

/-- simplicial_complex.py:408-435 `get_simplicial_embeddings`: harmonic, curl and gradient
coefficient vectors (each of a length only known at run time). -/
noncomputable def getSimplicialEmbeddings (lib : NumLib) (sc : SC ℝ) (flow : Fin sc.E → ℝ) :
    Py (((m : ℕ) × (Fin m → ℝ)) × ((m : ℕ) × (Fin m → ℝ)) × ((m : ℕ) × (Fin m → ℝ))) := do
  let uh ← getHarmonicEigenpair lib (.ndarray sc.L1) (1 / 1000)
  let uc ← getCurlEigenpair lib (.ndarray sc.L1u) (1 / 1000)
  let ug ← getGradientEigenpair lib (.ndarray sc.L1l) (1 / 1000)
  pure (⟨uh.num, uh.vecs.transpose.mulVec flow⟩, ⟨uc.num, uc.vecs.transpose.mulVec flow⟩,
    ⟨ug.num, ug.vecs.transpose.mulVec flow⟩)

/-- simplicial_complex.py:476-484 `get_total_variance`: `laplacian_matrix()` is a csr matrix and is
passed on as it is. -/
noncomputable def getTotalVariance (lib : NumLib) (sc : SC ℝ) : Py (Fin sc.N → ℝ) :=
  Pytspl.getTotalVariance lib (.csr sc.L0)

end SC
end Pytspl
