import Verif.Model.Eigendecomposition

/-!
# The eigenpair functions over an arbitrary eigensolver

`Model/Eigendecomposition.lean` gives the functions over a `NumLib`, whose eigensolver is exact.  Here the same
functions are given over any function in place of `scipy.sparse.linalg.eigsh`, so that solvers with errors can be
spoken about; `C127_exact` shows that they are the same functions when the solver is that of a `NumLib`.
-/

namespace Pytspl

open Matrix

/-- `scipy.sparse.linalg.eigsh(M, k=M.shape[0])` (eigendecomposition.py:155): eigenvalues and eigenvectors, with
nothing assumed about them. -/
abbrev RawEigh := ∀ n : ℕ, Matrix (Fin n) (Fin n) ℝ → (Fin n → ℝ) × Matrix (Fin n) (Fin n) ℝ

/-- eigendecomposition.py:127-159 `get_eigendecomposition` over any eigensolver. -/
noncomputable def getEigendecompositionOf (eigh : RawEigh) {n : ℕ} (lapMat : MatArg n)
    (tolerance : ℝ := machineEps) : Py (Matrix (Fin n) (Fin n) ℝ × (Fin n → ℝ)) :=
  match lapMat with
  | .csr _ => .error .assertionError
  | .ndarray M =>
    if n = 0 then .error .valueError
    else
      let r := eigh n M
      .ok (r.2, fun i => if |r.1 i| < tolerance then 0 else r.1 i)

/-- eigendecomposition.py:57-77 `get_gradient_eigenpair` over any eigensolver. -/
noncomputable def getGradientEigenpairOf (eigh : RawEigh) {n : ℕ} (lap : MatArg n)
    (tolerance : ℝ := machineEps) : Py (EigPairs n) := do
  let (U, w) ← getEigendecompositionOf eigh lap
  pure (selectPairs U w fun x => tolerance < x)

/-- eigendecomposition.py:80-100 `get_curl_eigenpair` over any eigensolver. -/
noncomputable def getCurlEigenpairOf (eigh : RawEigh) {n : ℕ} (lap : MatArg n)
    (tolerance : ℝ := machineEps) : Py (EigPairs n) := do
  let (U, w) ← getEigendecompositionOf eigh lap
  pure (selectPairs U w fun x => tolerance ≤ x)

/-- eigendecomposition.py:103-124 `get_harmonic_eigenpair` over any eigensolver. -/
noncomputable def getHarmonicEigenpairOf (eigh : RawEigh) {n : ℕ} (lap : MatArg n)
    (tolerance : ℝ := machineEps) : Py (EigPairs n) := do
  let (U, w) ← getEigendecompositionOf eigh lap
  pure (selectPairs U w fun x => x ≤ tolerance)

namespace SC

/-- simplicial_complex.py:437-474 `get_component_eigenpair` over any eigensolver. -/
noncomputable def getComponentEigenpairOf (eigh : RawEigh) (sc : SC ℝ) (component : String := "harmonic")
    (tolerance : ℝ := 1 / 1000) : Py (EigPairs sc.E) :=
  if component = "harmonic" then getHarmonicEigenpairOf eigh (.ndarray sc.L1) tolerance
  else if component = "curl" then getCurlEigenpairOf eigh (.ndarray sc.L1u) tolerance
  else if component = "gradient" then getGradientEigenpairOf eigh (.ndarray sc.L1l) tolerance
  else .error .valueError

/-- simplicial_complex.py:408-435 `get_simplicial_embeddings` over any eigensolver. -/
noncomputable def getSimplicialEmbeddingsOf (eigh : RawEigh) (sc : SC ℝ) (flow : Fin sc.E → ℝ) :
    Py (((m : ℕ) × (Fin m → ℝ)) × ((m : ℕ) × (Fin m → ℝ)) × ((m : ℕ) × (Fin m → ℝ))) := do
  let uh ← getHarmonicEigenpairOf eigh (.ndarray sc.L1) (1 / 1000)
  let uc ← getCurlEigenpairOf eigh (.ndarray sc.L1u) (1 / 1000)
  let ug ← getGradientEigenpairOf eigh (.ndarray sc.L1l) (1 / 1000)
  pure (⟨uh.num, uh.vecs.transpose.mulVec flow⟩, ⟨uc.num, uc.vecs.transpose.mulVec flow⟩,
    ⟨ug.num, ug.vecs.transpose.mulVec flow⟩)

end SC
end Pytspl
