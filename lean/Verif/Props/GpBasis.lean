import Verif.Props.EveryTolerance
import Verif.Props.GaussianProcess

/-!
# Property C144 for the Gaussian process trainer

`get_eigenpairs` without arguments: the eigenvectors handed to the kernels are a basis on every complex.
-/

namespace Pytspl

open Matrix

variable {lib : NumLib} {sc : SC ℝ}

private theorem eigenpairs_parts {tol : ℝ} {eig : GpEigenpairs sc.E} (h : sc.gpEigenpairs lib tol = .ok eig) :
    EigParts lib sc tol eig.harm eig.curl eig.grad := by
  unfold SC.gpEigenpairs at h
  cases h1 : sc.getComponentEigenpair lib "harmonic" tol with
  | error e => rw [h1] at h; cases h
  | ok a =>
    rw [h1] at h
    cases h2 : sc.getComponentEigenpair lib "gradient" tol with
    | error e => rw [h2] at h; cases h
    | ok b =>
      rw [h2] at h
      cases h3 : sc.getComponentEigenpair lib "curl" tol with
      | error e => rw [h3] at h; cases h
      | ok c =>
        rw [h3] at h
        cases h
        exact ⟨h1, h3, h2⟩

/-- C144: `get_eigenpairs()` of the trainer succeeds on every complex with an edge; the three kinds of eigenvectors are
as many as there are edges, and every flow is the sum of its parts along them. -/
theorem C144_trainer (hw : sc.WellFormed) (hE : 0 < sc.E) :
    ∃ eig, sc.gpEigenpairs lib = .ok eig ∧ eig.harm.num + eig.curl.num + eig.grad.num = sc.E ∧
      ∀ f : Fin sc.E → ℝ, eig.harm.vecs.mulVec (eig.harm.vecs.transpose.mulVec f) +
        eig.curl.vecs.mulVec (eig.curl.vecs.transpose.mulVec f) +
        eig.grad.vecs.mulVec (eig.grad.vecs.transpose.mulVec f) = f := by
  refine ⟨_, gpEigenpairs_eq lib sc hE _, ?_⟩
  have hp := eigenpairs_parts (gpEigenpairs_eq lib sc hE (1 / 1000))
  have hne := default_not_eigenvalue hw.built
  exact ⟨((C144_counts hw _ machineEps_le _ _ _ hp).2).mpr hne, (C144_basis hw _ machineEps_le hne _ _ _ hp).2.2⟩

/-- the path with 2000 edges -/
example : ∃ (lib : NumLib) (sc : SC ℝ) (eig : GpEigenpairs sc.E), sc.E = 2000 ∧ sc.gpEigenpairs lib = .ok eig ∧
    eig.harm.num + eig.curl.num + eig.grad.num = 2000 := by
  obtain ⟨lib⟩ := NumLib.exists
  obtain ⟨sc, hw, -, h2, -⟩ := path_wellFormed 2000
  have hE : sc.E = 2000 := by simp [SC.E, h2, pathEdges]
  obtain ⟨eig, h, hn, -⟩ := C144_trainer (lib := lib) hw (by omega)
  exact ⟨lib, sc, eig, hE, h, hn.trans hE⟩

end Pytspl
