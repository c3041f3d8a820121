import Verif.Model.Lstsq
import Verif.Model.PolyFilter

/-!
# The polynomial filter designs with the cut-off of `np.linalg.lstsq`
-/

namespace Pytspl

open Matrix

/-- Pass `l` of the loop of `_apply_filter` (ls_filter_design.py:56-70, grid_based_filter_design.py:125-140) with
the solver's default cut-off (ls_filter_design.py:61, grid_based_filter_design.py:131): columns `0..l` of the system
hold the powers of the frequencies, the others are still zero.  A relation, since numpy's decomposition is not
unique. -/
def FilterPassRcond {E m : ℕ} (P : Matrix (Fin E) (Fin E) ℝ) (f : Fin E → ℝ) (eigenvals alpha : Fin m → ℝ)
    (L l : ℕ) (H : Matrix (Fin E) (Fin E) ℝ) (fEst : Fin E → ℝ) : Prop :=
  ∃ h : Fin L → ℝ,
    LstsqRcond (Matrix.of fun i (j : Fin L) => if (j : ℕ) ≤ l then eigenvals i ^ (j : ℕ) else 0) alpha
      (defaultRcond m L) h ∧
    H = buildFilter P h ∧ fEst = H.mulVec f

/-- ls_filter_design.py:164-193: the filter and the estimate which `subcomponent_extraction_type_two` stores for a
positive size `L`, with the cut-off.  (The eigenvalues and the other steps as in `LSFilter.typeTwoDesign`.) -/
def LSFilter.TypeTwoRcond (lib : NumLib) (sc : SC ℝ) (f : Fin sc.E → ℝ) (component : String) (L : ℕ)
    (tolerance : ℝ) (H : Matrix (Fin sc.E) (Fin sc.E) ℝ) (fEst : Fin sc.E → ℝ) : Prop :=
  ∃ lap U w, (component = "gradient" ∧ lap = sc.L1l ∨ component = "curl" ∧ lap = sc.L1u) ∧
    getEigendecomposition lib (.ndarray lap) = .ok (U, w) ∧
    let eigenvals := npUnique ((List.ofFn w).map fun x => if |x| < tolerance then 0 else x)
    let alpha : List ℝ := [0] ++ List.replicate (eigenvals.length - 1) 1
    FilterPassRcond lap f (fun i : Fin eigenvals.length => eigenvals[i]) (fun i => alpha[(i : ℕ)]?.getD 0) L (L - 1)
      H fEst

/-- ls_filter_design.py:107-123: the filter and the estimate which `subcomponent_extraction_type_one` stores for a positive
size `L`, with the cut-off.  (The eigenvalues and the other steps as in `LSFilter.typeOneDesign`.) -/
def LSFilter.TypeOneRcond (lib : NumLib) (sc : SC ℝ) (f : Fin sc.E → ℝ) (component : String) (L : ℕ)
    (H : Matrix (Fin sc.E) (Fin sc.E) ℝ) (fEst : Fin sc.E → ℝ) : Prop :=
  ∃ U w alpha, getEigendecomposition lib (.ndarray sc.L1) = .ok (U, w) ∧
    sc.getComponentCoefficients lib component = .ok alpha ∧ alpha.length = sc.E ∧
    FilterPassRcond sc.L1 f w (fun i => alpha[(i : ℕ)]?.getD 0) L (L - 1) H fEst

/-- grid_based_filter_design.py:168-186: the filter and the estimate which `denoise` stores for a positive size `L`, with the
cut-off.  (The sampled frequencies and targets as in `GridFilter.denoiseDesign`.) -/
def GridFilter.DenoiseRcond (sc : SC ℝ) (f : Fin sc.E → ℝ) (pChoice : String) (L : ℕ) (mu : ℝ)
    (H : Matrix (Fin sc.E) (Fin sc.E) ℝ) (fEst : Fin sc.E → ℝ) : Prop :=
  ∃ P resp, ∃ pts g : List ℝ, sc.getPMatrix pChoice = .ok P ∧ GridFilter.sampledResponse P sc.E mu = .ok (some (resp, pts)) ∧
    resp = g.map some ∧
    FilterPassRcond P f (fun i : Fin pts.length => pts[i]) (fun i => g[(i : ℕ)]?.getD 0) L (L - 1) H fEst

end Pytspl
