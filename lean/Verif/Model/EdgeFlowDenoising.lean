import Verif.Model.BaseFilter
import Mathlib.LinearAlgebra.Matrix.NonsingularInverse

/-!
# `pytspl/filters/edge_flow_denoising.py`
-/

namespace Pytspl

open Matrix

/-- `np.linalg.inv` (edge_flow_denoising.py:54): `LinAlgError` for a singular matrix. -/
noncomputable def npInv {n : ℕ} (M : Matrix (Fin n) (Fin n) ℝ) : Py (Matrix (Fin n) (Fin n) ℝ) :=
  if M.det = 0 then .error .linAlgError else .ok M⁻¹

/-- What the loop of `denoise` computes for one `mu` (edge_flow_denoising.py:54-62): filter, estimate,
error and frequency response. -/
structure MuPass (E : ℕ) where
  H : Matrix (Fin E) (Fin E) ℝ
  fEst : Fin E → ℝ
  err : Option ℝ
  resp : Fin E → ℝ

/-- edge_flow_denoising.py:54-62, one pass of the loop. -/
noncomputable def muPass {E : ℕ} (P U1 : Matrix (Fin E) (Fin E) ℝ) (f fTrue : Fin E → ℝ) (mu : ℝ) :
    Py (MuPass E) := do
  let H ← npInv (1 + mu • P)
  let fEst := H.mulVec f
  pure ⟨H, fEst, calculateErrorNRMSE fEst fTrue, fun k => (U1.transpose * H * U1) k k⟩

/-- edge_flow_denoising.py:42-65: everything `denoise` computes before `set_history`.  With an empty
list `H` is unbound when `set_history` is called. -/
noncomputable def edgeFlowDesign (lib : NumLib) (sc : SC ℝ) (f fTrue : Fin sc.E → ℝ)
    (pChoice : String) (muVals : List ℝ) : Py (Design sc.E) := do
  let P ← sc.getPMatrix pChoice
  let (U1, _) ← getEigendecomposition lib (.ndarray P)
  let passes ← muVals.mapM (muPass P U1 f fTrue)
  match passes.getLast? with
  | none => .error .unboundLocalError
  | some p => pure ⟨.mat p.H, .vec p.fEst, .rows (passes.map (·.resp)), .errs (passes.map (·.err)),
      .errs []⟩

/-- edge_flow_denoising.py:25-72 `denoise` (no reset of the history). -/
noncomputable def edgeFlowDenoise (lib : NumLib) (sc : SC ℝ) (st : FilterSt sc.E)
    (f fTrue : Fin sc.E → ℝ) (pChoice : String) (muVals : List ℝ := [1 / 2]) :
    Py Unit × FilterSt sc.E :=
  match edgeFlowDesign lib sc f fTrue pChoice muVals with
  | .error e => (.error e, st)
  | .ok d => (.ok (), setHistory st d)

/-- edge_flow_denoising.py:74-96 `plot_desired_frequency_response`: the plotted pairs (eigenvalue,
last frequency response); `KeyError`/`ValueError` when there is none.  The drawing calls are not
modelled. -/
noncomputable def edgeFlowPlotData (lib : NumLib) (sc : SC ℝ) (st : FilterSt sc.E)
    (pChoice : String) : Py (List (ℝ × ℝ)) :=
  match st.history.get? "frequency_responses" with
  | none => .error .keyError
  | some .none => .error .valueError
  | some (.rows r) => do
    let P ← sc.getPMatrix pChoice
    let (_, w) ← getEigendecomposition lib (.ndarray P)
    match r.getLast? with
    | none => .error .indexError
    | some resp => pure (List.ofFn fun k => (w k, resp k))
  | some _ => .error .typeError

end Pytspl
