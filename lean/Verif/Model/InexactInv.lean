import Verif.Model.TrendFilter

/-!
# The filters with a matrix inverse over an arbitrary inversion routine

`Model/EdgeFlowDenoising.lean` and `Model/TrendFilter.lean` use the exact inverse.  Here the same functions are given
over any function in place of `np.linalg.inv`, so that inverses with rounding errors can be spoken about; `C140_exact`
shows that they are the same functions when the inverse is exact.
-/

namespace Pytspl

open Matrix

/-- `np.linalg.inv` (edge_flow_denoising.py:54, simplicial_trend_filter.py:235), with nothing assumed about it. -/
abbrev RawInv := ∀ n : ℕ, Matrix (Fin n) (Fin n) ℝ → Py (Matrix (Fin n) (Fin n) ℝ)

/-- edge_flow_denoising.py:54-62, one pass of the loop, over any inversion routine. -/
noncomputable def muPassOf (inv : RawInv) {E : ℕ} (P U1 : Matrix (Fin E) (Fin E) ℝ) (f fTrue : Fin E → ℝ) (mu : ℝ) :
    Py (MuPass E) := do
  let H ← inv E (1 + mu • P)
  let fEst := H.mulVec f
  pure ⟨H, fEst, calculateErrorNRMSE fEst fTrue, fun k => (U1.transpose * H * U1) k k⟩

/-- edge_flow_denoising.py:42-65 over any inversion routine. -/
noncomputable def edgeFlowDesignOf (inv : RawInv) (lib : NumLib) (sc : SC ℝ) (f fTrue : Fin sc.E → ℝ)
    (pChoice : String) (muVals : List ℝ) : Py (Design sc.E) := do
  let P ← sc.getPMatrix pChoice
  let (U1, _) ← getEigendecomposition lib (.ndarray P)
  let passes ← muVals.mapM (muPassOf inv P U1 f fTrue)
  match passes.getLast? with
  | none => .error .unboundLocalError
  | some p => pure ⟨.mat p.H, .vec p.fEst, .rows (passes.map (·.resp)), .errs (passes.map (·.err)),
      .errs []⟩

/-- edge_flow_denoising.py:25-72 `denoise` over any inversion routine. -/
noncomputable def edgeFlowDenoiseOf (inv : RawInv) (lib : NumLib) (sc : SC ℝ) (st : FilterSt sc.E)
    (f fTrue : Fin sc.E → ℝ) (pChoice : String) (muVals : List ℝ := [1 / 2]) :
    Py Unit × FilterSt sc.E :=
  match edgeFlowDesignOf inv lib sc f fTrue pChoice muVals with
  | .error e => (.error e, st)
  | .ok d => (.ok (), setHistory st d)

namespace SC

/-- simplicial_trend_filter.py:178-264 over any inversion routine. -/
noncomputable def l2DesignOf (inv : RawInv) (sc : SC ℝ) (flow : Fin sc.E → ℝ) (component : String)
    (numRealizations : ℕ) (snrDb : List ℝ) (mu : ℝ) (noise : ℕ → ℕ → Fin sc.E → ℝ) : Py (TrendHistory sc.E) := do
  let _ ← checkComponent component
  let powers := (sc.getPowerNoise flow snrDb).1
  let grid ← powers.zipIdx.mapM fun pi => (List.range numRealizations).mapM fun j => do
    let H ← inv sc.E (1 + mu • sc.L1l)
    let p ← sc.trendPass component flow (H.mulVec (sc.noisyFlow flow pi.1 (noise pi.2 j)))
    pure (H, p)
  match grid.flatten.getLast? with
  | none => .error .unboundLocalError
  | some last => pure (sc.trendHistory (some last.1) (grid.map fun row => row.map (·.2)))

/-- simplicial_trend_filter.py:178-272 `denoising_l2_regularizer` over any inversion routine. -/
noncomputable def denoisingL2Of (inv : RawInv) (sc : SC ℝ) (st : TrendHistory sc.E) (flow : Fin sc.E → ℝ)
    (component : String) (numRealizations : ℕ) (snrDb : List ℝ) (mu : ℝ) (noise : ℕ → ℕ → Fin sc.E → ℝ) :
    Py Unit × TrendHistory sc.E :=
  commitHistory st (sc.l2DesignOf inv flow component numRealizations snrDb mu noise)

end SC
end Pytspl
