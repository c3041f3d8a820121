import Verif.Model.TrendFilter
import Verif.Model.PolyFilter
import Verif.Model.EdgeFlowDenoising
import Verif.Model.Chebyshev

/-!
# What the filters print while they run

A line is modelled by the numbers in it; the words around them are constant.  `nan` is `none`.  Lines stay printed when the
call fails later.
-/

namespace Pytspl

open Matrix

/-- `np.round(x, 4)` of a number that may be nan (simplicial_trend_filter.py:256-259). -/
noncomputable def round4 (x : Option ℝ) : Option ℝ := x.map fun v => npRound v 4

/-- A line of the trend filter: the number after `SNR:` or `Ratio:`, the one after `error noisy:` (if any), the error and the
correlation (simplicial_trend_filter.py:255-260, 359-363, 481-485). -/
structure TrendLine where
  label : ℝ
  noisy : Option (Option ℝ)
  error : Option ℝ
  corr : Option ℝ

/-- The results of the rows of a loop that were completed before an exception (simplicial_trend_filter.py:219-260: the line
is printed at the end of each row). -/
def completed {α β : Type} (run : α → Py β) : List α → List β
  | [] => []
  | a :: l =>
    match run a with
    | .error _ => []
    | .ok b => b :: completed run l

namespace SC
variable (sc : SC ℝ)

/-- simplicial_trend_filter.py:202-260: the lines `denoising_l2_regularizer` prints.  `np.mean(errors_noisy[i:,])` (line 257)
is the mean over row `i` and all later rows, which still hold zeros. -/
noncomputable def l2Lines (flow : Fin sc.E → ℝ) (component : String) (numRealizations : ℕ) (snrDb : List ℝ) (mu : ℝ)
    (noise : ℕ → ℕ → Fin sc.E → ℝ) : List TrendLine :=
  match checkComponent component with
  | .error _ => []
  | .ok _ =>
    let powers := (sc.getPowerNoise flow snrDb).1
    let snr := (sc.getPowerNoise flow snrDb).2
    let rows := completed (fun pi : Option ℝ × ℕ => (List.range numRealizations).mapM fun j => do
      let fNoisy := sc.noisyFlow flow pi.1 (noise pi.2 j)
      let errNoisy := calculateErrorNRMSE fNoisy flow
      let H ← npInv (1 + mu • sc.L1l)
      let p ← sc.trendPass component flow (H.mulVec fNoisy)
      pure (errNoisy, p)) powers.zipIdx
    rows.zipIdx.map fun ri =>
      { label := npRound (snr[ri.2]?.getD 0) 4
        noisy := some (round4 (npMean
          (ri.1.map (·.1) ++ List.replicate ((snr.length - (ri.2 + 1)) * numRealizations) (some 0))))
        error := round4 (npMean (ri.1.map (·.2.err)))
        corr := round4 (npMean (ri.1.map (·.2.corr))) }

/-- simplicial_trend_filter.py:305-363: the lines `denoising_l1_regularizer` prints. -/
noncomputable def l1Lines (cvx : CvxSolver) (flow : Fin sc.E → ℝ) (component : String) (numRealizations : ℕ)
    (snrDb : List ℝ) (order : Int) (regularization : ℝ) (noise : ℕ → ℕ → Fin sc.E → ℝ) : List TrendLine :=
  match checkComponent component, sc.getShiftOperator component order with
  | .ok _, .ok S =>
    let powers := (sc.getPowerNoise flow snrDb).1
    let snr := (sc.getPowerNoise flow snrDb).2
    let rows := completed (fun pi : Option ℝ × ℕ => (List.range numRealizations).mapM fun j => do
      let x ← cvxSolve cvx (sc.noisyFlow flow pi.1 (noise pi.2 j)) S.2 regularization []
      sc.trendPass component flow x) powers.zipIdx
    rows.zipIdx.map fun ri =>
      { label := npRound (snr[ri.2]?.getD 0) 4
        noisy := none
        error := round4 (npMean (ri.1.map (·.err)))
        corr := round4 (npMean (ri.1.map (·.corr))) }
  | _, _ => []

/-- simplicial_trend_filter.py:408-485: the lines `interpolation_l1_regularizer` prints. -/
noncomputable def interpolationLines (cvx : CvxSolver) (sampler : Sampler sc.E) (flow : Fin sc.E → ℝ) (component : String)
    (ratio : List ℝ) (numRealizations : ℕ) (order : Int) (regularization : ℝ) : List TrendLine :=
  match checkComponent component, sc.getShiftOperator component order with
  | .ok _, .ok S =>
    let rows := completed (fun ri : ℝ × ℕ => (List.range numRealizations).mapM fun j => do
      let obs ← sc.sampleEdges sampler ri.2 j ri.1
      let x ← cvxSolve cvx (sc.maskFlow flow obs) S.2 regularization obs
      sc.trendPass component flow x) ratio.zipIdx
    rows.zipIdx.map fun ri =>
      { label := ratio[ri.2]?.getD 0
        noisy := none
        error := round4 (npMean (ri.1.map (·.err)))
        corr := round4 (npMean (ri.1.map (·.corr))) }
  | _, _ => []

end SC

/-- A line of the least-squares and grid filters: the number after `Filter size:` and the one after `Error:`
(ls_filter_design.py:78, grid_based_filter_design.py:146). -/
abbrev SizeLine := ℕ × Option ℝ

/-- The lines `_apply_filter` prints (ls_filter_design.py:56-78, grid_based_filter_design.py:125-146): pass `l` prints its
counter and the entry of `errors` it has just set.  When the sizes do not fit, `lstsq` raises in the first pass. -/
noncomputable def applyLines (lib : NumLib) {E : ℕ} (f fTrue : Fin E → ℝ) (P U : Matrix (Fin E) (Fin E) ℝ)
    (eigenvals alpha : List ℝ) (L : Int) : List SizeLine :=
  if alpha.length ≠ eigenvals.length then []
  else
    let ev : Fin eigenvals.length → ℝ := fun i => eigenvals[i]
    let al : Fin eigenvals.length → ℝ := fun i => alpha[(i : ℕ)]?.getD 0
    ((List.finRange L.toNat).foldl (fun (s : LoopSt E eigenvals.length L.toNat × List SizeLine) l =>
      let st := applyStep lib f fTrue P U ev al s.1 l
      (st, s.2 ++ [((l : ℕ), round4 (st.errs[(l : ℕ)]?.getD none))])) (⟨0, none, [], []⟩, [])).2

/-- What a method prints when the part before `_apply_filter` may raise: nothing in that case
(the methods that call ls_filter_design.py:19-82 and grid_based_filter_design.py:88-148). -/
def linesOf {α : Type} (r : Py (List α)) : List α :=
  match r with
  | .error _ => []
  | .ok l => l

namespace LSFilter

/-- ls_filter_design.py:107-123: the lines of `subcomponent_extraction_type_one`. -/
noncomputable def typeOneLines (lib : NumLib) (sc : SC ℝ) (f : Fin sc.E → ℝ) (component : String) (L : Int) :
    List SizeLine :=
  linesOf do
    let (U, eigenvals) ← getEigendecomposition lib (.ndarray sc.L1)
    let fTrue ← sc.getTrueSignal lib f component
    let alpha ← sc.getComponentCoefficients lib component
    pure (applyLines lib f fTrue sc.L1 U (List.ofFn eigenvals) alpha L)

/-- ls_filter_design.py:164-193: the lines of `subcomponent_extraction_type_two`. -/
noncomputable def typeTwoLines (lib : NumLib) (sc : SC ℝ) (f : Fin sc.E → ℝ) (component : String) (L : Int)
    (tolerance : ℝ := 1 / 10 ^ 6) : List SizeLine :=
  linesOf do
    let lap ←
      if component = "gradient" then .ok sc.L1l
      else if component = "curl" then .ok sc.L1u
      else .error .valueError
    let (U, eigenvals) ← getEigendecomposition lib (.ndarray lap)
    let eigenvals := npUnique ((List.ofFn eigenvals).map fun x => if |x| < tolerance then 0 else x)
    let fTrue ← sc.getTrueSignal lib f component
    let alpha := [0] ++ List.replicate (eigenvals.length - 1) 1
    pure (applyLines lib f fTrue lap U eigenvals alpha L)

end LSFilter

namespace GridFilter

/-- grid_based_filter_design.py:168-186: the lines of `denoise`.  With samples that are not finite `lstsq` raises in the
first pass. -/
noncomputable def denoiseLines (lib : NumLib) (sc : SC ℝ) (f fTrue : Fin sc.E → ℝ) (pChoice : String) (L : Int)
    (mu : ℝ := 1 / 2) : List SizeLine :=
  linesOf do
    let P ← sc.getPMatrix pChoice
    let (U, _) ← getEigendecomposition lib (.ndarray P)
    let s ← sampledResponse P sc.E mu
    let data : Option (List ℝ × List ℝ) := do
      let (g, pts) ← s
      let g ← g.mapM id
      pure (pts, g)
    match data with
    | none => pure []
    | some d => pure (applyLines lib f fTrue P U d.1 d.2 L)

/-- grid_based_filter_design.py:223-246: the lines of `subcomponent_extraction`. -/
noncomputable def extractionLines (lib : NumLib) (sc : SC ℝ) (f : Fin sc.E → ℝ) (component : String) (pChoice : String)
    (L : Int) (num : Int := 10) (mu : ℝ := 1 / 2) (cutOff : ℝ := 1 / 100) (steep : ℝ := 100) : List SizeLine :=
  linesOf do
    let P ← sc.getPMatrix pChoice
    let (U, _) ← getEigendecomposition lib (.ndarray P)
    let s ← sampledResponse P num mu
    let fTrue ← sc.getTrueSignal lib f component
    match s with
    | none => pure []
    | some d => pure (applyLines lib f fTrue P U d.2 (d.2.map (logisticFunction cutOff steep)) L)

end GridFilter

/-- The lines `denoise` of the edge-flow filter prints (edge_flow_denoising.py:52-62): the value of `mu` and the error. -/
noncomputable def edgeFlowLines (lib : NumLib) (sc : SC ℝ) (f fTrue : Fin sc.E → ℝ) (pChoice : String)
    (muVals : List ℝ) : List (ℝ × Option ℝ) :=
  match sc.getPMatrix pChoice with
  | .error _ => []
  | .ok P =>
    match getEigendecomposition lib (.ndarray P) with
    | .error _ => []
    | .ok (U1, _) => completed (fun mu => (muPass P U1 f fTrue mu).map fun p => (mu, round4 p.err)) muVals

/-- A line of the Chebyshev filter: the numbers after `Filter size:`, `Error:`, `Filter error:` and `Error response:`
(chebyshev_filter_design.py:257-262). -/
structure ChebLine where
  size : ℕ
  error : Option ℝ
  filterError : Option ℝ
  responseError : Option ℝ

/-- chebyshev_filter_design.py:186-262: the lines `apply` prints in its second loop (line 153 announces the passes of the
first one, without results).  The response of a stored filter is read off in the eigenvectors of the chosen matrix (lines
234-236) and compared with the component's coefficients (238-240). -/
noncomputable def Cheb.applyLines (lib : NumLib) (series : ChebSeries) (sc : SC ℝ) (f : Fin sc.E → ℝ)
    (pChoice : String := "L1L") (component : String := "gradient") (L : ℕ := 10)
    (n : Option ℕ := none) (cutOff : ℝ := 1 / 100) (steep : ℝ := 100) : List ChebLine :=
  linesOf do
    let n := if n.getD 0 = 0 then L else n.getD 0
    let _ ← getEigendecomposition lib (.ndarray sc.L1)
    let P ← sc.getPMatrix pChoice
    let (Ul, _) ← getEigendecomposition lib (.ndarray P)
    let fTrue ← sc.getTrueSignal lib f component
    let hIdeal ← sc.getComponentCoefficients lib component
    let (alpha, lam) ← getAlpha sc pChoice
    let coeffs ← series n 0 lam cutOff steep
    let HIdeal ← getIdealFrequency lib sc hIdeal
    let H ← frequencyApprox sc pChoice coeffs alpha L
    let _ ← if sc.E = 1 ∧ 1 ≤ L then Except.error PyErr.valueError else Except.ok ()
    pure (H.zipIdx.map fun Mk =>
      { size := Mk.2
        error := round4 (calculateErrorNRMSE (Mk.1.mulVec f) fTrue)
        filterError := round4 (some (specNorm (Mk.1 - HIdeal)))
        responseError := round4 (calculateErrorNRMSE (fun k => (Ul.transpose * Mk.1 * Ul) k k)
          fun k : Fin sc.E => hIdeal[(k : ℕ)]?.getD 0) })

end Pytspl
