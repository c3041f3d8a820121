import Verif.Model.BaseFilter

/-!
# `pytspl/filters/chebyshev_filter_design.py`
-/

namespace Pytspl

open Matrix

/-- `chebpy.chebfun(f, domain, n).funs[0].coeffs` (`_get_chebyshev_series`, chebyshev_filter_design.py:19-49, and 211) for the logistic
function with a cut-off and steepness: an external routine of which nothing is assumed. Arguments:
`n`, `domain_min`, `domain_max`, `cut_off_frequency`, `steep`. -/
abbrev ChebSeries := ℕ → ℝ → ℝ → ℝ → ℝ → Py (List ℝ)

namespace Cheb

/-- chebyshev_filter_design.py:77-86, the loop over `k < K` filling slot `k` of the stack from slots
`k-1` and `k-2`; `alpha` is not zero when it is divided by (see `approximate`). -/
noncomputable def slot {E : ℕ} (P : Matrix (Fin E) (Fin E) ℝ) (alpha : ℝ) :
    ℕ → Matrix (Fin E) (Fin E) ℝ
  | 0 => 1
  | 1 => (1 / alpha) • (P - alpha • (1 : Matrix (Fin E) (Fin E) ℝ))
  | k + 2 => ((2 / alpha) • (P - alpha • (1 : Matrix (Fin E) (Fin E) ℝ))) * slot P alpha (k + 1)
      - slot P alpha k

/-- chebyshev_filter_design.py:51-92 `_chebyshev_filter_approximate`.  The product
`coeffs[:, None, None] * H` broadcasts along the first axis when it has length `order` on both sides
or length 1 on one side, and raises `ValueError` otherwise.  Slots `k >= K` are zero.  Dividing by
`alpha = 0` gives non-finite entries (this needs `K >= 2`, and then the product has a result only for
`K = order`).  Simplification: `order` is not negative. -/
noncomputable def approximate {E : ℕ} (P : Matrix (Fin E) (Fin E) ℝ) (coefficients : List ℝ)
    (alpha : ℝ) (order : ℕ) : Py (Matrix (Fin E) (Fin E) ℝ) :=
  let coeffs := coefficients.take order
  let K := coeffs.length
  let H : ℕ → Matrix (Fin E) (Fin E) ℝ := fun k => if k < K then slot P alpha k else 0
  if K = order then
    if 2 ≤ K ∧ alpha = 0 then .error .nonFinite
    else .ok (((List.range order).map fun k => coeffs[k]?.getD 0 • H k).sum)
  else if K = 1 then .ok (((List.range order).map fun k => coeffs[0]?.getD 0 • H k).sum)
  else if order = 1 then .ok (((List.range K).map fun k => coeffs[k]?.getD 0 • H 0).sum)
  else .error .valueError

/-- chebyshev_filter_design.py:94-112 `get_alpha`: `(alpha, lambda_max)`. -/
noncomputable def getAlpha (sc : SC ℝ) (pChoice : String) : Py (ℝ × ℝ) := do
  let P ← sc.getPMatrix pChoice
  match lambdaMax P with
  | none => .error .nonFinite
  | some lam => pure (lam / 2, lam)

/-- chebyshev_filter_design.py:114-127 `get_ideal_frequency`: `U @ diag(c) @ U.T`, `ValueError` if the
sizes differ. -/
noncomputable def getIdealFrequency (lib : NumLib) (sc : SC ℝ) (coeffs : List ℝ) :
    Py (Matrix (Fin sc.E) (Fin sc.E) ℝ) := do
  let P ← sc.getPMatrix "L1"
  let (U, _) ← getEigendecomposition lib (.ndarray P)
  if coeffs.length ≠ sc.E then .error .valueError
  else pure (U * diagonal (fun i : Fin sc.E => coeffs[(i : ℕ)]?.getD 0) * U.transpose)

/-- `H[k-1:] = M` for a stack of `order` matrices (chebyshev_filter_design.py:154): positions `k-1`
and later, only the last one for `k = 0` (the slice starts at `-1`). -/
def assignFrom {E : ℕ} (H : List (Matrix (Fin E) (Fin E) ℝ)) (k : ℕ) (M : Matrix (Fin E) (Fin E) ℝ) :
    List (Matrix (Fin E) (Fin E) ℝ) :=
  let start : ℕ := if k = 0 then H.length - 1 else k - 1
  H.mapIdx fun i X => if start ≤ i then M else X

/-- chebyshev_filter_design.py:129-158 `get_chebyshev_frequency_approx`. -/
noncomputable def frequencyApprox (sc : SC ℝ) (pChoice : String) (coeffs : List ℝ) (alpha : ℝ)
    (order : ℕ) : Py (List (Matrix (Fin sc.E) (Fin sc.E) ℝ)) := do
  let P ← sc.getPMatrix pChoice
  (List.range order).foldlM (fun H k => do
    let M ← approximate P coeffs alpha (k + 1)
    pure (assignFrom H k M)) (List.replicate order 0)

/-- Spectral norm `np.linalg.norm(M, ord=2)` (chebyshev_filter_design.py:241): the largest `|M x|`
over unit vectors. -/
noncomputable def specNorm {E : ℕ} (M : Matrix (Fin E) (Fin E) ℝ) : ℝ :=
  sSup {y | ∃ x : Fin E → ℝ, x ⬝ᵥ x = 1 ∧ y = norm2 (M.mulVec x)}

/-- chebyshev_filter_design.py:160-262: everything `apply` computes before `set_history`.  `n = None`
(or 0) means `n = L`.  For a complex with one edge `np.squeeze` turns each 1 by 1 matrix into a scalar
and the following `@` raises `ValueError`.  The local errors that are only printed are left out.
Simplification: `L` is not negative. -/
noncomputable def applyDesign (lib : NumLib) (series : ChebSeries) (sc : SC ℝ) (f : Fin sc.E → ℝ)
    (pChoice : String := "L1L") (component : String := "gradient") (L : ℕ := 10)
    (n : Option ℕ := none) (cutOff : ℝ := 1 / 100) (steep : ℝ := 100) : Py (Design sc.E) := do
  let n := if n.getD 0 = 0 then L else n.getD 0
  let (U, _) ← getEigendecomposition lib (.ndarray sc.L1)
  let P ← sc.getPMatrix pChoice
  let _ ← getEigendecomposition lib (.ndarray P)
  let fTrue ← sc.getTrueSignal lib f component
  let hIdeal ← sc.getComponentCoefficients lib component
  let (alpha, lam) ← getAlpha sc pChoice
  let coeffs ← series n 0 lam cutOff steep
  let HIdeal ← getIdealFrequency lib sc hIdeal
  let H ← frequencyApprox sc pChoice coeffs alpha L
  let _ ← if sc.E = 1 ∧ 1 ≤ L then Except.error PyErr.valueError else Except.ok ()
  pure
    { filter := .mats H
      fEstimated := .rows (H.map fun M => M.mulVec f)
      frequencyResponses := .rows (H.map fun M => U.transpose.mulVec (M.mulVec f))
      extractedComponentError := .errs (H.map fun M => calculateErrorNRMSE (M.mulVec f) fTrue)
      filterError := .errs (H.map fun M => some (specNorm (M - HIdeal))) }

/-- chebyshev_filter_design.py:160-270 `apply` (no reset of the history). -/
noncomputable def apply (lib : NumLib) (series : ChebSeries) (sc : SC ℝ) (st : FilterSt sc.E)
    (f : Fin sc.E → ℝ) (pChoice : String := "L1L") (component : String := "gradient") (L : ℕ := 10)
    (n : Option ℕ := none) (cutOff : ℝ := 1 / 100) (steep : ℝ := 100) : Py Unit × FilterSt sc.E :=
  match applyDesign lib series sc f pChoice component L n cutOff steep with
  | .error e => (.error e, st)
  | .ok d => (.ok (), setHistory st d)

/-- Calling the object returned by `chebfun` on `[0, lam]` (chebyshev_filter_design.py:314): the sum of its Chebyshev
series at a point, by the three-term recurrence, the domain being mapped to `[-1, 1]`. -/
noncomputable def evalSeries (coeffs : List ℝ) (lam x : ℝ) : ℝ :=
  let t := 2 * x / lam - 1
  let rec T : ℕ → ℝ
    | 0 => 1
    | 1 => t
    | k + 2 => 2 * t * T (k + 1) - T k
  ((List.range coeffs.length).map fun k => coeffs[k]?.getD 0 * T k).sum

/-- chebyshev_filter_design.py:272-318 `plot_chebyshev_series_approx`: the two scatter series (eigenvalue, logistic
function) and (eigenvalue, Chebyshev series).  `n = None` (or 0) means the number of edges.  Figure, title and legend are
not modelled. -/
noncomputable def seriesPlotData (lib : NumLib) (series : ChebSeries) (sc : SC ℝ) (pChoice : String)
    (n : Option ℕ := none) (cutOff : ℝ := 1 / 100) (steep : ℝ := 100) : Py (List (ℝ × ℝ) × List (ℝ × ℝ)) := do
  let P ← sc.getPMatrix pChoice
  let (_, w) ← getEigendecomposition lib (.ndarray P)
  let n := if n.getD 0 = 0 then sc.E else n.getD 0
  let (_, lam) ← getAlpha sc pChoice
  let coeffs ← series n 0 lam cutOff steep
  pure (List.ofFn fun k => (w k, logisticFunction cutOff steep (w k)),
    List.ofFn fun k => (w k, evalSeries coeffs lam (w k)))

/-- chebyshev_filter_design.py:320-371 `plot_frequency_response_approx`: the two scatter series (eigenvalue, coefficient of
the true component) and (eigenvalue, coefficient of the last estimate). -/
noncomputable def responsePlotData (lib : NumLib) (sc : SC ℝ) (st : FilterSt sc.E) (flow : Fin sc.E → ℝ)
    (component : String) : Py (List (ℝ × ℝ) × List (ℝ × ℝ)) :=
  match st.history.get? "frequency_responses" with
  | none => .error .keyError
  | some .none => .error .valueError
  | some (.rows r) => do
    let (U, w) ← getEigendecomposition lib (.ndarray sc.L1)
    let fTrue ← sc.getTrueSignal lib flow component
    match r.getLast? with
    | none => .error .indexError
    | some resp => pure (List.ofFn fun k => (w k, U.transpose.mulVec fTrue k), List.ofFn fun k => (w k, resp k))
  | some _ => .error .typeError

end Cheb
end Pytspl
