import Verif.Model.BaseFilter
import Mathlib.Data.Finset.Sort
import Mathlib.Order.RelClasses

/-!
# `pytspl/filters/ls_filter_design.py` and `pytspl/filters/grid_based_filter_design.py`

Methods that touch `self.history` take the object state and return the outcome with the new state;
the state reached before an exception is kept.
-/

namespace Pytspl

open Matrix

/-- Local variables of the loop of `_apply_filter`: the system matrix, the filter and estimate of the
last pass (unbound before the first one) and the rows filled so far
(ls_filter_design.py:49-76, grid_based_filter_design.py:118-144). -/
structure LoopSt (E m L : ℕ) where
  sys : Matrix (Fin m) (Fin L) ℝ
  out : Option (Matrix (Fin E) (Fin E) ℝ × (Fin E → ℝ))
  resp : List (Fin E → ℝ)
  errs : List (Option ℝ)

/-- `H = zeros; for i in range(len(h)): H += h[i] * P**i` (ls_filter_design.py:64-67,
grid_based_filter_design.py:134-137; `**` on a csr matrix is the matrix power). -/
noncomputable def buildFilter {E L : ℕ} (P : Matrix (Fin E) (Fin E) ℝ) (h : Fin L → ℝ) :
    Matrix (Fin E) (Fin E) ℝ :=
  (List.finRange L).foldl (fun H i => H + h i • P ^ (i : ℕ)) 0

/-- One pass of the loop (ls_filter_design.py:56-78, grid_based_filter_design.py:125-146). -/
noncomputable def applyStep (lib : NumLib) {E m L : ℕ} (f fTrue : Fin E → ℝ)
    (P U : Matrix (Fin E) (Fin E) ℝ) (eigenvals alpha : Fin m → ℝ) (st : LoopSt E m L) (l : Fin L) :
    LoopSt E m L :=
  let sys : Matrix (Fin m) (Fin L) ℝ :=
    Matrix.of fun i j => if j = l then eigenvals i ^ (l : ℕ) else st.sys i j
  let h := lib.lstsq m L sys alpha
  let H := buildFilter P h
  let fEst := H.mulVec f
  { sys := sys
    out := some (H, fEst)
    resp := st.resp ++ [fun k => (U.transpose * H * U) k k]
    errs := st.errs ++ [calculateErrorNRMSE fEst fTrue] }

/-- Result of `_apply_filter` (ls_filter_design.py:82, grid_based_filter_design.py:148). -/
structure Applied (E : ℕ) where
  H : Matrix (Fin E) (Fin E) ℝ
  fEst : Fin E → ℝ
  resp : List (Fin E → ℝ)
  errs : List (Option ℝ)

/-- The `set_history` arguments of both designs (ls_filter_design.py:126-132,
grid_based_filter_design.py:188-194); `filter_error` is the default empty array. -/
def Applied.design {E : ℕ} (a : Applied E) : Design E :=
  ⟨.mat a.H, .vec a.fEst, .rows a.resp, .errs a.errs, .errs []⟩

/-- `_apply_filter` of both classes (ls_filter_design.py:19-82, grid_based_filter_design.py:88-148;
the two bodies are the same).  A negative size raises `ValueError` in `np.zeros`, size 0 leaves `H`
unbound, and `lstsq` raises `LinAlgError` when the number of targets differs from the number of
frequencies. -/
noncomputable def applyFilter (lib : NumLib) {E : ℕ} (f fTrue : Fin E → ℝ)
    (P U : Matrix (Fin E) (Fin E) ℝ) (eigenvals alpha : List ℝ) (L : Int) : Py (Applied E) :=
  if L < 0 then .error .valueError
  else if L = 0 then .error .unboundLocalError
  else if alpha.length ≠ eigenvals.length then .error .linAlgError
  else
    let ev : Fin eigenvals.length → ℝ := fun i => eigenvals[i]
    let al : Fin eigenvals.length → ℝ := fun i => alpha[(i : ℕ)]?.getD 0
    let st := (List.finRange L.toNat).foldl (applyStep lib f fTrue P U ev al) ⟨0, none, [], []⟩
    match st.out with
    | none => .error .unboundLocalError
    | some (H, fEst) => .ok ⟨H, fEst, st.resp, st.errs⟩

/-- `np.unique`: the sorted distinct values (ls_filter_design.py:176). -/
noncomputable def npUnique (l : List ℝ) : List ℝ := l.toFinset.sort (· ≤ ·)

/-- Run the part of a method after `_reset_history` (or the whole of a method without a reset) and
record the design: an exception leaves the state as it is (e.g. ls_filter_design.py:84-132). -/
def recordDesign {E : ℕ} (st : FilterSt E) (r : Py (Applied E)) : Py Unit × FilterSt E :=
  match r with
  | .error e => (.error e, st)
  | .ok a => (.ok (), setHistory st a.design)

namespace LSFilter

/-- ls_filter_design.py:107-123: what `subcomponent_extraction_type_one` computes after the reset. -/
noncomputable def typeOneDesign (lib : NumLib) (sc : SC ℝ) (f : Fin sc.E → ℝ) (component : String)
    (L : Int) : Py (Applied sc.E) := do
  let (U, eigenvals) ← getEigendecomposition lib (.ndarray sc.L1)
  let fTrue ← sc.getTrueSignal lib f component
  let alpha ← sc.getComponentCoefficients lib component
  applyFilter lib f fTrue sc.L1 U (List.ofFn eigenvals) alpha L

/-- ls_filter_design.py:84-132 `subcomponent_extraction_type_one`. -/
noncomputable def typeOne (lib : NumLib) (sc : SC ℝ) (st : FilterSt sc.E) (f : Fin sc.E → ℝ)
    (component : String) (L : Int) : Py Unit × FilterSt sc.E :=
  recordDesign (resetHistory st) (typeOneDesign lib sc f component L)

/-- ls_filter_design.py:164-193: what `subcomponent_extraction_type_two` computes after the reset. -/
noncomputable def typeTwoDesign (lib : NumLib) (sc : SC ℝ) (f : Fin sc.E → ℝ) (component : String)
    (L : Int) (tolerance : ℝ := 1 / 10 ^ 6) : Py (Applied sc.E) := do
  let lap ←
    if component = "gradient" then .ok sc.L1l
    else if component = "curl" then .ok sc.L1u
    else .error .valueError
  let (U, eigenvals) ← getEigendecomposition lib (.ndarray lap)
  let eigenvals := npUnique ((List.ofFn eigenvals).map fun x => if |x| < tolerance then 0 else x)
  let fTrue ← sc.getTrueSignal lib f component
  let alpha : List ℝ := [0] ++ List.replicate (eigenvals.length - 1) 1
  applyFilter lib f fTrue lap U eigenvals alpha L

/-- ls_filter_design.py:134-201 `subcomponent_extraction_type_two`. -/
noncomputable def typeTwo (lib : NumLib) (sc : SC ℝ) (st : FilterSt sc.E) (f : Fin sc.E → ℝ)
    (component : String) (L : Int) (tolerance : ℝ := 1 / 10 ^ 6) : Py Unit × FilterSt sc.E :=
  recordDesign (resetHistory st) (typeTwoDesign lib sc f component L tolerance)

end LSFilter

/-- `f_est = self.history["f_estimated"]` used as a flow (ls_filter_design.py:242,
grid_based_filter_design.py:287): `KeyError` without the key, `TypeError` when the entry is not an
array (both unreachable right after a design). -/
def readEstimate {E : ℕ} (st : FilterSt E) : Py (Fin E → ℝ) :=
  match st.history.get? "f_estimated" with
  | some (.vec v) => .ok v
  | some _ => .error .typeError
  | none => .error .keyError

/-- One branch of `general_filter` (ls_filter_design.py:235-243 and 246-254,
grid_based_filter_design.py:283-288 and 291-296): `if size > 0:` run the design, read its estimate and
store `self.history` (the reference) under `key` of the dictionary at address `hist`.  Simplification:
a skipped component is the zero flow (the code returns the integer 0, which broadcasts). -/
def generalBranch {E : ℕ} (hist : ℕ) (key : String) (size : Int)
    (run : FilterSt E → Py Unit × FilterSt E) (st : FilterSt E) : Py (Fin E → ℝ) × FilterSt E :=
  if 0 < size then
    match run st with
    | (.error e, st) => (.error e, st)
    | (.ok (), st) =>
      match readEstimate st with
      | .error e => (.error e, st)
      | .ok v => (.ok v, st.setKey hist key (.ref st.cur))
  else (.ok 0, st)

/-- The common body of both `general_filter` methods after the optional reset (ls_filter_design.py:
227-262, grid_based_filter_design.py:275-304), for the gradient design `runG` and the curl design
`runC`.  Returns (harmonic, curl, gradient). -/
def generalFilter {E : ℕ} (f : Fin E → ℝ) (L1 L2 : Int)
    (runG runC : FilterSt E → Py Unit × FilterSt E) (st : FilterSt E) :
    Py ((Fin E → ℝ) × (Fin E → ℝ) × (Fin E → ℝ)) × FilterSt E :=
  let (hist, st) := st.alloc [("L1", .none), ("L2", .none)]
  match generalBranch hist "L1" L1 runG st with
  | (.error e, st) => (.error e, st)
  | (.ok g, st) =>
    match generalBranch hist "L2" L2 runC st with
    | (.error e, st) => (.error e, st)
    | (.ok c, st) => (.ok (f - g - c, c, g), { st with cur := hist })

/-- ls_filter_design.py:203-262 `LSFilterDesign.general_filter`. -/
noncomputable def LSFilter.generalFilter (lib : NumLib) (sc : SC ℝ) (st : FilterSt sc.E)
    (f : Fin sc.E → ℝ) (L1 L2 : Int) (tolerance : ℝ := 1 / 1000) :
    Py ((Fin sc.E → ℝ) × (Fin sc.E → ℝ) × (Fin sc.E → ℝ)) × FilterSt sc.E :=
  Pytspl.generalFilter f L1 L2 (fun st => typeTwo lib sc st f "gradient" L1 tolerance)
    (fun st => typeTwo lib sc st f "curl" L2 tolerance) (resetHistory st)

namespace GridFilter

/-- `np.linspace(0, stop, n)`: `i * (stop / (n-1))`, the single point 0 for `n = 1`, `ValueError` for
negative `n` (grid_based_filter_design.py:41). -/
noncomputable def linspace0 (stop : ℝ) (n : Int) : Py (List ℝ) :=
  if n < 0 then .error .valueError
  else .ok ((List.range n.toNat).map fun i : ℕ => (i : ℝ) * (stop / ((n.toNat : ℝ) - 1)))

/-- grid_based_filter_design.py:23-41 `_sample_grid_points`; `none` when the estimated largest
eigenvalue is not finite (then all but the first of the points are nan). -/
noncomputable def sampleGridPoints {n : ℕ} (P : Matrix (Fin n) (Fin n) ℝ) (num : Int) :
    Py (Option (List ℝ)) :=
  if num < 0 then .error .valueError
  else match lambdaMax P with
    | none => .ok none
    | some lam => do
      let pts ← linspace0 lam num
      pure (some pts)

/-- grid_based_filter_design.py:43-58 `_compute_frequency_response_hp`. -/
noncomputable def frequencyResponseHp (eigenvalue : ℝ) (mu : ℝ := 1 / 2) : Option ℝ :=
  fdiv 1 (1 + mu * eigenvalue)

/-- grid_based_filter_design.py:60-86 `_compute_sampled_continuous_freq_response`. -/
noncomputable def sampledResponse {n : ℕ} (P : Matrix (Fin n) (Fin n) ℝ) (num : Int)
    (mu : ℝ := 1 / 2) : Py (Option (List (Option ℝ) × List ℝ)) := do
  let s ← sampleGridPoints P num
  pure (s.map fun pts => (pts.map fun x => frequencyResponseHp x mu, pts))

/-- `_apply_filter` with targets or frequencies that may be inf/nan: no pass is made when `L <= 0`;
otherwise `lstsq` is handed a non-finite array (ls_filter_design.py:56-61, grid_based_filter_design.py:125-131). -/
noncomputable def applyFilterF (lib : NumLib) {E : ℕ} (f fTrue : Fin E → ℝ)
    (P U : Matrix (Fin E) (Fin E) ℝ) (data : Option (List ℝ × List ℝ)) (L : Int) : Py (Applied E) :=
  match data with
  | some (eigenvals, alpha) => applyFilter lib f fTrue P U eigenvals alpha L
  | none => if L < 0 then .error .valueError
      else if L = 0 then .error .unboundLocalError else .error .nonFinite

/-- grid_based_filter_design.py:168-186: what `denoise` computes (`num_of_samples = len(f_true)`). -/
noncomputable def denoiseDesign (lib : NumLib) (sc : SC ℝ) (f fTrue : Fin sc.E → ℝ)
    (pChoice : String) (L : Int) (mu : ℝ := 1 / 2) : Py (Applied sc.E) := do
  let P ← sc.getPMatrix pChoice
  let (U, _) ← getEigendecomposition lib (.ndarray P)
  let s ← sampledResponse P sc.E mu
  let data : Option (List ℝ × List ℝ) := do
    let (g, pts) ← s
    let g ← g.mapM id
    pure (pts, g)
  applyFilterF lib f fTrue P U data L

/-- grid_based_filter_design.py:150-194 `denoise` (no reset of the history). -/
noncomputable def denoise (lib : NumLib) (sc : SC ℝ) (st : FilterSt sc.E) (f fTrue : Fin sc.E → ℝ)
    (pChoice : String) (L : Int) (mu : ℝ := 1 / 2) : Py Unit × FilterSt sc.E :=
  recordDesign st (denoiseDesign lib sc f fTrue pChoice L mu)

/-- grid_based_filter_design.py:223-246: what `subcomponent_extraction` computes. -/
noncomputable def extractionDesign (lib : NumLib) (sc : SC ℝ) (f : Fin sc.E → ℝ) (component : String)
    (pChoice : String) (L : Int) (num : Int := 10) (mu : ℝ := 1 / 2) (cutOff : ℝ := 1 / 100)
    (steep : ℝ := 100) : Py (Applied sc.E) := do
  let P ← sc.getPMatrix pChoice
  let (U, _) ← getEigendecomposition lib (.ndarray P)
  let s ← sampledResponse P num mu
  let fTrue ← sc.getTrueSignal lib f component
  applyFilterF lib f fTrue P U (s.map fun d => (d.2, d.2.map (logisticFunction cutOff steep))) L

/-- grid_based_filter_design.py:196-254 `subcomponent_extraction` (no reset of the history). -/
noncomputable def subcomponentExtraction (lib : NumLib) (sc : SC ℝ) (st : FilterSt sc.E)
    (f : Fin sc.E → ℝ) (component : String) (pChoice : String) (L : Int) (num : Int := 10)
    (mu : ℝ := 1 / 2) (cutOff : ℝ := 1 / 100) (steep : ℝ := 100) : Py Unit × FilterSt sc.E :=
  recordDesign st (extractionDesign lib sc f component pChoice L num mu cutOff steep)

/-- grid_based_filter_design.py:256-304 `GridBasedFilterDesign.general_filter`. -/
noncomputable def generalFilter (lib : NumLib) (sc : SC ℝ) (st : FilterSt sc.E)
    (f : Fin sc.E → ℝ) (L1 L2 : Int) :
    Py ((Fin sc.E → ℝ) × (Fin sc.E → ℝ) × (Fin sc.E → ℝ)) × FilterSt sc.E :=
  Pytspl.generalFilter f L1 L2 (fun st => subcomponentExtraction lib sc st f "gradient" "L1L" L1)
    (fun st => subcomponentExtraction lib sc st f "curl" "L1U" L2) st

end GridFilter
end Pytspl
