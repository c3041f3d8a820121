import Verif.Model.EdgeFlowDenoising
import Verif.Model.FloatArith
import Mathlib.Analysis.SpecialFunctions.Pow.Real

/-!
# `pytspl/filters/simplicial_trend_filter.py`

Random numbers are arguments: `noise i j` is what `np.random.randn` returns in pass `(i, j)`, and a
`Sampler` stands for `np.random.choice(.., replace=False)`.  The convex solver is an oracle with the
contract of the problem handed to cvxpy.
-/

namespace Pytspl

open Matrix

/-- `cp.norm(v, p=1)` (simplicial_trend_filter.py:81). -/
noncomputable def norm1 {n : ℕ} (v : Fin n → ℝ) : ℝ := ∑ i, |v i|

/-- The objective handed to cvxpy (simplicial_trend_filter.py:78-82 and 451-454). -/
noncomputable def stfObjective {m n : ℕ} (y : Fin n → ℝ) (S : Matrix (Fin m) (Fin n) ℝ) (mu : ℝ)
    (x : Fin n → ℝ) : ℝ :=
  norm2 (y - x) + mu * norm1 (S.mulVec x)

/-- The convex solver (cvxpy `Problem.solve`; `_solver`, simplicial_trend_filter.py:69-85, and 458-459): for a
non-negative weight it returns a minimiser of the objective among the vectors that agree with `y` on
the positions in `obs` (no positions: the unconstrained problem).  Simplification: the minimiser is
exact and the solver never gives up; versions of cvxpy that reject arrays without entries (no sampled
edge, no triangle) are not modelled. -/
structure CvxSolver where
  argmin : ∀ (m n : ℕ) (_y : Fin n → ℝ) (_S : Matrix (Fin m) (Fin n) ℝ) (_mu : ℝ)
    (_obs : List (Fin n)), Fin n → ℝ
  feasible : ∀ (m n : ℕ) (y : Fin n → ℝ) (S : Matrix (Fin m) (Fin n) ℝ) (mu : ℝ)
    (obs : List (Fin n)), 0 ≤ mu → ∀ i ∈ obs, argmin m n y S mu obs i = y i
  minimal : ∀ (m n : ℕ) (y : Fin n → ℝ) (S : Matrix (Fin m) (Fin n) ℝ) (mu : ℝ)
    (obs : List (Fin n)), 0 ≤ mu → ∀ x : Fin n → ℝ, (∀ i ∈ obs, x i = y i) →
      stfObjective y S mu (argmin m n y S mu obs) ≤ stfObjective y S mu x

/-- `prob.solve()`: a negative weight makes the objective non-convex, which cvxpy rejects with
`DCPError` (simplicial_trend_filter.py:83-84). -/
noncomputable def cvxSolve (cvx : CvxSolver) {m n : ℕ} (y : Fin n → ℝ) (S : Matrix (Fin m) (Fin n) ℝ)
    (mu : ℝ) (obs : List (Fin n)) : Py (Fin n → ℝ) :=
  if mu < 0 then .error .dcpError else .ok (cvx.argmin m n y S mu obs)

/-- `np.random.choice(E, M, replace=False)` in pass `(i, j)` (simplicial_trend_filter.py:436): `M`
distinct positions; `R` is the rounding of the product `num_edges * r` (line 430). -/
structure Sampler (E : ℕ) where
  R : Rounding
  pick : ℕ → ℕ → ℕ → List (Fin E)
  nodup : ∀ i j M, (pick i j M).Nodup
  length : ∀ i j M, M ≤ E → (pick i j M).length = M

/-- The history dictionary (simplicial_trend_filter.py:22-40 `__init__`); all entries are `None` at first. -/
structure TrendHistory (E : ℕ) where
  filter : Option (Matrix (Fin E) (Fin E) ℝ) := none
  frequencyResponses : Option (List (List (Fin E → ℝ))) := none
  componentFlow : Option (List (Option ℝ)) := none
  errors : Option (List (Option ℝ)) := none
  correlations : Option (List (Option ℝ)) := none

/-- Results of one pass `(i, j)` of the loops: stored flow, error, norm of the component,
correlation (simplicial_trend_filter.py:236-253). -/
structure TrendPass (E : ℕ) where
  x : Fin E → ℝ
  err : Option ℝ
  comp : ℝ
  corr : Option ℝ

/-- `np.mean` (simplicial_trend_filter.py:262-264): nan for an empty array or one with a nan. -/
noncomputable def npMean (l : List (Option ℝ)) : Option ℝ := do
  let v ← l.mapM id
  fdiv v.sum v.length

/-- mean of the entries of a vector (inside `np.corrcoef`, simplicial_trend_filter.py:90) -/
noncomputable def meanVec {n : ℕ} (a : Fin n → ℝ) : ℝ := (∑ i, a i) / n

/-- simplicial_trend_filter.py:87-91 `_calculate_correlation`: `np.corrcoef(A, B)[0, 1]`; nan when one
of the vectors has no variance.  Simplification: numpy divides covariances by `n - 1` first and
clips rounding errors. -/
noncomputable def calculateCorrelation {n : ℕ} (a b : Fin n → ℝ) : Option ℝ :=
  let a' : Fin n → ℝ := fun i => a i - meanVec a
  let b' : Fin n → ℝ := fun i => b i - meanVec b
  fdiv (a' ⬝ᵥ b') (norm2 a' * norm2 b')

/-- simplicial_trend_filter.py:93-96 `_calculate_snr`. -/
noncomputable def calculateSnr (snrDb : ℝ) : ℝ := (10 : ℝ) ^ (snrDb / 10)

namespace SC
variable (sc : SC ℝ)

/-- simplicial_trend_filter.py:98-116 `get_power_noise`: noise powers and signal to noise ratios. -/
noncomputable def getPowerNoise (flow : Fin sc.E → ℝ) (snrDb : List ℝ) :
    List (Option ℝ) × List ℝ :=
  let snr := snrDb.map calculateSnr
  (snr.map fun s => fdiv (norm2 flow / s) sc.E, snr)

/-- simplicial_trend_filter.py:118-176 `get_shift_operator`; `csr_matrix ** k` is the matrix power. -/
noncomputable def getShiftOperator (component : String) (order : Int) :
    Py ((m : ℕ) × Matrix (Fin m) (Fin sc.E) ℝ) :=
  if order < 0 then .error .valueError
  else if component = "divergence" then
    if order = 0 then .ok ⟨sc.N, sc.B1⟩
    else if order % 2 = 0 then .ok ⟨sc.N, sc.B1 * sc.L1l ^ (order / 2).toNat⟩
    else .ok ⟨sc.E, sc.L1l ^ ((order + 1) / 2).toNat⟩
  else
    if order = 0 then .ok ⟨sc.T, sc.B2.transpose⟩
    else if order % 2 = 0 then .ok ⟨sc.T, sc.B2.transpose * sc.L1u ^ (order / 2).toNat⟩
    else .ok ⟨sc.E, sc.L1u ^ ((order + 1) / 2).toNat⟩

/-- simplicial_trend_filter.py:37-40 and 244-248: norm of `self.components[component](flow=x)`. -/
noncomputable def componentNorm (component : String) (x : Fin sc.E → ℝ) : Py ℝ :=
  if component = "divergence" then .ok (norm2 (sc.getDivergence x))
  else if component = "curl" then .ok (norm2 (sc.getCurl x))
  else .error .keyError

/-- simplicial_trend_filter.py:202-205, 304-307, 407-410: the check at the start of every method. -/
def checkComponent (component : String) : Py Unit :=
  if component ∉ ["divergence", "curl"] then .error .valueError else .ok ()

/-- simplicial_trend_filter.py:236-253, 340-357, 461-479: what is stored for one pass. -/
noncomputable def trendPass (component : String) (flow x : Fin sc.E → ℝ) : Py (TrendPass sc.E) := do
  let comp ← sc.componentNorm component x
  pure ⟨x, calculateErrorNRMSE x flow, comp, calculateCorrelation flow x⟩

/-- simplicial_trend_filter.py:262-272 (and the same lines of the other methods): means over the
realisations and what `set_history` (simplicial_trend_filter.py:42-66) stores; `filter` as given. -/
noncomputable def trendHistory (filter : Option (Matrix (Fin sc.E) (Fin sc.E) ℝ))
    (grid : List (List (TrendPass sc.E))) : TrendHistory sc.E where
  filter := filter
  frequencyResponses := some (grid.map fun row => row.map (·.x))
  componentFlow := some (grid.map fun row => npMean (row.map fun p => some p.comp))
  errors := some (grid.map fun row => npMean (row.map (·.err)))
  correlations := some (grid.map fun row => npMean (row.map (·.corr)))

/-- simplicial_trend_filter.py:226-229 `flow + power_noise[i] * random_noise`; a nan power occurs for
complexes without edges only, where the noise is empty. -/
noncomputable def noisyFlow (flow : Fin sc.E → ℝ) (power : Option ℝ) (noise : Fin sc.E → ℝ) :
    Fin sc.E → ℝ :=
  flow + power.getD 0 • noise

/-- simplicial_trend_filter.py:178-264: everything `denoising_l2_regularizer` computes before
`set_history`.  With no pass at all `H` is unbound. -/
noncomputable def l2Design (flow : Fin sc.E → ℝ) (component : String) (numRealizations : ℕ)
    (snrDb : List ℝ) (mu : ℝ) (noise : ℕ → ℕ → Fin sc.E → ℝ) : Py (TrendHistory sc.E) := do
  let _ ← checkComponent component
  let powers := (sc.getPowerNoise flow snrDb).1
  let grid ← powers.zipIdx.mapM fun pi => (List.range numRealizations).mapM fun j => do
    let H ← npInv (1 + mu • sc.L1l)
    let p ← sc.trendPass component flow (H.mulVec (sc.noisyFlow flow pi.1 (noise pi.2 j)))
    pure (H, p)
  match grid.flatten.getLast? with
  | none => .error .unboundLocalError
  | some last => pure (sc.trendHistory (some last.1) (grid.map fun row => row.map (·.2)))

/-- simplicial_trend_filter.py:274-367: what `denoising_l1_regularizer` computes. -/
noncomputable def l1Design (cvx : CvxSolver) (flow : Fin sc.E → ℝ) (component : String)
    (numRealizations : ℕ) (snrDb : List ℝ) (order : Int) (regularization : ℝ)
    (noise : ℕ → ℕ → Fin sc.E → ℝ) : Py (TrendHistory sc.E) := do
  let _ ← checkComponent component
  let S ← sc.getShiftOperator component order
  let powers := (sc.getPowerNoise flow snrDb).1
  let grid ← powers.zipIdx.mapM fun pi => (List.range numRealizations).mapM fun j => do
    let x ← cvxSolve cvx (sc.noisyFlow flow pi.1 (noise pi.2 j)) S.2 regularization []
    sc.trendPass component flow x
  pure (sc.trendHistory none grid)

/-- simplicial_trend_filter.py:430-442, 456: the sampled positions and the flow restricted to them;
`np.random.choice` raises `ValueError` for more samples than edges or a negative number. -/
noncomputable def sampleEdges (sampler : Sampler sc.E) (i j : ℕ) (r : ℝ) : Py (List (Fin sc.E)) :=
  let M : Int := ⌊sampler.R.rnd ((sc.E : ℝ) * r)⌋
  if M < 0 ∨ (sc.E : Int) < M then .error .valueError else .ok (sampler.pick i j M.toNat)

/-- `flow * mask` (simplicial_trend_filter.py:445). -/
noncomputable def maskFlow (flow : Fin sc.E → ℝ) (obs : List (Fin sc.E)) : Fin sc.E → ℝ :=
  fun i => if i ∈ obs then flow i else 0

/-- simplicial_trend_filter.py:378-489: what `interpolation_l1_regularizer` computes.  The constraint
`sampling_matrix @ x == sampling_matrix @ f_in` says that `x` agrees with `f_in` on the sampled
positions. -/
noncomputable def interpolationDesign (cvx : CvxSolver) (sampler : Sampler sc.E) (flow : Fin sc.E → ℝ)
    (component : String) (ratio : List ℝ) (numRealizations : ℕ) (order : Int) (regularization : ℝ) :
    Py (TrendHistory sc.E) := do
  let _ ← checkComponent component
  let S ← sc.getShiftOperator component order
  let grid ← ratio.zipIdx.mapM fun ri => (List.range numRealizations).mapM fun j => do
    let obs ← sc.sampleEdges sampler ri.2 j ri.1
    let x ← cvxSolve cvx (sc.maskFlow flow obs) S.2 regularization obs
    sc.trendPass component flow x
  pure (sc.trendHistory none grid)

/-- `self.set_history(..)` is the last statement of every method (simplicial_trend_filter.py:266, 370,
492): the history changes only if everything before succeeded. -/
def commitHistory {E : ℕ} (st : TrendHistory E) (r : Py (TrendHistory E)) : Py Unit × TrendHistory E :=
  match r with
  | .error e => (.error e, st)
  | .ok h => (.ok (), h)

/-- simplicial_trend_filter.py:178-272 `denoising_l2_regularizer`. -/
noncomputable def denoisingL2 (st : TrendHistory sc.E) (flow : Fin sc.E → ℝ) (component : String)
    (numRealizations : ℕ) (snrDb : List ℝ) (mu : ℝ) (noise : ℕ → ℕ → Fin sc.E → ℝ) :
    Py Unit × TrendHistory sc.E :=
  commitHistory st (sc.l2Design flow component numRealizations snrDb mu noise)

/-- simplicial_trend_filter.py:274-376 `denoising_l1_regularizer`. -/
noncomputable def denoisingL1 (cvx : CvxSolver) (st : TrendHistory sc.E) (flow : Fin sc.E → ℝ)
    (component : String) (numRealizations : ℕ) (snrDb : List ℝ) (order : Int) (regularization : ℝ)
    (noise : ℕ → ℕ → Fin sc.E → ℝ) : Py Unit × TrendHistory sc.E :=
  commitHistory st (sc.l1Design cvx flow component numRealizations snrDb order regularization noise)

/-- simplicial_trend_filter.py:378-498 `interpolation_l1_regularizer`. -/
noncomputable def interpolationL1 (cvx : CvxSolver) (sampler : Sampler sc.E) (st : TrendHistory sc.E)
    (flow : Fin sc.E → ℝ) (component : String) (ratio : List ℝ) (numRealizations : ℕ) (order : Int)
    (regularization : ℝ) : Py Unit × TrendHistory sc.E :=
  commitHistory st
    (sc.interpolationDesign cvx sampler flow component ratio numRealizations order regularization)

end SC
end Pytspl
