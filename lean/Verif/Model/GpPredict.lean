import Verif.Model.GaussianProcess
import Mathlib.LinearAlgebra.Matrix.NonsingularInverse

/-!
# `HodgeGPTrainer.predict` and the tensors handed to a kernel

gpytorch's exact inference is modelled by the formulas it documents, in exact arithmetic; `fast_pred_var`
(hodge_gp_trainer.py:295) only changes how the same covariance is computed, which is not modelled.
-/

namespace Pytspl

open Matrix

/-- The Gaussian returned by `predict` (hodge_gp_trainer.py:297): mean vector and covariance matrix. -/
structure GpPrediction where
  n : ℕ
  mean : Fin n → ℝ
  cov : Matrix (Fin n) (Fin n) ℝ

/-- hodge_gp_trainer.py:289-297: `likelihood(model(x_test))` in evaluation mode: the prior of exact_gp.py:39-48
over training and test inputs, conditioned on the training targets the model object was constructed with
(exact_gp.py:28), plus the noise of the likelihood.  Simplification: targets of a wrong length are reported as
`RuntimeError` here, whichever tensor operation notices first. -/
noncomputable def GpModel.predictive {E : ℕ} (m : GpModel E) (xTrain : List ℚ) (yTrain : List ℝ) (xTest : List ℚ) :
    Py GpPrediction :=
  if yTrain.length ≠ xTrain.length then .error .runtimeError
  else do
    let rt ← torchRows E xTrain
    let rs ← torchRows E xTest
    let Ktt ← m.kernel.cov rt rt
    let Kst ← m.kernel.cov rs rt
    let Kss ← m.kernel.cov rs rs
    let c := m.meanConst.getD 0
    let s := m.outputscale
    let S := (s • Ktt + m.noise • (1 : Matrix (Fin rt.length) (Fin rt.length) ℝ))⁻¹
    let resid : Fin rt.length → ℝ := fun i => yTrain[(i : ℕ)]?.getD 0 - c
    pure ⟨rs.length, fun a => c + (s • Kst).mulVec (S.mulVec resid) a,
      s • Kss - (s • Kst) * S * (s • Kst).transpose + m.noise • (1 : Matrix (Fin rs.length) (Fin rs.length) ℝ)⟩

/-- The metrics printed by `predict` (hodge_gp_trainer.py:302-314); `none` is a value that is not finite. -/
structure GpMetrics where
  mae : ℝ
  mse : ℝ
  r2 : Option ℝ
  msll : ℝ
  nlpd : ℝ

/-- gpytorch's `MultivariateNormal.log_prob` (used by hodge_gp_trainer.py:306-308): quadratic form of the inverse
covariance, logarithm of its determinant, constant. -/
noncomputable def GpPrediction.logProb (p : GpPrediction) (y : Fin p.n → ℝ) : ℝ :=
  -(1 / 2) * ((fun i => y i - p.mean i) ⬝ᵥ (p.cov⁻¹).mulVec (fun i => y i - p.mean i) + Real.log p.cov.det +
    p.n * Real.log (2 * Real.pi))

/-- torcheval's `r2_score(input, target)` (used in hodge_gp_trainer.py:304): the second argument holds the
observed values; `ValueError` for fewer than two samples. -/
noncomputable def torchR2 {n : ℕ} (input target : Fin n → ℝ) : Py (Option ℝ) :=
  if n < 2 then .error .valueError
  else
    let rss := ∑ i, (target i - input i) ^ 2
    let tss := ∑ i, target i ^ 2 - (∑ i, target i) ^ 2 / n
    .ok ((fdiv rss tss).map fun q => 1 - q)

/-- hodge_gp_trainer.py:269-316 `predict`: the returned distribution and the printed metrics.  `r2_score` is called
with the observed values first and the predicted mean second (line 304).  Test targets of another length are
`RuntimeError` at line 302, unless torch broadcasts (one of the lengths is 1), and then `r2_score` raises
`ValueError`, because it does not broadcast. -/
noncomputable def GpModel.predict {E : ℕ} (m : GpModel E) (xTrain : List ℚ) (yTrain : List ℝ) (xTest : List ℚ)
    (yTest : List ℝ) : Py (GpPrediction × GpMetrics) := do
  let p ← m.predictive xTrain yTrain xTest
  if yTest.length ≠ p.n then .error (if yTest.length = 1 ∨ p.n = 1 then .valueError else .runtimeError)
  else do
    let y : Fin p.n → ℝ := fun i => yTest[(i : ℕ)]?.getD 0
    let mae := (∑ i, |p.mean i - y i|) / p.n
    let mse := (∑ i, (p.mean i - y i) ^ 2) / p.n
    let r2 ← torchR2 y p.mean
    let msll : ℝ := (∑ i, (1 / 2 * Real.log (2 * Real.pi * p.cov i i) + (y i - p.mean i) ^ 2 / (2 * p.cov i i))) / p.n
    let nlpd := -p.logProb y / p.n
    pure (p, ⟨mae, mse, r2, msll, nlpd⟩)

end Pytspl
