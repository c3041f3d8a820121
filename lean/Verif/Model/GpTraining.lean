import Verif.Model.GpPredict

/-!
# What `HodgeGPTrainer.train` optimises

`GaussianProcess.lean` treats a pass of the training loop as an oracle on the parameters.  Here the loss of a pass is
part of the model, and with it the mode (training or evaluation) of the model object, which `predict` changes.
-/

namespace Pytspl

open Matrix

/-- An `ExactGPModel` (exact_gp.py:8-48) as an object: its parameters, the training data given to the constructor
(exact_gp.py:28, kept by gpytorch's `ExactGP`), torch's `Module.training`, and the parameters at the time of the first
call in evaluation mode: gpytorch keeps quantities computed from them until `train()` is called on the model. -/
structure GpObject (E : ℕ) where
  model : GpModel E
  xTrain : List ℚ
  yTrain : List ℝ
  training : Bool
  cache : Option (GpModel E)

/-- exact_gp.py:9-37 `__init__`: a torch module starts in training mode. -/
def GpObject.create {E : ℕ} (kernel : GpKernel E) (meanFunction : Option String) (noise : ℝ) (xTrain : List ℚ)
    (yTrain : List ℝ) : GpObject E :=
  ⟨GpModel.create kernel meanFunction noise, xTrain, yTrain, true, none⟩

/-- `model.train()` of torch and gpytorch, which the caller may use (tests/test_hodge_gp_trainer.py:99) but no method of
`HodgeGPTrainer` calls: training mode, and the kept quantities are dropped. -/
def GpObject.enterTrain {E : ℕ} (o : GpObject E) : GpObject E := { o with training := true, cache := none }

/-- What gpytorch returns in evaluation mode when the parameters have changed since the first call in that mode (old
and new parameters, data, inputs): nothing is assumed (the call in hodge_gp_trainer.py:257, 297). -/
abbrev StaleCall (E : ℕ) := GpModel E → GpModel E → List ℚ → List ℝ → List ℚ → Py GpPrediction

open Classical in
/-- `likelihood(model(x))` (hodge_gp_trainer.py:257-259, 297): in training mode the prior of exact_gp.py:39-48 at the
training inputs plus noise (gpytorch raises `RuntimeError` for other inputs), in evaluation mode the posterior. -/
noncomputable def GpObject.marginal {E : ℕ} (stale : StaleCall E) (o : GpObject E) (x : List ℚ) : Py GpPrediction :=
  if o.training then
    if x ≠ o.xTrain then .error .runtimeError
    else do
      let r ← torchRows E x
      let K ← o.model.kernel.cov r r
      pure ⟨r.length, fun _ => o.model.meanConst.getD 0,
        o.model.outputscale • K + o.model.noise • (1 : Matrix (Fin r.length) (Fin r.length) ℝ)⟩
  else if o.cache.getD o.model = o.model then o.model.predictive o.xTrain o.yTrain x
  else stale (o.cache.getD o.model) o.model o.xTrain o.yTrain x

/-- hodge_gp_trainer.py:257-259: `-mll(model(x_train), y_train)`, gpytorch's `ExactMarginalLogLikelihood` being the
log probability of the targets divided by their number.  Simplification: targets of another length are `RuntimeError`
(torch broadcasts a single one). -/
noncomputable def GpObject.loss {E : ℕ} (stale : StaleCall E) (o : GpObject E) (x : List ℚ) (y : List ℝ) : Py ℝ := do
  let p ← o.marginal stale x
  if y.length ≠ p.n then .error .runtimeError
  else pure (-(p.logProb fun i => y[(i : ℕ)]?.getD 0) / p.n)

/-- `loss.backward()` and `optimizer.step()` (hodge_gp_trainer.py:260-265) for a torch optimiser and a learning rate: the
new parameters are some function of the loss (as a function of the parameters), the pass and the parameters.  The kernel
keeps its class and eigenpairs, a zero mean stays zero, and the noise stays positive (gpytorch's constraint). -/
structure Optimiser (E : ℕ) where
  step : (GpModel E → Py ℝ) → ℕ → GpModel E → GpModel E
  kernel : ∀ L i m, (step L i m).kernel.type = m.kernel.type ∧ (step L i m).kernel.eig = m.kernel.eig
  mean : ∀ L i m, m.meanConst = none → (step L i m).meanConst = none
  noise : ∀ L i m, 0 < m.noise → 0 < (step L i m).noise

/-- `model(x)` in evaluation mode fills gpytorch's cache (if it is empty) (hodge_gp_trainer.py:257, 297). -/
def GpObject.touch {E : ℕ} (o : GpObject E) : GpObject E :=
  if o.training then o else { o with cache := some (o.cache.getD o.model) }

/-- hodge_gp_trainer.py:253-265, the loop: printed losses, outcome, and the object, which is changed in place.  An
exception leaves the parameters of the pass before. -/
noncomputable def GpObject.trainLoop {E : ℕ} (stale : StaleCall E) (opt : Optimiser E) (x : List ℚ) (y : List ℝ) :
    ℕ → ℕ → GpObject E → List ℝ × Py Unit × GpObject E
  | 0, _, o => ([], .ok (), o)
  | n + 1, i, o =>
    match o.loss stale x y with
    | .error e => ([], .error e, o)
    | .ok l =>
      let o := o.touch
      let m := opt.step (fun m => GpObject.loss stale { o with model := m } x y) i o.model
      let r := GpObject.trainLoop stale opt x y n (i + 1) { o with model := m }
      (l :: r.1, r.2)

/-- hodge_gp_trainer.py:221-267 `train` (it never calls `model.train()`): printed losses, outcome, model object and
trainer afterwards. -/
noncomputable def Trainer.trainOn {sc : SC ℝ} (t : Trainer sc) (stale : StaleCall sc.E) (opt : Optimiser sc.E)
    (o : GpObject sc.E) (x : List ℚ) (y : List ℝ) (iters : ℕ := 1000) :
    List ℝ × Py Unit × GpObject sc.E × Trainer sc :=
  match GpObject.trainLoop stale opt x y iters 0 o with
  | (ls, .error e, o') => (ls, .error e, o', t)
  | (ls, .ok (), o') => (ls, .ok (), o', { t with model := some o'.model })

/-- hodge_gp_trainer.py:289-297: `model.eval()` and `likelihood(model(x_test))`: the prediction and the object
afterwards; the rest of `predict` does not change the object. -/
noncomputable def GpObject.predictCall {E : ℕ} (stale : StaleCall E) (o : GpObject E) (xTest : List ℚ) :
    Py GpPrediction × GpObject E :=
  let o : GpObject E := { o with training := false }
  (o.marginal stale xTest, match o.marginal stale xTest with
    | .ok _ => o.touch
    | .error _ => o)

end Pytspl
