import Verif.Model.GpTraining

/-!
# Kernels, likelihoods, models and trainers as objects

A model keeps references to the kernel and the likelihood it was given (exact_gp.py:28-37), a trainer keeps a reference
to the model it trained (hodge_gp_trainer.py:267), and `train` and `predict` take a likelihood of their own
(hodge_gp_trainer.py:224, 272), which need not be the one of the model.  The other files describe one model with its own
likelihood; here several objects share a heap.  Objects are numbered in the order of creation.
-/

namespace Pytspl

open Matrix

/-- The posterior of the values at the test inputs before the likelihood adds its noise (hodge_gp_trainer.py:297,
`model(x_test)` in evaluation mode): as in `GpModel.predictive`, conditioning with the noise of the model's own
likelihood. -/
noncomputable def GpModel.latent {E : ℕ} (m : GpModel E) (xTrain : List ℚ) (yTrain : List ℝ) (xTest : List ℚ) :
    Py GpPrediction :=
  if yTrain.length ≠ xTrain.length then .error .runtimeError
  else do
    let rt ← torchRows E xTrain
    let rs ← torchRows E xTest
    let Ktt ← m.kernel.cov rt rt
    let Kst ← m.kernel.cov rs rt
    let Kss ← m.kernel.cov rs rs
    let c := m.meanConst.getD 0
    let s := m.outputscale
    let S := (s • Ktt + m.noise • (1 : Matrix (Fin rt.length) (Fin rt.length) ℝ))⁻¹
    let resid : Fin rt.length → ℝ := fun i => yTrain[(i : ℕ)]?.getD 0 - c
    pure ⟨rs.length, fun a => c + (s • Kst).mulVec (S.mulVec resid) a,
      s • Kss - (s • Kst) * S * (s • Kst).transpose⟩

/-- `likelihood(...)` (hodge_gp_trainer.py:297, and inside `mll`, line 259): the noise of the likelihood is added. -/
noncomputable def GpPrediction.addNoise (p : GpPrediction) (v : ℝ) : GpPrediction :=
  ⟨p.n, p.mean, p.cov + v • (1 : Matrix (Fin p.n) (Fin p.n) ℝ)⟩

open Classical in
/-- `model(x)` (hodge_gp_trainer.py:257, 297), as in `GpObject.marginal`. -/
noncomputable def GpObject.latent {E : ℕ} (stale : StaleCall E) (o : GpObject E) (x : List ℚ) : Py GpPrediction :=
  if o.training then
    if x ≠ o.xTrain then .error .runtimeError
    else do
      let r ← torchRows E x
      let K ← o.model.kernel.cov r r
      pure ⟨r.length, fun _ => o.model.meanConst.getD 0, o.model.outputscale • K⟩
  else if o.cache.getD o.model = o.model then o.model.latent o.xTrain o.yTrain x
  else stale (o.cache.getD o.model) o.model o.xTrain o.yTrain x

/-- hodge_gp_trainer.py:251, 257-259: the loss with a likelihood of noise `v`. -/
noncomputable def GpObject.lossWith {E : ℕ} (stale : StaleCall E) (o : GpObject E) (v : ℝ) (x : List ℚ) (y : List ℝ) :
    Py ℝ := do
  let p ← o.latent stale x
  if y.length ≠ p.n then .error .runtimeError
  else pure (-((p.addNoise v).logProb fun i => y[(i : ℕ)]?.getD 0) / p.n)

/-- hodge_gp_trainer.py:299-314: the metrics of a prediction, as in `GpModel.predict`. -/
noncomputable def GpPrediction.metrics (p : GpPrediction) (yTest : List ℝ) : Py GpMetrics :=
  if yTest.length ≠ p.n then .error (if yTest.length = 1 ∨ p.n = 1 then .valueError else .runtimeError)
  else do
    let y : Fin p.n → ℝ := fun i => yTest[(i : ℕ)]?.getD 0
    let mae := (∑ i, |p.mean i - y i|) / p.n
    let mse := (∑ i, (p.mean i - y i) ^ 2) / p.n
    let r2 ← torchR2 y p.mean
    let msll : ℝ := (∑ i, (1 / 2 * Real.log (2 * Real.pi * p.cov i i) + (y i - p.mean i) ^ 2 / (2 * p.cov i i))) / p.n
    let nlpd := -p.logProb y / p.n
    pure ⟨mae, mse, r2, msll, nlpd⟩

/-- An `ExactGPModel` (exact_gp.py:8-48): kernel and likelihood are references. -/
structure ModelObj (E : ℕ) where
  kernel : ℕ
  lik : ℕ
  rawOutputscale : ℝ
  meanConst : Option ℝ
  xTrain : List ℚ
  yTrain : List ℝ
  training : Bool
  cache : Option (GpModel E)

/-- A `HodgeGPTrainer` (hodge_gp_trainer.py:30-33, 214-217, 267): the model is a reference. -/
structure TrainerObj where
  y : List ℝ
  data : Option (List ℚ × FTensor × List ℚ × FTensor)
  model : Option ℕ

/-- All objects; a likelihood is its noise (exact_gp.py:28-37, hodge_gp_trainer.py:30-33, 267). -/
structure GpHeap (sc : SC ℝ) where
  kernels : List (GpKernel sc.E)
  noises : List ℝ
  models : List (ModelObj sc.E)
  trainers : List TrainerObj

variable {sc : SC ℝ}

/-- A model object with what it refers to, as it is now (exact_gp.py:28-37). -/
def GpHeap.view (w : GpHeap sc) (m : ℕ) : Option (GpObject sc.E) :=
  match w.models[m]? with
  | none => none
  | some r =>
    match w.kernels[r.kernel]?, w.noises[r.lik]? with
    | some k, some v => some ⟨⟨k, r.rawOutputscale, r.meanConst, v⟩, r.xTrain, r.yTrain, r.training, r.cache⟩
    | _, _ => none

/-- In-place changes of a model: the parameters of kernel and likelihood belong to the objects it refers to
(`model.parameters()`, hodge_gp_trainer.py:248). -/
def GpHeap.store (w : GpHeap sc) (m : ℕ) (o : GpObject sc.E) : GpHeap sc :=
  match w.models[m]? with
  | none => w
  | some r => { w with
      kernels := w.kernels.set r.kernel o.model.kernel
      noises := w.noises.set r.lik o.model.noise
      models := w.models.set m { r with
        rawOutputscale := o.model.rawOutputscale
        meanConst := o.model.meanConst
        training := o.training
        cache := o.cache } }

/-- hodge_gp_trainer.py:257-259 for a model and a likelihood on the heap. -/
noncomputable def GpHeap.loss (stale : StaleCall sc.E) (w : GpHeap sc) (m l : ℕ) (x : List ℚ) (y : List ℝ) : Py ℝ :=
  match w.view m, w.noises[l]? with
  | some o, some v => o.lossWith stale v x y
  | _, _ => .error .unboundLocalError

/-- hodge_gp_trainer.py:253-265: the loop. -/
noncomputable def GpHeap.trainLoop (stale : StaleCall sc.E) (opt : Optimiser sc.E) (m l : ℕ) (x : List ℚ) (y : List ℝ) :
    ℕ → ℕ → GpHeap sc → List ℝ × Py Unit × GpHeap sc
  | 0, _, w => ([], .ok (), w)
  | n + 1, i, w =>
    match w.loss stale m l x y, w.view m with
    | .error e, _ => ([], .error e, w)
    | .ok _, none => ([], .error .unboundLocalError, w)
    | .ok v, some o =>
      let o := o.touch
      let p := opt.step (fun p => (w.store m { o with model := p }).loss stale m l x y) i o.model
      let r := GpHeap.trainLoop stale opt m l x y n (i + 1) (w.store m { o with model := p })
      (v :: r.1, r.2)

/-- What a call returns (hodge_gp_trainer.py:219, 267, 316, 340, 400). -/
inductive GpOut (sc : SC ℝ)
  | done (r : Py Unit)
  | data (r : Py (List ℚ × FTensor × List ℚ × FTensor × List ℚ × FTensor))
  | losses (l : List ℝ) (r : Py Unit)
  | pred (r : Py (GpPrediction × GpMetrics))
  | params (r : Py GpParams)
  | matern (r : Py (Matrix (Fin sc.E) (Fin sc.E) ℝ × VarOut sc.E))

/-- The calls a program can make.  Objects are named by their number
(exact_gp.py:9-37, hodge_gp_trainer.py:15-400). -/
inductive GpCall (sc : SC ℝ)
  | kernel (eig : GpEigenpairs sc.E) (kernelType dataName : String)
  | likelihood
  | model (k l : ℕ) (mean : Option String) (x : List ℚ) (y : List ℝ)
  | trainer (y : List ℝ)
  | split (t : ℕ) (size : TrainSize) (normalization : Bool) (seed : Int)
  | train (t m l : ℕ) (opt : Optimiser sc.E) (x : List ℚ) (y : List ℝ) (iters : ℕ)
  | predict (t m l : ℕ) (x : List ℚ) (y : List ℝ)
  | params (t : ℕ)
  | matern (t : ℕ)
  | setParam (k : ℕ) (name : String) (v : ℝ)
  | setNoise (l : ℕ) (v : ℝ)
  | trainMode (m : ℕ)

/-- The noise of a new `gpytorch.likelihoods.GaussianLikelihood()` and the smallest one it accepts (gpytorch's
constraint `GreaterThan(1e-4)`) (read in hodge_gp_trainer.py:327). -/
noncomputable def minNoise : ℝ := 1 / 10000

/-- A trainer object as the value other definitions take (hodge_gp_trainer.py:30-33, 267). -/
def GpHeap.trainerVal (w : GpHeap sc) (tr : TrainerObj) : Trainer sc :=
  ⟨tr.y, tr.data, (tr.model.bind w.view).map fun o => o.model⟩

/-- `HodgeGPTrainer.predict` (hodge_gp_trainer.py:269-316): result, and the model object afterwards (evaluation mode,
whatever happens later). -/
noncomputable def GpObject.predictWith {E : ℕ} (stale : StaleCall E) (o : GpObject E) (v : ℝ) (x : List ℚ) (y : List ℝ) :
    Py (GpPrediction × GpMetrics) × GpObject E :=
  let o : GpObject E := { o with training := false }
  match o.latent stale x with
  | .error e => (.error e, o)
  | .ok p => (((p.addNoise v).metrics y).map fun q => (p.addNoise v, q), o.touch)

/-- One call: what it returns and the heap afterwards.  A number that belongs to no object is a variable that has not
been assigned (`UnboundLocalError`).  kernel_serializer.py:12-29, exact_gp.py:9-37, hodge_gp_trainer.py:15-33
(constructors), 152-219 (`split`), 221-267 (`train`), 269-316 (`predict`), 318-340 (`params`), 342-400 (`matern`), the
setters of the kernel classes (matern.py:69-196 and others), gpytorch's setter of the noise and `model.train()`. -/
noncomputable def GpHeap.exec (lib : NumLib) (sh : Shuffler) (stale : StaleCall sc.E) (w : GpHeap sc) :
    GpCall sc → GpOut sc × GpHeap sc
  | .kernel eig kt dn =>
    match serialize eig kt dn with
    | .ok k => (.done (.ok ()), { w with kernels := w.kernels ++ [k] })
    | .error e => (.done (.error e), w)
  | .likelihood => (.done (.ok ()), { w with noises := w.noises ++ [softplus 0 + minNoise] })
  | .model k l mean x y =>
    if k < w.kernels.length ∧ l < w.noises.length then
      (.done (.ok ()), { w with models := w.models ++
        [⟨k, l, 0, if mean = some "zero" then none else some 0, x, y, true, none⟩] })
    else (.done (.error .unboundLocalError), w)
  | .trainer y => (.done (.ok ()), { w with trainers := w.trainers ++ [⟨y, none, none⟩] })
  | .split t size normalization seed =>
    match w.trainers[t]? with
    | none => (.data (.error .unboundLocalError), w)
    | some tr =>
      let r := (w.trainerVal tr).split sh size normalization seed
      (.data r.1, { w with trainers := w.trainers.set t { tr with data := r.2.data } })
  | .train t m l opt x y iters =>
    match w.trainers[t]?, w.view m, w.noises[l]? with
    | some tr, some _, some _ =>
      match GpHeap.trainLoop stale opt m l x y iters 0 w with
      | (ls, .error e, w') => (.losses ls (.error e), w')
      | (ls, .ok (), w') => (.losses ls (.ok ()), { w' with trainers := w'.trainers.set t { tr with model := some m } })
    | _, _, _ => (.losses [] (.error .unboundLocalError), w)
  | .predict t m l x y =>
    match w.trainers[t]?, w.view m, w.noises[l]? with
    | some _, some o, some v =>
      let r := o.predictWith stale v x y
      (.pred r.1, w.store m r.2)
    | _, _, _ => (.pred (.error .unboundLocalError), w)
  | .params t =>
    match w.trainers[t]? with
    | none => (.params (.error .unboundLocalError), w)
    | some tr => (.params (w.trainerVal tr).modelParameters, w)
  | .matern t =>
    match w.trainers[t]? with
    | none => (.matern (.error .unboundLocalError), w)
    | some tr => (.matern ((w.trainerVal tr).buildMaternKernel lib), w)
  | .setParam k name v =>
    match w.kernels[k]? with
    | none => (.done (.error .unboundLocalError), w)
    | some kn =>
      match kn.set name v with
      | .ok kn' => (.done (.ok ()), { w with kernels := w.kernels.set k kn' })
      | .error e => (.done (.error e), w)
  | .setNoise l v =>
    if l < w.noises.length then
      if v < minNoise then (.done (.error .runtimeError), w)
      else (.done (.ok ()), { w with noises := w.noises.set l v })
    else (.done (.error .unboundLocalError), w)
  | .trainMode m =>
    match w.view m with
    | none => (.done (.error .unboundLocalError), w)
    | some o => (.done (.ok ()), w.store m o.enterTrain)

/-- A program: its calls with what they returned, and the heap at the end
(calls of exact_gp.py:9-37 and hodge_gp_trainer.py:15-400). -/
noncomputable def GpHeap.run (lib : NumLib) (sh : Shuffler) (stale : StaleCall sc.E) :
    GpHeap sc → List (GpCall sc) → List (GpCall sc × GpOut sc) × GpHeap sc
  | w, [] => ([], w)
  | w, c :: cs =>
    let r := w.exec lib sh stale c
    let s := GpHeap.run lib sh stale r.2 cs
    ((c, r.1) :: s.1, s.2)

/-- the heap before anything is created (before exact_gp.py:9-37 and hodge_gp_trainer.py:15-33 are called) -/
def GpHeap.empty (sc : SC ℝ) : GpHeap sc := ⟨[], [], [], []⟩

end Pytspl
