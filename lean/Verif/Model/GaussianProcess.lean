import Verif.Model.BaseFilter
import Verif.Model.Eigendecomposition
import Verif.Model.FloatArith
import Mathlib.Analysis.SpecialFunctions.Log.Basic
import Mathlib.Analysis.SpecialFunctions.Pow.Real
import Mathlib.Data.Rat.Floor

/-!
# The Hodge Gaussian process: `pytspl/hogde_gp`

Simplifications, throughout: torch tensors hold real numbers (the code converts to float32); the
`print` calls and the output device are left out; gpytorch and torch are modelled only as far as the
code of the package relies on them.
-/

namespace Pytspl

open Matrix

/-! ## Kernels -/

/-- The five kernel classes (hogde_gp/forex/__init__.py:1-5). -/
inductive KernelType
  | diffusion | diffusionNonHC | matern | maternNonHC | laplacian
  deriving DecidableEq

/-- Names of the parameters a kernel class registers, without the prefix `raw_`; each has a property
with a getter and a setter (diffusion.py:22-121, diffusion_non_hc.py:31-130, matern.py:23-196,
matern_non_hc.py:23-196, laplacian.py:22-84). -/
def KernelType.params : KernelType → List String
  | .diffusion | .diffusionNonHC => ["kappa_down", "kappa_up", "h", "h_down", "h_up"]
  | .matern | .maternNonHC =>
    ["kappa_down", "kappa_up", "kappa", "mu", "mu_down", "mu_up", "h", "h_down", "h_up"]
  | .laplacian => ["kappa_down", "kappa_up", "mu"]

/-- The list returned by `get_eigenpairs` (hodge_gp_trainer.py:112-119): harmonic, gradient and curl
eigenvectors and eigenvalues. -/
structure GpEigenpairs (E : ℕ) where
  harm : EigPairs E
  grad : EigPairs E
  curl : EigPairs E

/-- A kernel object: its class, the eigenpairs stored by the constructor, and the raw parameters
(one real number per registered name; entries for other names are never read)
(matern.py:9-63 and the other classes). -/
structure GpKernel (E : ℕ) where
  type : KernelType
  eig : GpEigenpairs E
  raw : String → ℝ

/-- matern.py:9-63, matern_non_hc.py:9-63, diffusion.py:9-46, diffusion_non_hc.py:9-54, laplacian.py:9-37
`__init__`: all raw parameters start at 0. -/
def GpKernel.create {E : ℕ} (type : KernelType) (eig : GpEigenpairs E) : GpKernel E :=
  ⟨type, eig, fun _ => 0⟩

/-- `Positive().transform`: softplus (gpytorch), used by every getter, e.g. matern.py:67. -/
noncomputable def softplus (x : ℝ) : ℝ := Real.log (1 + Real.exp x)

/-- `Positive().inverse_transform` on a positive number: `v + log(-expm1(-v))` (gpytorch), used by every
setter, e.g. matern.py:77-79. -/
noncomputable def invSoftplus (v : ℝ) : ℝ := v + Real.log (-(Real.exp (-v) - 1))

/-- Reading a parameter, e.g. matern.py:65-67 `kappa_down`; other classes have no such attribute. -/
noncomputable def GpKernel.get {E : ℕ} (k : GpKernel E) (name : String) : Py ℝ :=
  if name ∈ k.type.params then .ok (softplus (k.raw name)) else .error .attributeError

/-- Assigning a number to a parameter, e.g. matern.py:69-80 `_set_kappa_down`.  The inverse
transformation of a negative number is nan, which `initialize` refuses with `RuntimeError`; of 0 it
is `-inf`, marked `nonFinite`.  Assigning to another name (which would create a new Python attribute)
is not modelled: `AttributeError`. -/
noncomputable def GpKernel.set {E : ℕ} (k : GpKernel E) (name : String) (v : ℝ) : Py (GpKernel E) :=
  if name ∈ k.type.params then
    if v < 0 then .error .runtimeError
    else if v = 0 then .error .nonFinite
    else .ok { k with raw := Function.update k.raw name (invSoftplus v) }
  else .error .attributeError

/-- The value of a registered parameter inside the class (e.g. `self.mu_down`, matern.py:201). -/
noncomputable def GpKernel.val {E : ℕ} (k : GpKernel E) (name : String) : ℝ := softplus (k.raw name)

/-- `torch.pow(b, e)` for a negative exponent (matern.py:200-208): inf for a zero base.  Simplification:
a negative base counts as non-finite too (it is nan unless the exponent is an integer). -/
noncomputable def torchPow (b e : ℝ) : Option ℝ := if b ≤ 0 then none else some (b ^ e)

/-- One entry of the spectral densities: matern.py:198-209, matern_non_hc.py:198-216,
diffusion.py:123-129, diffusion_non_hc.py:132-136, laplacian.py:86-92 (`_eval_covar_matrix`); first the
harmonic (`k0`), then the gradient (`k1`), then the curl (`k2`) density as functions of the
eigenvalue.  `1e-3` is read as 1/1000. -/
noncomputable def GpKernel.density {E : ℕ} (k : GpKernel E) (part : Fin 3) (lam : ℝ) : Option ℝ :=
  match k.type, part with
  | .diffusion, 0 => some (Real.exp (-lam))
  | .diffusion, 1 => some (Real.exp (-k.val "kappa_down" * lam))
  | .diffusion, 2 => some (Real.exp (-k.val "kappa_up" * lam))
  | .diffusionNonHC, 0 => some (Real.exp (-lam))
  | .diffusionNonHC, 1 => some (Real.exp (-k.val "kappa_down" * lam))
  | .diffusionNonHC, 2 => some (Real.exp (-k.val "kappa_down" * lam))
  | .matern, 0 => some (k.val "mu")
  | .matern, 1 => torchPow
      (2 * k.val "mu_down" / k.val "kappa_down" / k.val "kappa_down" + lam) (-k.val "mu_down")
  | .matern, 2 => torchPow
      (2 * k.val "mu_up" / k.val "kappa_up" / k.val "kappa_up" + lam) (-k.val "mu_up")
  | .maternNonHC, _ => torchPow
      (2 * k.val "mu_down" / k.val "kappa_down" / k.val "kappa_down" + lam) (-k.val "mu_down")
  | .laplacian, 0 => fdiv 1 (1 / 1000 + lam)
  | .laplacian, _ => fdiv 1 lam

/-- The factor in front of `K0`, `K1`, `K2` (matern.py:228, matern_non_hc.py:235, diffusion.py:148,
diffusion_non_hc.py:155, laplacian.py:110). -/
noncomputable def GpKernel.weight {E : ℕ} (k : GpKernel E) (part : Fin 3) : ℝ :=
  match k.type, part with
  | .diffusion, 0 | .matern, 0 => k.val "h"
  | .diffusion, 1 | .matern, 1 => k.val "h_down"
  | .diffusion, 2 | .matern, 2 => k.val "h_up"
  | .laplacian, 0 => k.val "mu"
  | .laplacian, 1 => k.val "kappa_down"
  | .laplacian, 2 => k.val "kappa_up"
  | .diffusionNonHC, _ | .maternNonHC, _ => 1

/-- A list of floating point values, all of which have to be finite
(the entries of the densities, matern.py:198-209). -/
noncomputable def finiteVec {m : ℕ} (v : Fin m → Option ℝ) : Py (Fin m → ℝ) :=
  if ∀ j, (v j).isSome then .ok fun j => (v j).getD 0 else .error .nonFinite

/-- matern.py:198-209 `_eval_covar_matrix`: the three vectors of densities, also the property `covar_matrix`
(matern.py:211-213, matern_non_hc.py:218-220, diffusion.py:131-133, diffusion_non_hc.py:138-140,
laplacian.py:94-96). -/
noncomputable def GpKernel.evalCovar {E : ℕ} (k : GpKernel E) :
    Py ((Fin k.eig.harm.num → ℝ) × (Fin k.eig.grad.num → ℝ) × (Fin k.eig.curl.num → ℝ)) := do
  let k0 ← finiteVec fun j => k.density 0 (k.eig.harm.vals j)
  let k1 ← finiteVec fun j => k.density 1 (k.eig.grad.vals j)
  let k2 ← finiteVec fun j => k.density 2 (k.eig.curl.vals j)
  pure (k0, k1, k2)

/-- `x.long()` on one entry: truncation towards zero (matern.py:217). -/
def toLong (x : ℚ) : Int := Int.tdiv x.num x.den

/-- `vects[x1, :] * k @ vects[x2, :].T` (matern.py:225). -/
def sandwich {E p q : ℕ} (e : EigPairs E) (k : Fin e.num → ℝ) (i1 : Fin p → Fin E) (i2 : Fin q → Fin E) :
    Matrix (Fin p) (Fin q) ℝ :=
  Matrix.of fun a b => ∑ j, e.vecs (i1 a) j * k j * e.vecs (i2 b) j

/-- What a kernel returns: a matrix, or the diagonal (matern.py:229-232). -/
inductive CovOut
  | mat (p q : ℕ) (K : Matrix (Fin p) (Fin q) ℝ)
  | diag (v : List ℝ)

/-- `K.diag()` (matern.py:230): the entries `K[i, i]` for `i < min(p, q)`. -/
def matDiag {p q : ℕ} (K : Matrix (Fin p) (Fin q) ℝ) : List ℝ :=
  List.ofFn fun i : Fin (min p q) => K ⟨i, by omega⟩ ⟨i, by omega⟩

/-- `vects[x, :]` (matern.py:225): the rows selected by an index tensor. -/
def torchRows (E : ℕ) (x : List ℚ) : Py (List (Fin E)) := x.mapM fun a => npIdx E (toLong a)

/-- The matrix `K` (matern.py:225-228) for resolved rows. -/
noncomputable def GpKernel.cov {E : ℕ} (k : GpKernel E) (r1 r2 : List (Fin E)) :
    Py (Matrix (Fin r1.length) (Fin r2.length) ℝ) := do
  let (k0, k1, k2) ← k.evalCovar
  pure (k.weight 0 • sandwich k.eig.harm k0 r1.get r2.get +
    k.weight 1 • sandwich k.eig.grad k1 r1.get r2.get + k.weight 2 • sandwich k.eig.curl k2 r1.get r2.get)

/-- matern.py:216-232, matern_non_hc.py:223-239, diffusion.py:136-152, diffusion_non_hc.py:143-159,
laplacian.py:98-114 `forward`.  The inputs are tensors of shape
`(p, 1)`, which is what gpytorch hands to `forward`; `x2.long()` fails for `None` before the test for
`None` is reached. -/
noncomputable def GpKernel.forward {E : ℕ} (k : GpKernel E) (x1 : List ℚ) (x2 : Option (List ℚ))
    (diag : Bool := false) : Py CovOut :=
  match x2 with
  | none => .error .attributeError
  | some x2 => do
    let r1 ← torchRows E x1
    let r2 ← torchRows E x2
    let K ← k.cov r1 r2
    if diag then .ok (.diag (matDiag K)) else .ok (.mat _ _ K)

/-! ## Choosing a kernel -/

/-- kernels.py:27-34, 36-39 `Kernels.get_names`. -/
def kernelNames : List String :=
  ["diffusion", "diffusion_non_hc", "matern", "matern_non_hc", "laplacian", "laplacian_non_hc"]

/-- kernels.py:41-49 `get_forex_kernels`. -/
def forexKernels : List (String × KernelType) :=
  [("diffusion", .diffusion), ("diffusion_non_hc", .diffusionNonHC), ("matern", .matern),
    ("matern_non_hc", .maternNonHC), ("laplacian", .laplacian)]

/-- kernel_serializer.py:31-59 `_get_serializer`. -/
def getSerializer (kernelType dataName : String) : Py KernelType :=
  if kernelType ∉ kernelNames then .error .valueError
  else if dataName = "forex" then
    match forexKernels.find? fun p => p.1 = kernelType with
    | some p => .ok p.2
    | none => .error .keyError
  else .error .valueError

/-- kernel_serializer.py:12-29 `serialize`. -/
def serialize {E : ℕ} (eig : GpEigenpairs E) (kernelType dataName : String) : Py (GpKernel E) := do
  let t ← getSerializer kernelType dataName
  pure (GpKernel.create t eig)

/-! ## The model -/

/-- exact_gp.py:8-48: the model object; `meanConst = none` for the zero mean, the raw output scale
carries the constraint `Positive()`, `noise` is the noise of the likelihood. -/
structure GpModel (E : ℕ) where
  kernel : GpKernel E
  rawOutputscale : ℝ
  meanConst : Option ℝ
  noise : ℝ

/-- exact_gp.py:9-37 `__init__` (the constant mean and the raw scale start at 0). -/
def GpModel.create {E : ℕ} (kernel : GpKernel E) (meanFunction : Option String) (noise : ℝ) : GpModel E :=
  ⟨kernel, 0, if meanFunction = some "zero" then none else some 0, noise⟩

/-- `covar_module.outputscale` (hodge_gp_trainer.py:337). -/
noncomputable def GpModel.outputscale {E : ℕ} (m : GpModel E) : ℝ := softplus m.rawOutputscale

/-- exact_gp.py:39-48 `forward`: mean vector and covariance matrix of the prior; `ScaleKernel` multiplies the
base kernel's matrix by the output scale. -/
noncomputable def GpModel.forward {E : ℕ} (m : GpModel E) (x : List ℚ) : Py (List ℝ × CovOut) := do
  let r ← torchRows E x
  let K ← m.kernel.cov r r
  pure (x.map fun _ => m.meanConst.getD 0, .mat _ _ (m.outputscale • K))

/-! ## The trainer -/

/-- sklearn's shuffled permutation for a seed and a number of samples
(`RandomState(seed).permutation(n)`, hodge_gp_trainer.py:184), and the rounding of its floating point products. -/
structure Shuffler where
  R : Rounding
  perm : Int → ℕ → List ℕ
  isPerm : ∀ s n, (perm s n).Perm (List.range n)

/-- A tensor of floating point values, some of which may be non-finite (hodge_gp_trainer.py:128-150, 203-219). -/
abbrev FTensor := List (Option ℝ)

/-- Attributes of a trainer (hodge_gp_trainer.py:30-33); the data attributes are set by
`train_test_split` (lines 214-217) and `model` by `train` (line 267); before that they do not
exist (`none`). -/
structure Trainer (sc : SC ℝ) where
  y : List ℝ
  data : Option (List ℚ × FTensor × List ℚ × FTensor)
  model : Option (GpModel sc.E)

/-- hodge_gp_trainer.py:15-33 `__init__`. -/
def Trainer.create (sc : SC ℝ) (y : List ℝ) : Trainer sc := ⟨y, none, none⟩

/-- Conversion to `torch.float32` (hodge_gp_trainer.py:11 `DATA_TYPE`): IEEE 754 binary32, round to nearest,
in the absence of overflow and underflow. -/
structure SingleRounding where
  rnd : ℝ → ℝ
  rel : ∀ x, |rnd x - x| ≤ 1 / 2 ^ 24 * |x|
  int : ∀ n : ℤ, |n| ≤ 2 ^ 24 → rnd n = n

/-- hodge_gp_trainer.py:35-59 `get_laplacians`: the Hodge, lower and upper Laplacian as float32 tensors
(`print` and the move to the device are left out). -/
def SC.gpLaplacians (R : SingleRounding) (sc : SC ℝ) : List (Matrix (Fin sc.E) (Fin sc.E) ℝ) :=
  [sc.L1, sc.L1l, sc.L1u].map fun M => M.map R.rnd

/-- hodge_gp_trainer.py:61-82 `get_incidence_matrices`. -/
def SC.gpIncidence (R : SingleRounding) (sc : SC ℝ) :
    Matrix (Fin sc.N) (Fin sc.E) ℝ × Matrix (Fin sc.E) (Fin sc.T) ℝ :=
  (sc.B1.map R.rnd, sc.B2.map R.rnd)

/-- hodge_gp_trainer.py:84-126 `get_eigenpairs`. -/
noncomputable def SC.gpEigenpairs (lib : NumLib) (sc : SC ℝ) (tolerance : ℝ := 1 / 1000) :
    Py (GpEigenpairs sc.E) := do
  let h ← sc.getComponentEigenpair lib "harmonic" tolerance
  let g ← sc.getComponentEigenpair lib "gradient" tolerance
  let c ← sc.getComponentEigenpair lib "curl" tolerance
  pure ⟨h, g, c⟩

/-- `torch.mean` (hodge_gp_trainer.py:144) of a non-empty tensor. -/
noncomputable def torchMean (l : List ℝ) : ℝ := l.sum / l.length

/-- `torch.std` (hodge_gp_trainer.py:144): unbiased; nan for fewer than two entries. -/
noncomputable def torchStd (l : List ℝ) : Option ℝ :=
  if l.length ≤ 1 then none
  else some (Real.sqrt ((l.map fun v => (v - torchMean l) ^ 2).sum / (l.length - 1)))

/-- `(v - mean) / std` (hodge_gp_trainer.py:146) on one entry. -/
noncomputable def normEntry (l : List ℝ) (v : ℝ) : Option ℝ :=
  match torchStd l with
  | none => none
  | some s => fdiv (v - torchMean l) s

/-- hodge_gp_trainer.py:128-150 `normalize_data`. -/
noncomputable def normalizeData (yTrain yTest y : List ℝ) : FTensor × FTensor × FTensor :=
  (yTrain.map (normEntry yTrain), yTest.map (normEntry yTrain), y.map (normEntry yTrain))

/-- The argument `train_ratio` (hodge_gp_trainer.py:154, 184): scikit-learn takes a float as the share and an int as the
number of training samples. -/
inductive TrainSize
  | ratio (r : ℝ)
  | count (k : Int)

/-- What scikit-learn accepts for `n` samples (hodge_gp_trainer.py:183-185). -/
def TrainSize.InRange (n : ℕ) : TrainSize → Prop
  | .ratio r => 0 < r ∧ r < 1
  | .count k => 0 < k ∧ k < n

/-- Number of training samples (hodge_gp_trainer.py:183-185): scikit-learn rounds the product, a double, down. -/
noncomputable def TrainSize.number (R : Rounding) (n : ℕ) : TrainSize → ℕ
  | .ratio r => ⌊R.rnd (r * n)⌋.toNat
  | .count k => k.toNat

/-- The double that the literal `0.8` denotes (hodge_gp_trainer.py:154). -/
noncomputable def fourFifths : ℝ := 3602879701896397 / 4503599627370496

open Classical in
/-- sklearn `train_test_split(x, y, train_size=ratio, random_state=seed)` with `x = arange(n)`
(hodge_gp_trainer.py:182-185): `ValueError` unless the lengths agree, the ratio
lies strictly between 0 and 1 (the number, strictly between 0 and `n`), the seed is an unsigned 32 bit integer and
at least one training sample remains; the first `n_test` entries of the permutation are the test samples.  Returns
(x_train, x_test, y_train, y_test). -/
noncomputable def sklearnSplit (sh : Shuffler) (n : ℕ) (y : List ℝ) (size : TrainSize) (seed : Int) :
    Py (List ℕ × List ℕ × List ℝ × List ℝ) :=
  if y.length ≠ n ∨ ¬ size.InRange n ∨ seed < 0 ∨ (2 : Int) ^ 32 ≤ seed then .error .valueError
  else
    let nTrain := size.number sh.R n
    if nTrain = 0 then .error .valueError
    else
      let p := sh.perm seed n
      let test := p.take (n - nTrain)
      let train := (p.drop (n - nTrain)).take nTrain
      .ok (train, test, train.map fun i => y[i]?.getD 0, test.map fun i => y[i]?.getD 0)

/-- hodge_gp_trainer.py:152-219 `train_test_split`: (x_train, y_train, x_test, y_test, x, y), and the
trainer with its data attributes set. -/
noncomputable def Trainer.split {sc : SC ℝ} (t : Trainer sc) (sh : Shuffler) (size : TrainSize := .ratio fourFifths)
    (normalization : Bool := false) (seed : Int := 4) :
    Py (List ℚ × FTensor × List ℚ × FTensor × List ℚ × FTensor) × Trainer sc :=
  match sklearnSplit sh sc.E t.y size seed with
  | .error e => (.error e, t)
  | .ok (xTr, xTe, yTr, yTe) =>
    let ys := if normalization then normalizeData yTr yTe t.y
      else (yTr.map some, yTe.map some, t.y.map some)
    let xTr' := xTr.map fun i : ℕ => (i : ℚ)
    let xTe' := xTe.map fun i : ℕ => (i : ℚ)
    (.ok (xTr', ys.1, xTe', ys.2.1, (List.range sc.E).map fun i : ℕ => (i : ℚ), ys.2.2),
      { t with data := some (xTr', ys.1, xTe', ys.2.1) })

/-- One pass of the training loop (hodge_gp_trainer.py:253-265) as an oracle: the optimiser changes the
raw parameters (and mean and noise) of the model in place, or an exception escapes from gpytorch. -/
abbrev TrainStep (E : ℕ) := ℕ → GpModel E → Py (GpModel E)

/-- hodge_gp_trainer.py:253-265: the loop; the model is changed in place, so its state at the time of an
exception is kept. -/
def trainLoop {E : ℕ} (step : TrainStep E) : ℕ → ℕ → GpModel E → Py Unit × GpModel E
  | 0, _, m => (.ok (), m)
  | n + 1, i, m =>
    match step i m with
    | .error e => (.error e, m)
    | .ok m' => trainLoop step n (i + 1) m'

/-- hodge_gp_trainer.py:221-267 `train`: outcome, the caller's model afterwards, and the trainer. -/
def Trainer.train {sc : SC ℝ} (t : Trainer sc) (step : TrainStep sc.E) (model : GpModel sc.E)
    (iters : ℕ := 1000) : Py Unit × GpModel sc.E × Trainer sc :=
  match trainLoop step iters 0 model with
  | (.error e, m) => (.error e, m, t)
  | (.ok (), m) => (.ok (), m, { t with model := some m })

/-- The dictionary of `get_model_parameters` (hodge_gp_trainer.py:326-338). -/
structure GpParams where
  noise : ℝ
  mu : ℝ
  muDown : ℝ
  muUp : ℝ
  kappa : ℝ
  kappaDown : ℝ
  kappaUp : ℝ
  h : ℝ
  hDown : ℝ
  hUp : ℝ
  outputscale : ℝ

/-- hodge_gp_trainer.py:318-340 `get_model_parameters`: without training `self.model` does not exist
(`AttributeError`), and so do some parameters of the other kernels. -/
noncomputable def Trainer.modelParameters {sc : SC ℝ} (t : Trainer sc) : Py GpParams :=
  match t.model with
  | none => .error .attributeError
  | some m => do
    let k := m.kernel
    let mu ← k.get "mu"
    let muDown ← k.get "mu_down"
    let muUp ← k.get "mu_up"
    let kappa ← k.get "kappa"
    let kappaDown ← k.get "kappa_down"
    let kappaUp ← k.get "kappa_up"
    let h ← k.get "h"
    let hDown ← k.get "h_down"
    let hUp ← k.get "h_up"
    pure ⟨m.noise, mu, muDown, muUp, kappa, kappaDown, kappaUp, h, hDown, hUp, m.outputscale⟩

/-- `np.isclose(a, b)` (hodge_gp_trainer.py:397), with the default tolerances. -/
def npIsClose (a b : ℝ) : Prop := |a - b| ≤ 1 / 10 ^ 8 + 1 / 10 ^ 5 * |b|

/-- The second result of `build_matern_kernel`: the vector of variances or `0.0` (hodge_gp_trainer.py:390-400). -/
inductive VarOut (E : ℕ)
  | vec (v : Fin E → ℝ)
  | zero

open Classical in
/-- hodge_gp_trainer.py:390-398: `np.diag(K)`, collapsed to `0.0` when smallest and largest entry are
close (an empty array has no minimum: `ValueError`). -/
noncomputable def varianceOut {E : ℕ} (K : Matrix (Fin E) (Fin E) ℝ) : Py (VarOut E) :=
  let v : Fin E → ℝ := fun i => K i i
  match (List.ofFn v).min?, (List.ofFn v).max? with
  | some vmin, some vmax => .ok (if npIsClose vmin vmax then .zero else .vec v)
  | _, _ => .error .valueError

/-- the index of every edge (hodge_gp_trainer.py:182) -/
def allRows (E : ℕ) : Fin E → Fin E := id

/-- hodge_gp_trainer.py:342-400 `build_matern_kernel` (`k0` is computed and then overwritten by `mu`). -/
noncomputable def Trainer.buildMaternKernel {sc : SC ℝ} (t : Trainer sc) (lib : NumLib) :
    Py (Matrix (Fin sc.E) (Fin sc.E) ℝ × VarOut sc.E) := do
  let p ← t.modelParameters
  let eh ← sc.getComponentEigenpair lib "harmonic"
  let eg ← sc.getComponentEigenpair lib "gradient"
  let ec ← sc.getComponentEigenpair lib "curl"
  let k1 ← finiteVec fun j => torchPow (2 * p.muDown / p.kappaDown / p.kappaDown + eg.vals j) (-p.muDown)
  let k2 ← finiteVec fun j => torchPow (2 * p.muUp / p.kappaUp / p.kappaUp + ec.vals j) (-p.muUp)
  let K0 := sandwich eh (fun _ => p.mu) (allRows _) (allRows _)
  let K1 := sandwich eg k1 (allRows _) (allRows _)
  let K2 := sandwich ec k2 (allRows _) (allRows _)
  let K := p.outputscale • (p.h • K0 + p.hDown • K1 + p.hUp • K2)
  let v ← varianceOut K
  pure (K, v)

end Pytspl
