import Verif.Model.EdgeFlowDenoising
import Verif.Model.Eigendecomposition
import Verif.Model.HodgeDecomposition

/-!
# The calls that take a flow, on arrays of any shape

Elsewhere a flow is a vector with one entry per edge.  Here the flow is whatever numpy array (of at most
two dimensions) the caller passes, and the shape checks and broadcasting rules of numpy and scipy are
part of the model.
-/

namespace Pytspl

open Matrix

/-- A numpy array of at most two dimensions (the argument `flow` of e.g. simplicial_complex.py:342-365, 512-519). -/
inductive Nd
  | scalar (x : ℝ)
  | vec (n : ℕ) (v : Fin n → ℝ)
  | mat (m p : ℕ) (M : Matrix (Fin m) (Fin p) ℝ)

namespace Nd

/-- number of dimensions (`ndim` of such an argument, simplicial_complex.py:360) -/
def ndim : Nd → ℕ
  | scalar _ => 0
  | vec _ _ => 1
  | mat _ _ _ => 2

/-- length of the last axis but one, 1 if there is none (numpy aligns shapes at the right)
(used in products such as simplicial_complex.py:360) -/
def rows : Nd → ℕ
  | mat m _ _ => m
  | _ => 1

/-- length of the last axis, 1 if there is none (used in products such as simplicial_complex.py:360) -/
def cols : Nd → ℕ
  | scalar _ => 1
  | vec n _ => n
  | mat _ p _ => p

/-- position read in an axis of the given length: an axis of length 1 is repeated
(numpy's broadcasting, as in base_filter.py:57) -/
def axisPos (len i : ℕ) : ℕ := if len = 1 then 0 else i

/-- the entry a broadcast array has at a position (numpy's broadcasting, as in base_filter.py:57) -/
noncomputable def entry (a : Nd) (i j : ℕ) : ℝ :=
  match a with
  | scalar x => x
  | vec n v => if h : axisPos n j < n then v ⟨axisPos n j, h⟩ else 0
  | mat m p M => if h : axisPos m i < m ∧ axisPos p j < p then M ⟨axisPos m i, h.1⟩ ⟨axisPos p j, h.2⟩ else 0

/-- the common length two axes are broadcast to (numpy's broadcasting, as in base_filter.py:57) -/
def bdim (a b : ℕ) : Option ℕ :=
  if a = b then some a else if a = 1 then some b else if b = 1 then some a else none

/-- numpy `a - b`, `a + b` and so on (base_filter.py:57, hodge_decomposition.py:98, simplicial_complex.py:406):
the shapes are broadcast, `ValueError` if that is impossible. -/
noncomputable def binop (op : ℝ → ℝ → ℝ) (a b : Nd) : Py Nd :=
  match bdim a.rows b.rows, bdim a.cols b.cols with
  | some r, some c => .ok (match max a.ndim b.ndim with
    | 0 => .scalar (op (a.entry 0 0) (b.entry 0 0))
    | 1 => .vec c fun j => op (a.entry 0 j) (b.entry 0 j)
    | _ => .mat r c (Matrix.of fun i j => op (a.entry i j) (b.entry i j)))
  | _, _ => .error .valueError

/-- `A @ a` for a dense or csr matrix `A` (eigendecomposition.py:40, simplicial_complex.py:360-363,431-433,
edge_flow_denoising.py:57): `ValueError` when the lengths differ or `a` is a scalar. -/
noncomputable def matmul {m n : ℕ} (A : Matrix (Fin m) (Fin n) ℝ) : Nd → Py Nd
  | scalar _ => .error .valueError
  | vec k v => if h : k = n then .ok (.vec m (A.mulVec fun j => v (Fin.cast h.symm j))) else .error .valueError
  | mat k p M => if h : k = n then .ok (.mat m p (A * Matrix.of fun j c => M (Fin.cast h.symm j) c))
      else .error .valueError

/-- `np.linalg.lstsq(A, a, rcond=None)[0]` (hodge_decomposition.py:36,64): `LinAlgError` when the number of
rows differs or `a` is a scalar; the columns of `a` are separate problems. -/
noncomputable def lstsqA (lib : NumLib) {m n : ℕ} (A : Matrix (Fin m) (Fin n) ℝ) : Nd → Py Nd
  | scalar _ => .error .linAlgError
  | vec k v => if h : k = m then .ok (.vec n (lib.lstsq m n A fun j => v (Fin.cast h.symm j)))
      else .error .linAlgError
  | mat k p M => if h : k = m then
        .ok (.mat n p (Matrix.of fun i c => lib.lstsq m n A (fun j => M (Fin.cast h.symm j) c) i))
      else .error .linAlgError

/-- a function applied to every entry, as `np.round` is (hodge_decomposition.py:40,68,101) -/
def mapEntries (g : ℝ → ℝ) : Nd → Nd
  | scalar x => .scalar (g x)
  | vec n v => .vec n fun j => g (v j)
  | mat m p M => .mat m p (Matrix.of fun i j => g (M i j))

/-- `np.linalg.norm(a)` (base_filter.py:57): the 2-norm of a vector, the Frobenius norm of a matrix, the
magnitude of a scalar. -/
noncomputable def norm : Nd → ℝ
  | scalar x => |x|
  | vec _ v => norm2 v
  | mat _ _ M => Real.sqrt (∑ i, ∑ j, M i j ^ 2)

end Nd

namespace SC

/-- simplicial_complex.py:486-497 `get_divergence`. -/
noncomputable def divergenceA (sc : SC ℝ) (flow : Nd) : Py Nd := Nd.matmul sc.B1 flow

/-- simplicial_complex.py:499-510 `get_curl`. -/
noncomputable def curlA (sc : SC ℝ) (flow : Nd) : Py Nd := Nd.matmul sc.B2.transpose flow

/-- simplicial_complex.py:342-365 `apply_lower_shifting`. -/
noncomputable def lowerShiftA (sc : SC ℝ) (flow : Nd) (steps : Int := 1) : Py Nd :=
  if steps = 1 then Nd.matmul sc.L1l flow else do Nd.matmul sc.L1l (← Nd.matmul sc.L1l flow)

/-- simplicial_complex.py:367-390 `apply_upper_shifting`. -/
noncomputable def upperShiftA (sc : SC ℝ) (flow : Nd) (steps : Int := 1) : Py Nd :=
  if steps = 1 then Nd.matmul sc.L1u flow else do Nd.matmul sc.L1u (← Nd.matmul sc.L1u flow)

/-- simplicial_complex.py:392-406 `apply_k_step_shifting`. -/
noncomputable def kStepShiftA (sc : SC ℝ) (flow : Nd) (steps : Int := 2) : Py Nd := do
  let a ← sc.lowerShiftA flow steps
  let b ← sc.upperShiftA flow steps
  Nd.binop (· + ·) a b

/-- simplicial_complex.py:408-435 `get_simplicial_embeddings`. -/
noncomputable def embeddingsA (lib : NumLib) (sc : SC ℝ) (flow : Nd) : Py (Nd × Nd × Nd) := do
  let uh ← getHarmonicEigenpair lib (.ndarray sc.L1) (1 / 1000)
  let uc ← getCurlEigenpair lib (.ndarray sc.L1u) (1 / 1000)
  let ug ← getGradientEigenpair lib (.ndarray sc.L1l) (1 / 1000)
  let a ← Nd.matmul uh.vecs.transpose flow
  let b ← Nd.matmul uc.vecs.transpose flow
  let c ← Nd.matmul ug.vecs.transpose flow
  pure (a, b, c)

end SC

variable {n e t : ℕ}

/-- hodge_decomposition.py:17-42 `get_gradient_flow`. -/
noncomputable def gradientFlowA (lib : NumLib) (B1 : Matrix (Fin n) (Fin e) ℝ) (flow : Nd)
    (roundFig : Bool) (sig : ℤ) : Py Nd := do
  let p ← Nd.lstsqA lib B1.transpose flow
  let g ← Nd.matmul B1.transpose p
  pure (if roundFig then g.mapEntries fun x => npRound x sig else g)

/-- hodge_decomposition.py:45-70 `get_curl_flow`. -/
noncomputable def curlFlowA (lib : NumLib) (B2 : Matrix (Fin e) (Fin t) ℝ) (flow : Nd)
    (roundFig : Bool) (sig : ℤ) : Py Nd := do
  let w ← Nd.lstsqA lib B2 flow
  let g ← Nd.matmul B2 w
  pure (if roundFig then g.mapEntries fun x => npRound x sig else g)

/-- hodge_decomposition.py:73-103 `get_harmonic_flow`. -/
noncomputable def harmonicFlowA (lib : NumLib) (B1 : Matrix (Fin n) (Fin e) ℝ)
    (B2 : Matrix (Fin e) (Fin t) ℝ) (flow : Nd) (roundFig : Bool) (sig : ℤ) : Py Nd := do
  let g ← gradientFlowA lib B1 flow false 2
  let c ← curlFlowA lib B2 flow false 2
  let d ← Nd.binop (· - ·) flow g
  let h ← Nd.binop (· - ·) d c
  pure (if roundFig then h.mapEntries fun x => npRound x sig else h)

/-- simplicial_complex.py:512-567 `get_component_flow`. -/
noncomputable def SC.componentFlowA (lib : NumLib) (sc : SC ℝ) (flow : Nd)
    (component : String := "gradient") (roundFig : Bool := true) (sig : ℤ := 2) : Py Nd :=
  if component = "harmonic" then harmonicFlowA lib sc.B1 sc.B2 flow roundFig sig
  else if component = "curl" then curlFlowA lib sc.B2 flow roundFig sig
  else if component = "gradient" then gradientFlowA lib sc.B1 flow roundFig sig
  else .error .valueError

/-- base_filter.py:54-57 `calculate_error_NRMSE`. -/
noncomputable def nrmseA (fEst fTrue : Nd) : Py (Option ℝ) := do
  let d ← Nd.binop (· - ·) fEst fTrue
  pure (fdiv d.norm fTrue.norm)

/-- edge_flow_denoising.py:54-60, one pass of the loop: estimate and error. -/
noncomputable def muPassA {E : ℕ} (P : Matrix (Fin E) (Fin E) ℝ) (f fTrue : Nd) (mu : ℝ) :
    Py (Nd × Option ℝ) := do
  let H ← npInv (1 + mu • P)
  let fEst ← Nd.matmul H f
  let err ← nrmseA fEst fTrue
  pure (fEst, err)

/-- edge_flow_denoising.py:25-72 `denoise`: the estimate (that of the last pass) and the errors it records;
filter and frequency responses do not depend on the flows and are left out here. -/
noncomputable def edgeFlowDenoiseA (lib : NumLib) (sc : SC ℝ) (f fTrue : Nd) (pChoice : String)
    (muVals : List ℝ := [1 / 2]) : Py (Nd × List (Option ℝ)) := do
  let P ← sc.getPMatrix pChoice
  let _ ← getEigendecomposition lib (.ndarray P)
  let passes ← muVals.mapM (muPassA P f fTrue)
  match passes.getLast? with
  | none => .error .unboundLocalError
  | some p => pure (p.1, passes.map (·.2))

end Pytspl
