import Verif.Model.Eigendecomposition
import Verif.Model.HodgeDecomposition
import Mathlib.Analysis.SpecialFunctions.Exp
import Mathlib.Analysis.SpecialFunctions.Sqrt

/-!
# `pytspl/filters/base_filter.py`

Object state: Python dictionaries are mutable and shared, so a filter object carries a heap of
dictionaries and the address of the one `self.history` refers to.  Flows are vectors of the right
length (one entry per edge); flows of another length are not modelled.
-/

namespace Pytspl

open Matrix

/-- `np.linalg.norm` of a vector (base_filter.py:57). -/
noncomputable def norm2 {n : ℕ} (v : Fin n → ℝ) : ℝ := Real.sqrt (v ⬝ᵥ v)

/-- Floating point division as used by numpy: a zero denominator gives inf or nan (base_filter.py:57),
here `none`. -/
noncomputable def fdiv (x y : ℝ) : Option ℝ := if y = 0 then none else some (x / y)

/-- base_filter.py:54-57 `calculate_error_NRMSE`. -/
noncomputable def calculateErrorNRMSE {n : ℕ} (fEst fTrue : Fin n → ℝ) : Option ℝ :=
  fdiv (norm2 (fEst - fTrue)) (norm2 fTrue)

/-- base_filter.py:59-73 `logistic_function` (the returned lambda). -/
noncomputable def logisticFunction (cutOff : ℝ := 1 / 100) (steep : ℝ := 100) (lam : ℝ) : ℝ :=
  1 / (1 + Real.exp (-steep * (lam - cutOff)))

/-- base_filter.py:88-90, one pass of the loop: `v = P @ v; v = v / norm(v)`; dividing by a zero norm
gives nan, kept as `none` by the later passes. -/
noncomputable def powerStep {n : ℕ} (P : Matrix (Fin n) (Fin n) ℝ) (v : Option (Fin n → ℝ)) :
    Option (Fin n → ℝ) := do
  let v ← v
  let u := P.mulVec v
  if norm2 u = 0 then none else some ((norm2 u)⁻¹ • u)

/-- base_filter.py:75-95 `power_iteration`.  Simplification: a 0 by 0 matrix counts as non-finite
(the code returns an empty array). -/
noncomputable def powerIteration {n : ℕ} (P : Matrix (Fin n) (Fin n) ℝ) (iterations : ℕ := 50) :
    Option (Fin n → ℝ) := do
  let v ← (powerStep P)^[iterations] (some fun _ => 1)
  pure fun i => v i + machineEps

/-- `np.mean(P @ v / v)` for the result of the power iteration
(grid_based_filter_design.py:40, chebyshev_filter_design.py:109): non-finite if an entry of `v` is 0
or the matrix is empty. -/
noncomputable def lambdaMax {n : ℕ} (P : Matrix (Fin n) (Fin n) ℝ) : Option ℝ := do
  let v ← powerIteration P
  if (∃ i, v i = 0) ∨ n = 0 then none
  else some ((∑ i, (P.mulVec v) i / v i) / n)

/-- Entries of a history dictionary: `None`, an array, or a reference to another dictionary
(base_filter.py:20-26, 46-52). -/
inductive HVal (E : ℕ)
  | none
  | mat (M : Matrix (Fin E) (Fin E) ℝ)
  | vec (v : Fin E → ℝ)
  | rows (r : List (Fin E → ℝ))
  | errs (e : List (Option ℝ))
  | mats (c : List (Matrix (Fin E) (Fin E) ℝ))
  | ref (addr : ℕ)

/-- A history dictionary (base_filter.py:20-26). -/
abbrev HDict (E : ℕ) := Dict String (HVal E)

/-- State of a filter object: the dictionaries allocated so far and the address of the one bound to
`self.history` (base_filter.py:18-26, 30-35). -/
structure FilterSt (E : ℕ) where
  heap : List (HDict E)
  cur : ℕ

namespace FilterSt
variable {E : ℕ}

/-- The dictionary at an address (`{}` for an address never allocated)
(reading through a reference, base_filter.py:46-52). -/
def deref (st : FilterSt E) (a : ℕ) : HDict E := st.heap[a]?.getD []

/-- `self.history` (base_filter.py:20, 30). -/
def history (st : FilterSt E) : HDict E := st.deref st.cur

/-- Evaluate a dictionary display: a new object (base_filter.py:20-26, 30-35). -/
def alloc (st : FilterSt E) (d : HDict E) : ℕ × FilterSt E :=
  (st.heap.length, { st with heap := st.heap ++ [d] })

/-- `d[key] = value` on the dictionary at address `a`: a mutation seen through every reference
(base_filter.py:46-52). -/
def setKey (st : FilterSt E) (a : ℕ) (key : String) (v : HVal E) : FilterSt E :=
  { st with heap := st.heap.modify a fun d => d.set key v }

end FilterSt

/-- base_filter.py:20-26: the history of a new filter object. -/
def initHistory (E : ℕ) : HDict E :=
  [("filter", .none), ("f_estimated", .none), ("frequency_responses", .none),
    ("extracted_component_error", .none), ("filter_error", .none)]

/-- base_filter.py:13-26 `__init__`; the classes derived from it only call it (ls_filter_design.py:15-17,
grid_based_filter_design.py:16-21, edge_flow_denoising.py:18-23, chebyshev_filter_design.py:15-17). -/
def initFilter (E : ℕ) : FilterSt E := ⟨[initHistory E], 0⟩

/-- base_filter.py:28-35 `_reset_history`: binds `self.history` to a new dictionary (which has no key
`frequency_responses`). -/
def resetHistory {E : ℕ} (st : FilterSt E) : FilterSt E :=
  let (a, st) := st.alloc [("filter", .none), ("f_estimated", .none),
    ("extracted_component_error", .none), ("filter_error", .none)]
  { st with cur := a }

/-- What a design hands to `set_history` (base_filter.py:37-44). -/
structure Design (E : ℕ) where
  filter : HVal E
  fEstimated : HVal E
  frequencyResponses : HVal E
  extractedComponentError : HVal E
  filterError : HVal E

/-- base_filter.py:37-52 `set_history`: mutates the dictionary `self.history` refers to. -/
def setHistory {E : ℕ} (st : FilterSt E) (d : Design E) : FilterSt E :=
  ((((st.setKey st.cur "filter" d.filter).setKey st.cur "f_estimated" d.fEstimated).setKey
    st.cur "frequency_responses" d.frequencyResponses).setKey
    st.cur "extracted_component_error" d.extractedComponentError).setKey
    st.cur "filter_error" d.filterError

namespace SC

/-- base_filter.py:97-111 `get_true_signal`. -/
noncomputable def getTrueSignal (lib : NumLib) (sc : SC ℝ) (f : Fin sc.E → ℝ) (component : String) :
    Py (Fin sc.E → ℝ) :=
  sc.getComponentFlow lib f component (roundFig := false)

/-- base_filter.py:113-142 `get_p_matrix`. -/
noncomputable def getPMatrix (sc : SC ℝ) (pChoice : String := "L1") :
    Py (Matrix (Fin sc.E) (Fin sc.E) ℝ) :=
  if pChoice = "L1" then .ok sc.L1
  else if pChoice = "L1L" then .ok sc.L1l
  else if pChoice = "L1U" then .ok sc.L1u
  else .error .valueError

/-- base_filter.py:144-196 `get_component_coefficients`: a mask over the concatenated harmonic, curl
and gradient eigenvalues, permuted by `argsort`; fancy indexing with a position `>= len(mask)` raises
`IndexError`. -/
noncomputable def getComponentCoefficients (lib : NumLib) (sc : SC ℝ) (component : String) :
    Py (List ℝ) := do
  let eh ← sc.getComponentEigenpair lib "harmonic"
  let ec ← sc.getComponentEigenpair lib "curl"
  let eg ← sc.getComponentEigenpair lib "gradient"
  let eigenVals := List.ofFn eh.vals ++ List.ofFn ec.vals ++ List.ofFn eg.vals
  let mask ←
    if component = "harmonic" then
      pure ((List.range sc.E).map fun i => if i < eh.num then (1 : ℝ) else 0)
    else if component = "curl" then
      pure ((List.range sc.E).map fun i =>
        if eh.num ≤ i ∧ i < eh.num + ec.num then (1 : ℝ) else 0)
    else if component = "gradient" then
      pure ((List.range sc.E).map fun i => if eh.num + ec.num ≤ i then (1 : ℝ) else 0)
    else .error .valueError
  (lib.argsort eigenVals).mapM fun i =>
    match mask[i]? with
    | some x => .ok x
    | none => .error .indexError

end SC
end Pytspl
