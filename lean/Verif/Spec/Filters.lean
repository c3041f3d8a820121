import Verif.Model.BaseFilter
import Mathlib.LinearAlgebra.Matrix.Charpoly.Basic
import Mathlib.Algebra.Polynomial.Roots
import Mathlib.Algebra.Polynomial.AlgebraMap
import Mathlib.Data.Real.Basic

/-!
# What a polynomial filter design should record
-/

namespace Pytspl

open Polynomial

variable {E : ℕ}

/-- sum of squared deviations of a polynomial from targets: `pts` are pairs (frequency, target) -/
noncomputable def fitResidual (pts : List (ℝ × ℝ)) (p : ℝ[X]) : ℝ :=
  (pts.map fun x => (p.eval x.1 - x.2) ^ 2).sum

/-- `lam` lists the eigenvalues of `P` in ascending order with multiplicity -/
def IsSpectrum (P : Matrix (Fin E) (Fin E) ℝ) (lam : Fin E → ℝ) : Prop :=
  Monotone lam ∧ P.charpoly.roots = Finset.univ.val.map lam

/-- The history entry `d` records a polynomial filter of size `L` in `P` fitted to `pts`, applied to
`f` and compared with `fTrue`: there are polynomials `p 0, ..., p (L-1)`, `p l` of degree at most `l`
and of least residual among those, such that the stored filter is `p (L-1)` of the matrix, the stored
estimate is the filtered flow, the `l`-th stored frequency response is `p l` at the eigenvalues of `P`
and the `l`-th stored error is the one of the `l`-th filtered flow. -/
def RecordsFit (P : Matrix (Fin E) (Fin E) ℝ) (f fTrue : Fin E → ℝ) (pts : List (ℝ × ℝ)) (L : ℕ)
    (d : HDict E) : Prop :=
  0 < L ∧ ∃ p : ℕ → ℝ[X],
    (∀ l < L, (p l).natDegree ≤ l ∧
      ∀ q : ℝ[X], q.natDegree ≤ l → fitResidual pts (p l) ≤ fitResidual pts q) ∧
    d.get? "filter" = some (.mat (aeval P (p (L - 1)))) ∧
    d.get? "f_estimated" = some (.vec ((aeval P (p (L - 1))).mulVec f)) ∧
    (∃ resp, d.get? "frequency_responses" = some (.rows resp) ∧ resp.length = L ∧
      ∀ l < L, ∀ lam, IsSpectrum P lam → resp[l]? = some fun k => (p l).eval (lam k)) ∧
    (∃ errs, d.get? "extracted_component_error" = some (.errs errs) ∧ errs.length = L ∧
      ∀ l < L, errs[l]? = some (calculateErrorNRMSE ((aeval P (p l)).mulVec f) fTrue))

/-- every entry of the history is `None` -/
def AllNone (d : HDict E) : Prop := ∀ k v, d.get? k = some v → v = .none

end Pytspl
