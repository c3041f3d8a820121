import Verif.Model.FloatArith
import Verif.Model.TrendFilter

/-!
# Reported errors in floating point arithmetic
-/

namespace Pytspl

/-- `np.linalg.norm(v)` of a vector of doubles: `sqrt(v.dot(v))`, with the square root rounded once (base_filter.py:57).
Simplification: no square underflows or overflows. -/
def FlNorm (R : Rounding) {n : ℕ} (v : Fin n → ℝ) (y : ℝ) : Prop := ∃ s, FlDot R v v s ∧ y = R.rnd (Real.sqrt s)

/-- base_filter.py:54-57 `calculate_error_NRMSE` in doubles; nothing is said if the computed norm of `f_true` is zero. -/
def FlNRMSE (R : Rounding) {n : ℕ} (fEst fTrue : Fin n → ℝ) (e : ℝ) : Prop :=
  ∃ a b, FlNorm R (fun i => R.rnd (fEst i - fTrue i)) a ∧ FlNorm R fTrue b ∧ b ≠ 0 ∧ e = R.rnd (a / b)

/-- `np.mean(errors, axis=1)` (simplicial_trend_filter.py:262, 366, 488) of one row of doubles: the sum in any order,
divided by the number of entries. -/
def FlMean (R : Rounding) (l : List ℝ) (y : ℝ) : Prop := l ≠ [] ∧ ∃ s, FlAcc R l s ∧ y = R.rnd (s / l.length)

end Pytspl
