import Verif.Model.FloatArith
import Verif.Model.NumLib

/-!
# The Hodge components in floating point arithmetic

`pytspl/decomposition/hodge_decomposition.py` with every operation after the solver rounded.  What `np.linalg.lstsq`
returns is not restricted.
-/

namespace Pytspl

open Matrix

/-- numpy's power of ten for `d` decimals (hodge_decomposition.py:40), a double -/
noncomputable def powerOfTen (R : Rounding) (d : ℤ) : ℝ := R.rnd (10 ^ d.natAbs)

/-- `np.round(x, d)` on one double (hodge_decomposition.py:40, 68, 101): numpy multiplies by the power of ten (divides by
it for negative `d`), rounds to a whole number and divides (multiplies); nothing but the last but one step happens for
`d = 0`. -/
noncomputable def flNpRound (R : Rounding) (x : ℝ) (d : ℤ) : ℝ :=
  if d = 0 then (rint x : ℝ)
  else if 0 < d then R.rnd ((rint (R.rnd (x * powerOfTen R d)) : ℝ) / powerOfTen R d)
  else R.rnd ((rint (R.rnd (x / powerOfTen R d)) : ℝ) * powerOfTen R d)

/-- The unrounded components of a flow for the solutions `p` and `w` the solver returns: `B1.T @ p`
(hodge_decomposition.py:37), `B2 @ w` (hodge_decomposition.py:65) and `flow - gradient_flow - curl_flow`
(hodge_decomposition.py:98). -/
structure SC.FlParts (R : Rounding) (sc : SC ℝ) (f : Fin sc.E → ℝ) (p : Fin sc.N → ℝ) (w : Fin sc.T → ℝ)
    (g c h : Fin sc.E → ℝ) : Prop where
  gradient : FlMulVec R sc.B1.transpose p g
  curl : FlMulVec R sc.B2 w c
  harmonic : ∀ j, h j = R.rnd (R.rnd (f j - g j) - c j)

end Pytspl
