import Verif.Props.GpPredict
import Mathlib.Probability.Distributions.Gaussian.Real
import Mathlib.Analysis.Matrix.PosDef

/-!
# C116: the likelihood metrics printed by `predict`
-/

namespace Pytspl

open Matrix

variable {lib : NumLib} {sc : SC ℝ} {tol : ℝ}

/-- The density at `y` of the normal distribution with the given mean and covariance. -/
noncomputable def normalDensity {n : ℕ} (mean : Fin n → ℝ) (cov : Matrix (Fin n) (Fin n) ℝ) (y : Fin n → ℝ) : ℝ :=
  Real.exp (-(1 / 2) * ((y - mean) ⬝ᵥ cov⁻¹.mulVec (y - mean))) / Real.sqrt ((2 * Real.pi) ^ n * cov.det)

/-- the covariances `predict` returns are positive definite -/
theorem predictive_posDef (m : GpModel sc.E) (hk : m.kernel.FromComplex lib tol) (ht : 0 < tol) (hn : 0 < m.noise)
    (rt rs : List (Fin sc.E)) (y : Fin rt.length → ℝ) : ∃ mean cov,
    m.predictive (edgeTensor rt) (List.ofFn y) (edgeTensor rs) = .ok ⟨rs.length, mean, cov⟩ ∧ cov.PosDef := by
  obtain ⟨mean, cov, c, prior, h1, -, h3, h4⟩ := C101_variance m hk ht hn rt rs y
  refine ⟨mean, cov, h1, ?_⟩
  apply Matrix.PosDef.of_dotProduct_mulVec_pos
  · exact h3
  · intro x hx
    have hx2 : 0 < x ⬝ᵥ x := by
      rcases (dot_self_nonneg x).lt_or_eq with h | h
      · exact h
      · exact absurd (dotProduct_self_eq_zero.1 h.symm) hx
    have := (h4 x).1
    have h5 := mul_pos hn hx2
    simp only [star_trivial]
    linarith

private theorem run_metrics (m : GpModel sc.E) (xTrain xTest : List ℚ) (yTrain : List ℝ) (n : ℕ)
    (mean : Fin n → ℝ) (cov : Matrix (Fin n) (Fin n) ℝ)
    (hp : m.predictive xTrain yTrain xTest = .ok ⟨n, mean, cov⟩) (hn : 2 ≤ n) (y : Fin n → ℝ) :
    ∃ metrics, m.predict xTrain yTrain xTest (List.ofFn y) = .ok (⟨n, mean, cov⟩, metrics) ∧
      metrics.msll = (∑ i, (1 / 2 * Real.log (2 * Real.pi * cov i i) + (y i - mean i) ^ 2 / (2 * cov i i))) / n ∧
      metrics.nlpd = 1 / 2 * ((y - mean) ⬝ᵥ cov⁻¹.mulVec (y - mean) + Real.log cov.det +
        n * Real.log (2 * Real.pi)) / n := by
  have hy : (fun i : Fin n => (List.ofFn y)[(i : ℕ)]?.getD 0) = y := by
    ext i
    simp
  have hr2 : ∃ r, torchR2 y mean = .ok r := by
    unfold torchR2
    rw [if_neg (by omega)]
    exact ⟨_, rfl⟩
  obtain ⟨r, hr⟩ := hr2
  unfold GpModel.predict
  rw [hp]
  simp only [bind, Except.bind]
  have hy2 : ∀ i : Fin n, (List.ofFn y)[(i : ℕ)]?.getD 0 = y i := fun i => congrFun hy i
  rw [if_neg (by simp), hy, hr]
  simp only [hy2]
  refine ⟨_, rfl, rfl, ?_⟩
  simp only [GpPrediction.logProb]
  have e : (fun i => y i - mean i) = y - mean := rfl
  rw [e]
  ring

private theorem log_normalDensity {n : ℕ} (mean : Fin n → ℝ) {cov : Matrix (Fin n) (Fin n) ℝ} (hd : 0 < cov.det)
    (y : Fin n → ℝ) : -Real.log (normalDensity mean cov y) =
      1 / 2 * ((y - mean) ⬝ᵥ cov⁻¹.mulVec (y - mean) + Real.log cov.det + n * Real.log (2 * Real.pi)) := by
  unfold normalDensity
  have h2 : (0 : ℝ) < (2 * Real.pi) ^ n := by positivity
  rw [Real.log_div (Real.exp_pos _).ne' (Real.sqrt_pos.2 (mul_pos h2 hd)).ne', Real.log_exp,
    Real.log_sqrt (mul_pos h2 hd).le, Real.log_mul h2.ne' hd.ne', Real.log_pow]
  ring

private theorem log_gaussianPDF {mu v x : ℝ} (hv : 0 < v) :
    -Real.log (ProbabilityTheory.gaussianPDFReal mu (Real.toNNReal v) x) =
      1 / 2 * Real.log (2 * Real.pi * v) + (x - mu) ^ 2 / (2 * v) := by
  have hp : 0 < 2 * Real.pi * v := by positivity
  unfold ProbabilityTheory.gaussianPDFReal
  rw [Real.coe_toNNReal v hv.le, Real.log_mul (inv_ne_zero (Real.sqrt_pos.2 hp).ne') (Real.exp_pos _).ne',
    Real.log_inv, Real.log_exp, Real.log_sqrt hp.le]
  ring

/-- C116: for training and test edges, at least two of the latter, the log loss printed by `predict` is the
average over the test edges of minus the logarithm of the density of the predicted normal distribution of that
edge, and the negative log predictive density is minus the logarithm of the joint density, divided by the number
of edges.  All these densities are positive, so that the printed numbers are finite. -/
theorem C116_densities (m : GpModel sc.E) (hk : m.kernel.FromComplex lib tol) (ht : 0 < tol) (hn : 0 < m.noise)
    (rt rs : List (Fin sc.E)) (hrs : 2 ≤ rs.length) (yTrain : Fin rt.length → ℝ) (y : Fin rs.length → ℝ) :
    ∃ mean cov metrics,
      m.predict (edgeTensor rt) (List.ofFn yTrain) (edgeTensor rs) (List.ofFn y) =
        .ok (⟨rs.length, mean, cov⟩, metrics) ∧
      metrics.msll = (∑ i, -Real.log (ProbabilityTheory.gaussianPDFReal (mean i) (Real.toNNReal (cov i i)) (y i))) /
        rs.length ∧
      metrics.nlpd = -Real.log (normalDensity mean cov y) / rs.length ∧
      (∀ i, 0 < cov i i ∧ 0 < ProbabilityTheory.gaussianPDFReal (mean i) (Real.toNNReal (cov i i)) (y i)) ∧
      0 < cov.det ∧ 0 < normalDensity mean cov y := by
  obtain ⟨mean, cov, hp, hpd⟩ := predictive_posDef m hk ht hn rt rs yTrain
  obtain ⟨metrics, h1, h2, h3⟩ := run_metrics m _ _ _ _ mean cov hp hrs y
  have hdet := hpd.det_pos
  have hdiag : ∀ i, 0 < cov i i := fun i => hpd.diag_pos
  refine ⟨mean, cov, metrics, h1, ?_, ?_, fun i => ⟨hdiag i, ?_⟩, hdet, ?_⟩
  · rw [h2]
    congr 1
    exact Finset.sum_congr rfl fun i _ => (log_gaussianPDF (hdiag i)).symm
  · rw [h3, log_normalDensity mean hdet]
  · exact ProbabilityTheory.gaussianPDFReal_pos _ _ _ (by simpa using hdiag i)
  · exact div_pos (Real.exp_pos _) (Real.sqrt_pos.2 (mul_pos (by positivity) hdet))

/-- C116: the printed negative log predictive density is smallest, for the given test edges, when the targets equal
the predicted means, and only then. -/
theorem C116_best_targets (m : GpModel sc.E) (hk : m.kernel.FromComplex lib tol) (ht : 0 < tol) (hn : 0 < m.noise)
    (rt rs : List (Fin sc.E)) (hrs : 2 ≤ rs.length) (yTrain : Fin rt.length → ℝ) :
    ∃ mean cov, ∃ best : GpMetrics,
      m.predict (edgeTensor rt) (List.ofFn yTrain) (edgeTensor rs) (List.ofFn mean) =
        .ok (⟨rs.length, mean, cov⟩, best) ∧
      ∀ y, ∃ metrics, m.predict (edgeTensor rt) (List.ofFn yTrain) (edgeTensor rs) (List.ofFn y) =
          .ok (⟨rs.length, mean, cov⟩, metrics) ∧
        (y ≠ mean → best.nlpd < metrics.nlpd ∧ best.msll < metrics.msll) := by
  obtain ⟨mean, cov, hp, hpd⟩ := predictive_posDef m hk ht hn rt rs yTrain
  obtain ⟨best, b1, b2, b3⟩ := run_metrics m _ _ _ _ mean cov hp hrs mean
  have hpos : (0 : ℝ) < rs.length := by
    have : 0 < rs.length := by omega
    exact_mod_cast this
  refine ⟨mean, cov, best, b1, fun y => ?_⟩
  obtain ⟨metrics, h1, h2, h3⟩ := run_metrics m _ _ _ _ mean cov hp hrs y
  refine ⟨metrics, h1, fun hne => ⟨?_, ?_⟩⟩
  · rw [b3, h3]
    apply div_lt_div_of_pos_right _ hpos
    have hx : y - mean ≠ 0 := sub_ne_zero.2 hne
    have hq : 0 < (y - mean) ⬝ᵥ cov⁻¹.mulVec (y - mean) := by
      have := (hpd.inv).dotProduct_mulVec_pos hx
      simpa using this
    rw [sub_self, zero_dotProduct]
    linarith
  · rw [b2, h2]
    apply div_lt_div_of_pos_right _ hpos
    obtain ⟨i, hi⟩ := Function.ne_iff.1 hne
    apply Finset.sum_lt_sum
    · intro j _
      have hc : 0 < cov j j := hpd.diag_pos
      have : 0 ≤ (y j - mean j) ^ 2 / (2 * cov j j) := by positivity
      simp only [sub_self]
      norm_num
      linarith
    · refine ⟨i, Finset.mem_univ _, ?_⟩
      have hc : 0 < cov i i := hpd.diag_pos
      have hs : 0 < (y i - mean i) ^ 2 := by
        have := sub_ne_zero.2 hi
        positivity
      have : 0 < (y i - mean i) ^ 2 / (2 * cov i i) := by positivity
      simp only [sub_self]
      norm_num
      linarith

/-- Non-vacuity of C116. -/
example : ∃ (lib : NumLib) (m : GpModel twoTri.E), m.kernel.FromComplex lib (1 / 1000) ∧ 0 < m.noise ∧
    2 ≤ [(2 : Fin 6), (4 : Fin 6)].length := by
  obtain ⟨lib⟩ := NumLib.exists
  obtain ⟨k, -, hk⟩ := GpKernel.FromComplex.exists lib twoTri (by decide) (1 / 1000) .matern
  exact ⟨lib, ⟨k, 0, none, 1⟩, hk, by norm_num, by decide⟩

end Pytspl
