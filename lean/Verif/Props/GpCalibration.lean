import Verif.Props.GpDensity
import Verif.Props.NoiseAverage
import Mathlib.Data.Matrix.ColumnRowPartitioned

/-!
# C178: what the metrics of `predict` are on average, for data that follow the model
-/

namespace Pytspl

open Matrix MeasureTheory

variable {lib : NumLib} {sc : SC ℝ} {tol : ℝ} {Ω : Type*} [MeasurableSpace Ω]

/-! ## Specification -/

/-- Random observations `y` at the training edges `rt` and `t` at the test edges `rs` with the means and covariances the
model assumes: all have mean `c`, two observations covary as the prior `K` says for their edges, and the variance of each
observation exceeds the one of the prior by the noise. -/
structure FollowsModel (m : GpModel sc.E) (rt rs : List (Fin sc.E)) (Pr : Measure Ω) (y : Ω → Fin rt.length → ℝ)
    (t : Ω → Fin rs.length → ℝ) (c : ℝ) (K : Matrix (Fin sc.E) (Fin sc.E) ℝ) : Prop where
  prior : m.HasPrior c K
  prob : IsProbabilityMeasure Pr
  intY : ∀ b, Integrable (fun ω => y ω b) Pr
  intT : ∀ a, Integrable (fun ω => t ω a) Pr
  meanY : ∀ b, ∫ ω, y ω b ∂Pr = c
  meanT : ∀ a, ∫ ω, t ω a ∂Pr = c
  intYY : ∀ b b', Integrable (fun ω => (y ω b - c) * (y ω b' - c)) Pr
  intYT : ∀ b a, Integrable (fun ω => (y ω b - c) * (t ω a - c)) Pr
  intTT : ∀ a a', Integrable (fun ω => (t ω a - c) * (t ω a' - c)) Pr
  covYY : ∀ b b', ∫ ω, (y ω b - c) * (y ω b' - c) ∂Pr = K rt[b] rt[b'] + if b = b' then m.noise else 0
  covYT : ∀ b a, ∫ ω, (y ω b - c) * (t ω a - c) ∂Pr = K rt[b] rs[a]
  covTT : ∀ a a', ∫ ω, (t ω a - c) * (t ω a' - c) ∂Pr = K rs[a] rs[a'] + if a = a' then m.noise else 0

/-! ## Second moments of linear combinations -/

private theorem second_moment {ι : Type*} [Fintype ι] {Pr : Measure Ω} {g : Ω → ι → ℝ} {M : Matrix ι ι ℝ}
    (hi : ∀ i j, Integrable (fun ω => g ω i * g ω j) Pr) (hM : ∀ i j, ∫ ω, g ω i * g ω j ∂Pr = M i j) {n : ℕ}
    (A : Matrix (Fin n) ι ℝ) (a a' : Fin n) :
    Integrable (fun ω => A.mulVec (g ω) a * A.mulVec (g ω) a') Pr ∧
    ∫ ω, A.mulVec (g ω) a * A.mulVec (g ω) a' ∂Pr = (A * M * A.transpose) a a' := by
  have e : (fun ω => A.mulVec (g ω) a * A.mulVec (g ω) a') =
      fun ω => ∑ i, ∑ j, A a i * A a' j * (g ω i * g ω j) := by
    funext ω
    rw [mulVec, mulVec, dotProduct, dotProduct, Finset.sum_mul_sum]
    exact Finset.sum_congr rfl fun i _ => Finset.sum_congr rfl fun j _ => by ring
  have hi' : ∀ i j, Integrable (fun ω => A a i * A a' j * (g ω i * g ω j)) Pr := fun i j => (hi i j).const_mul _
  rw [e]
  refine ⟨integrable_finsetSum _ fun i _ => integrable_finsetSum _ fun j _ => hi' i j, ?_⟩
  rw [integral_finsetSum _ fun i _ => integrable_finsetSum _ fun j _ => hi' i j]
  simp only [integral_finsetSum _ fun j _ => hi' _ j, integral_const_mul, hM]
  rw [mul_apply]
  simp only [mul_apply, transpose_apply, Finset.sum_mul]
  rw [Finset.sum_comm]
  exact Finset.sum_congr rfl fun j _ => Finset.sum_congr rfl fun i _ => by ring

/-- C178: for data that follow the model the predictions are unbiased, and the covariances `predict` returns, which do not
depend on the data, are those of the differences between the predictions and the test values. -/
theorem C178_calibrated (m : GpModel sc.E) (hk : m.kernel.FromComplex lib tol) (ht : 0 < tol) (hn : 0 < m.noise)
    (rt rs : List (Fin sc.E)) {Pr : Measure Ω} {y : Ω → Fin rt.length → ℝ} {t : Ω → Fin rs.length → ℝ} {c : ℝ}
    {K : Matrix (Fin sc.E) (Fin sc.E) ℝ} (h : FollowsModel m rt rs Pr y t c K) :
    ∃ (mean : Ω → Fin rs.length → ℝ) (cov : Matrix (Fin rs.length) (Fin rs.length) ℝ),
      (∀ ω, m.predictive (edgeTensor rt) (List.ofFn (y ω)) (edgeTensor rs) = .ok ⟨rs.length, mean ω, cov⟩) ∧
      (∀ a, ∫ ω, (t ω a - mean ω a) ∂Pr = 0) ∧
      ∀ a a', Integrable (fun ω => (t ω a - mean ω a) * (t ω a' - mean ω a')) Pr ∧
        ∫ ω, (t ω a - mean ω a) * (t ω a' - mean ω a') ∂Pr = cov a a' := by
  have := h.prob
  have hu := HasPrior.unique h.prior (m.hasPrior hk ht)
  have hK : K = m.prior := hu.1
  subst hK
  have hps := m.prior_psd hk ht
  set S := (obsCov m.prior m.noise rt.get)⁻¹ with hS
  set B : Matrix (Fin rs.length) (Fin rt.length) ℝ := Matrix.of fun a b => m.prior (rs.get a) (rt.get b) with hB
  have hc : ∀ _ : Fin rs.length, m.meanConst.getD 0 = c := fun a => (hu.2 (Fin.pos rs[a])).symm
  set g : Ω → Fin rt.length ⊕ Fin rs.length → ℝ := fun ω => Sum.elim (fun b => y ω b - c) (fun a => t ω a - c) with hg
  set A : Matrix (Fin rs.length) (Fin rt.length ⊕ Fin rs.length) ℝ := fromCols (-(B * S)) 1 with hA
  have he : ∀ ω a, t ω a - (m.meanConst.getD 0 + B.mulVec (S.mulVec fun b => y ω b - m.meanConst.getD 0) a) =
      A.mulVec (g ω) a := by
    intro ω a
    rw [hA, fromCols_mulVec, hc a, neg_mulVec, one_mulVec, mulVec_mulVec]
    simp only [hg, Pi.add_apply, Pi.neg_apply, Function.comp_apply, Sum.elim_inr]
    have e2 : (Sum.elim (fun b => y ω b - c) fun a => t ω a - c) ∘ Sum.inl = fun b => y ω b - c := rfl
    rw [e2]
    ring
  refine ⟨fun ω a => t ω a - A.mulVec (g ω) a, postCov m.prior m.noise rt.get rs.get + m.noise • 1, fun ω => ?_, ?_⟩
  · rw [predictive_eq m hk ht rt rs (y ω)]
    congr 2
    funext a
    have := he ω a
    change m.meanConst.getD 0 + B.mulVec (S.mulVec fun b => y ω b - m.meanConst.getD 0) a = _
    linarith
  simp only [sub_sub_cancel]
  have intg : ∀ i, Integrable (fun ω => g ω i) Pr := by
    rintro (b | a)
    · exact (h.intY b).sub (integrable_const _)
    · exact (h.intT a).sub (integrable_const _)
  have meang : ∀ i, ∫ ω, g ω i ∂Pr = 0 := by
    rintro (b | a)
    · change ∫ ω, (y ω b - c) ∂Pr = 0
      rw [integral_sub (h.intY b) (integrable_const _), h.meanY]
      simp
    · change ∫ ω, (t ω a - c) ∂Pr = 0
      rw [integral_sub (h.intT a) (integrable_const _), h.meanT]
      simp
  have hi : ∀ i j, Integrable (fun ω => g ω i * g ω j) Pr := by
    rintro (b | a) (b' | a')
    · exact h.intYY b b'
    · exact h.intYT b a'
    · have e : (fun ω => g ω (Sum.inr a) * g ω (Sum.inl b')) = fun ω => (y ω b' - c) * (t ω a - c) := by
        funext ω; exact mul_comm _ _
      rw [e]
      exact h.intYT b' a
    · exact h.intTT a a'
  set M : Matrix (Fin rt.length ⊕ Fin rs.length) (Fin rt.length ⊕ Fin rs.length) ℝ :=
    fromBlocks (obsCov m.prior m.noise rt.get) B.transpose B
      ((Matrix.of fun a b => m.prior (rs.get a) (rs.get b)) + m.noise • 1) with hMdef
  have hM : ∀ i j, ∫ ω, g ω i * g ω j ∂Pr = M i j := by
    rintro (b | a) (b' | a')
    · refine (h.covYY b b').trans ?_
      simp only [hMdef, fromBlocks_apply₁₁, obsCov, Matrix.add_apply, of_apply, Matrix.smul_apply, one_apply, smul_eq_mul,
        mul_ite, mul_one, mul_zero]
      rfl
    · refine (h.covYT b a').trans ?_
      simp only [hMdef, fromBlocks_apply₁₂, transpose_apply, hB, of_apply]
      exact (congrFun (congrFun hps.1 _) _).symm
    · have e : (fun ω => g ω (Sum.inr a) * g ω (Sum.inl b')) = fun ω => (y ω b' - c) * (t ω a - c) := by
        funext ω; exact mul_comm _ _
      rw [e, h.covYT b' a]
      simp only [hMdef, fromBlocks_apply₂₁, hB, of_apply]
      exact (congrFun (congrFun hps.1 _) _).symm
    · refine (h.covTT a a').trans ?_
      simp only [hMdef, fromBlocks_apply₂₂, Matrix.add_apply, of_apply, Matrix.smul_apply, one_apply, smul_eq_mul, mul_ite,
        mul_one, mul_zero]
      rfl
  refine ⟨fun a => ?_, fun a a' => ?_⟩
  · have e : (fun ω => A.mulVec (g ω) a) = fun ω => ∑ i, A a i * g ω i := rfl
    rw [e, integral_finsetSum _ fun i _ => (intg i).const_mul _]
    simp only [integral_const_mul, meang, mul_zero, Finset.sum_const_zero]
  · have h2 := second_moment hi hM A a a'
    refine ⟨h2.1, h2.2.trans ?_⟩
    obtain ⟨i1, i2⟩ := obsCov_inv hps hn rt.get
    have hSt : S.transpose = S := obsCov_inv_symm hps m.noise rt.get
    have e : A * M * A.transpose = postCov m.prior m.noise rt.get rs.get + m.noise • 1 := by
      rw [hA, hMdef, fromCols_mul_fromBlocks, transpose_fromCols, fromCols_mul_fromRows, transpose_neg, transpose_mul, hSt,
        transpose_one, Matrix.mul_one, Matrix.one_mul, Matrix.one_mul, Matrix.neg_mul, Matrix.mul_assoc B S, i2,
        Matrix.mul_one, neg_add_cancel, Matrix.zero_mul, zero_add, Matrix.neg_mul]
      unfold postCov
      abel
    rw [e]

private theorem metrics_of (m : GpModel sc.E) (xTrain xTest : List ℚ) (yTrain : List ℝ) (n : ℕ)
    (mean : Fin n → ℝ) (cov : Matrix (Fin n) (Fin n) ℝ)
    (hp : m.predictive xTrain yTrain xTest = .ok ⟨n, mean, cov⟩) (hn : 2 ≤ n) (y : Fin n → ℝ) :
    ∃ metrics, m.predict xTrain yTrain xTest (List.ofFn y) = .ok (⟨n, mean, cov⟩, metrics) ∧
      metrics.mse = (∑ i, (y i - mean i) * (y i - mean i)) / n ∧
      metrics.msll = (∑ i, (1 / 2 * Real.log (2 * Real.pi * cov i i) + (y i - mean i) * (y i - mean i) / (2 * cov i i))) / n ∧
      metrics.nlpd = 1 / 2 * (∑ i, ∑ j, cov⁻¹ i j * ((y i - mean i) * (y j - mean j)) + Real.log cov.det +
        n * Real.log (2 * Real.pi)) / n := by
  have hy : (fun i : Fin n => (List.ofFn y)[(i : ℕ)]?.getD 0) = y := by
    ext i
    simp
  have hr2 : ∃ r, torchR2 y mean = .ok r := by
    unfold torchR2
    rw [if_neg (by omega)]
    exact ⟨_, rfl⟩
  obtain ⟨r, hr⟩ := hr2
  unfold GpModel.predict
  rw [hp]
  simp only [bind, Except.bind]
  have hy2 : ∀ i : Fin n, (List.ofFn y)[(i : ℕ)]?.getD 0 = y i := fun i => congrFun hy i
  rw [if_neg (by simp), hy, hr]
  simp only [hy2]
  refine ⟨_, rfl, ?_, ?_, ?_⟩
  · change (∑ i, (mean i - y i) ^ 2) / (n : ℝ) = _
    congr 1
    exact Finset.sum_congr rfl fun i _ => by ring
  · change (∑ i, (1 / 2 * Real.log (2 * Real.pi * cov i i) + (y i - mean i) ^ 2 / (2 * cov i i))) / (n : ℝ) = _
    congr 1
    exact Finset.sum_congr rfl fun i _ => by rw [sq]
  · simp only [GpPrediction.logProb, dotProduct, mulVec]
    have e : ∑ i, (y i - mean i) * ∑ j, cov⁻¹ i j * (y j - mean j) =
        ∑ i, ∑ j, cov⁻¹ i j * ((y i - mean i) * (y j - mean j)) := by
      refine Finset.sum_congr rfl fun i _ => ?_
      rw [Finset.mul_sum]
      exact Finset.sum_congr rfl fun j _ => by ring
    rw [e]
    ring

/-- C178: so on average over such data the metrics `predict` prints are known beforehand.  The mean squared error is the
average of the returned variances, and the log losses are those of the returned normal distribution itself: half the
logarithm of 2 pi e times the variance for each edge, and of the determinant for all. -/
theorem C178_metrics (m : GpModel sc.E) (hk : m.kernel.FromComplex lib tol) (ht : 0 < tol) (hn : 0 < m.noise)
    (rt rs : List (Fin sc.E)) (hrs : 2 ≤ rs.length) {Pr : Measure Ω} {y : Ω → Fin rt.length → ℝ}
    {t : Ω → Fin rs.length → ℝ} {c : ℝ} {K : Matrix (Fin sc.E) (Fin sc.E) ℝ} (h : FollowsModel m rt rs Pr y t c K) :
    ∃ (mean : Ω → Fin rs.length → ℝ) (cov : Matrix (Fin rs.length) (Fin rs.length) ℝ) (metrics : Ω → GpMetrics),
      (∀ ω, m.predict (edgeTensor rt) (List.ofFn (y ω)) (edgeTensor rs) (List.ofFn (t ω)) =
        .ok (⟨rs.length, mean ω, cov⟩, metrics ω)) ∧
      ∫ ω, (metrics ω).mse ∂Pr = (∑ a, cov a a) / rs.length ∧
      ∫ ω, (metrics ω).msll ∂Pr = (∑ a, 1 / 2 * (Real.log (2 * Real.pi * cov a a) + 1)) / rs.length ∧
      ∫ ω, (metrics ω).nlpd ∂Pr =
        1 / 2 * (Real.log cov.det + rs.length * (Real.log (2 * Real.pi) + 1)) / rs.length := by
  have := h.prob
  obtain ⟨mean, cov, h1, -, h2⟩ := C178_calibrated m hk ht hn rt rs h
  have hpd : cov.PosDef := by
    have hne : Nonempty Ω := by
      by_contra hne
      rw [not_nonempty_iff] at hne
      have h3 := measure_univ (μ := Pr)
      rw [Set.univ_eq_empty_iff.2 hne, measure_empty] at h3
      exact zero_ne_one h3
    obtain ⟨ω⟩ := hne
    obtain ⟨mean', cov', k1, k2⟩ := predictive_posDef m hk ht hn rt rs (y ω)
    have := (h1 ω).symm.trans k1
    injection this with this
    injection this with _ _ this
    rwa [this]
  choose metrics k1 k2 k3 k4 using fun ω => metrics_of m _ _ _ _ (mean ω) cov (h1 ω) hrs (t ω)
  have hpos : (0 : ℝ) < rs.length := by
    have : 0 < rs.length := by omega
    exact_mod_cast this
  refine ⟨mean, cov, metrics, k1, ?_, ?_, ?_⟩
  · simp only [k2]
    rw [integral_div, integral_finsetSum _ fun a _ => (h2 a a).1]
    simp only [(h2 _ _).2]
  · simp only [k3]
    have i1 : ∀ a, Integrable (fun ω => 1 / 2 * Real.log (2 * Real.pi * cov a a) +
        (t ω a - mean ω a) * (t ω a - mean ω a) / (2 * cov a a)) Pr :=
      fun a => (integrable_const _).add ((h2 a a).1.div_const _)
    rw [integral_div, integral_finsetSum _ fun a _ => i1 a]
    congr 1
    refine Finset.sum_congr rfl fun a _ => ?_
    rw [integral_add (integrable_const _) ((h2 a a).1.div_const _), integral_div, (h2 a a).2, integral_const]
    have h3 : 0 < cov a a := hpd.diag_pos
    simp only [probReal_univ, one_smul]
    field_simp
  · simp only [k4]
    have i1 : ∀ a b, Integrable (fun ω => cov⁻¹ a b * ((t ω a - mean ω a) * (t ω b - mean ω b))) Pr :=
      fun a b => (h2 a b).1.const_mul _
    have i2 : Integrable (fun ω => ∑ a, ∑ b, cov⁻¹ a b * ((t ω a - mean ω a) * (t ω b - mean ω b))) Pr :=
      integrable_finsetSum _ fun a _ => integrable_finsetSum _ fun b _ => i1 a b
    have e1 : ∫ ω, ∑ a, ∑ b, cov⁻¹ a b * ((t ω a - mean ω a) * (t ω b - mean ω b)) ∂Pr = rs.length := by
      rw [integral_finsetSum _ fun a _ => integrable_finsetSum _ fun b _ => i1 a b]
      simp only [integral_finsetSum _ fun b _ => i1 _ b, integral_const_mul, (h2 _ _).2]
      have hT : ∀ a b, cov a b = cov b a := fun a b => (congrFun (congrFun hpd.isHermitian a) b).symm
      have e2 : ∑ a, ∑ b, cov⁻¹ a b * cov a b = trace (cov⁻¹ * cov) := by
        rw [trace]
        refine Finset.sum_congr rfl fun a _ => ?_
        rw [diag_apply, mul_apply]
        exact Finset.sum_congr rfl fun b _ => by rw [hT a b]
      rw [e2, nonsing_inv_mul _ hpd.det_pos.ne'.isUnit, trace_one, Fintype.card_fin]
    have i3 : Integrable (fun ω => ∑ a, ∑ b, cov⁻¹ a b * ((t ω a - mean ω a) * (t ω b - mean ω b)) + Real.log cov.det) Pr :=
      i2.add (integrable_const _)
    rw [integral_div, integral_const_mul, integral_add i3 (integrable_const _),
      integral_add i2 (integrable_const _), e1, integral_const, integral_const]
    simp only [probReal_univ, one_smul]
    ring

/-! ## The hypotheses can be met -/

private theorem white_cov {E : ℕ} {Pr : Measure Ω} {x : Ω → Fin E → ℝ} (hx : WhiteNoise Pr x 1) {n : ℕ}
    (A : Matrix (Fin n) (Fin E) ℝ) (a a' : Fin n) :
    Integrable (fun ω => A.mulVec (x ω) a) Pr ∧ ∫ ω, A.mulVec (x ω) a ∂Pr = 0 ∧
    Integrable (fun ω => A.mulVec (x ω) a * A.mulVec (x ω) a') Pr ∧
    ∫ ω, A.mulVec (x ω) a * A.mulVec (x ω) a' ∂Pr = (A * A.transpose) a a' := by
  have h1 := second_moment (M := 1) hx.int2 (fun i j => by rw [hx.cov, one_apply]) A a a'
  rw [Matrix.mul_one] at h1
  have i1 : ∀ j, Integrable (fun ω => A a j * x ω j) Pr := fun j => (hx.int1 j).const_mul _
  have e : (fun ω => A.mulVec (x ω) a) = fun ω => ∑ j, A a j * x ω j := rfl
  refine ⟨?_, ?_, h1⟩
  · rw [e]; exact integrable_finsetSum _ fun j _ => i1 j
  · rw [e, integral_finsetSum _ fun j _ => i1 j]
    simp only [integral_const_mul, hx.mean, mul_zero, Finset.sum_const_zero]

/-- For every model and all training and test edges there are random observations that follow the model. -/
theorem FollowsModel.exists (m : GpModel sc.E) (hk : m.kernel.FromComplex lib tol) (ht : 0 < tol) (hn : 0 < m.noise)
    (rt rs : List (Fin sc.E)) (hE : 0 < sc.E) : ∃ (N : ℕ) (Pr : Measure (Fin N × Bool)) (y : Fin N × Bool → Fin rt.length → ℝ)
    (t : Fin N × Bool → Fin rs.length → ℝ) (c : ℝ) (K : Matrix (Fin sc.E) (Fin sc.E) ℝ),
    FollowsModel m rt rs Pr y t c K := by
  have hps := m.prior_psd hk ht
  have hU := lib.isEig hps
  set U := (lib.eigh sc.E m.prior).2 with hUd
  set w := (lib.eigh sc.E m.prior).1 with hwd
  set R : Matrix (Fin sc.E) (Fin sc.E) ℝ := U * diagonal fun i => Real.sqrt (w i) with hR
  have hRR : R * R.transpose = m.prior := by
    rw [hR, transpose_mul, diagonal_transpose, Matrix.mul_assoc, ← Matrix.mul_assoc (diagonal _), diagonal_mul_diagonal,
      ← Matrix.mul_assoc]
    have e : (fun i => Real.sqrt (w i) * Real.sqrt (w i)) = w := funext fun i => Real.mul_self_sqrt (hU.nonneg hps i)
    rw [e]
    exact hU.recon.symm
  set k := (rt ++ rs).length with hkd
  obtain ⟨Pr, x, hx⟩ := WhiteNoise.exists (sc.E + k) (by omega) (by norm_num : (0 : ℝ) ≤ 1)
  set A : Matrix (Fin k) (Fin (sc.E + k)) ℝ := Matrix.of fun a => Fin.append (R (rt ++ rs)[a])
    (fun b => if a = b then Real.sqrt m.noise else 0) with hA
  have hAA : ∀ a a', (A * A.transpose) a a' = m.prior (rt ++ rs)[a] (rt ++ rs)[a'] + if a = a' then m.noise else 0 := by
    intro a a'
    rw [mul_apply, Fin.sum_univ_add, ← hRR, mul_apply]
    simp only [hA, transpose_apply, of_apply, Fin.append_left, Fin.append_right]
    congr 1
    simp only [ite_mul, zero_mul, mul_ite, mul_zero, Finset.sum_ite_eq, Finset.mem_univ, if_true]
    by_cases h : a = a'
    · rw [if_pos h, if_pos h, Real.mul_self_sqrt hn.le]
    · rw [if_neg h, if_neg h]
  have hlen : rt.length + rs.length = k := by rw [hkd, List.length_append]
  let iy : Fin rt.length → Fin k := fun b => ⟨b, by omega⟩
  let it : Fin rs.length → Fin k := fun a => ⟨rt.length + a, by omega⟩
  have ey : ∀ b, (rt ++ rs)[iy b] = rt[b] := fun b => by
    simp only [iy, Fin.getElem_fin]
    exact List.getElem_append_left b.isLt
  have et : ∀ a, (rt ++ rs)[it a] = rs[a] := fun a => by
    simp only [it, Fin.getElem_fin]
    rw [List.getElem_append_right (by omega)]
    congr 1
    omega
  have dy : ∀ b b', iy b = iy b' ↔ b = b' := fun b b' => by simp [iy, Fin.ext_iff]
  have dt : ∀ a a', it a = it a' ↔ a = a' := fun a a' => by simp [it, Fin.ext_iff]
  have dyt : ∀ b a, iy b ≠ it a := fun b a h => by
    have := congrArg Fin.val h
    simp only [iy, it] at this
    omega
  set c := m.meanConst.getD 0 with hc
  have hp := hx.prob
  have hW := white_cov hx A
  refine ⟨_, Pr, fun ω b => c + A.mulVec (x ω) (iy b), fun ω a => c + A.mulVec (x ω) (it a), c, m.prior,
    m.hasPrior hk ht, hx.prob, fun b => (integrable_const _).add (hW _ (iy b)).1,
    fun a => (integrable_const _).add (hW _ (it a)).1, fun b => ?_, fun a => ?_, ?_, ?_, ?_, ?_, ?_, ?_⟩
  · rw [integral_add (integrable_const _) (hW _ (iy b)).1, (hW _ (iy b)).2.1]
    simp
  · rw [integral_add (integrable_const _) (hW _ (it a)).1, (hW _ (it a)).2.1]
    simp
  all_goals simp only [add_sub_cancel_left]
  · exact fun b b' => (hW _ _).2.2.1
  · exact fun b b' => (hW _ _).2.2.1
  · exact fun b b' => (hW _ _).2.2.1
  · intro b b'
    rw [(hW _ _).2.2.2, hAA, ey, ey]
    simp only [dy]
  · intro b a
    rw [(hW _ _).2.2.2, hAA, ey, et, if_neg (dyt b a), add_zero]
  · intro a a'
    rw [(hW _ _).2.2.2, hAA, et, et]
    simp only [dt]

/-- three training edges and two test edges of two triangles -/
example : ∃ (lib : NumLib) (m : GpModel twoTri.E), m.kernel.FromComplex lib (1 / 1000) ∧ 0 < m.noise ∧
    ∃ (N : ℕ) (Pr : Measure (Fin N × Bool)) (y : Fin N × Bool → Fin 3 → ℝ) (t : Fin N × Bool → Fin 2 → ℝ) (c : ℝ)
      (K : Matrix (Fin twoTri.E) (Fin twoTri.E) ℝ),
      FollowsModel m [(0 : Fin 6), (1 : Fin 6), (3 : Fin 6)] [(2 : Fin 6), (4 : Fin 6)] Pr y t c K := by
  obtain ⟨lib⟩ := NumLib.exists
  obtain ⟨k, -, hk⟩ := GpKernel.FromComplex.exists lib twoTri (by decide) (1 / 1000) .matern
  have h := FollowsModel.exists (⟨k, 0, none, 1⟩ : GpModel twoTri.E) hk (by norm_num) (by norm_num)
    [(0 : Fin 6), (1 : Fin 6), (3 : Fin 6)] [(2 : Fin 6), (4 : Fin 6)] (by decide)
  exact ⟨lib, ⟨k, 0, none, 1⟩, hk, by norm_num, h⟩

end Pytspl
