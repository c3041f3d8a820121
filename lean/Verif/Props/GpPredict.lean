import Verif.Model.GpPredict
import Verif.Lemmas.Regression
import Verif.Props.GaussianProcess

/-!
# C101, C102: predictions of the Gaussian process and their metrics
-/

namespace Pytspl

open Matrix

variable {lib : NumLib} {sc : SC ℝ} {tol : ℝ}

/-- `K` holds the prior covariances of all pairs of edges and `c` the prior mean of every edge: this is what the
model returns for every list of edges. -/
def GpModel.HasPrior (m : GpModel sc.E) (c : ℝ) (K : Matrix (Fin sc.E) (Fin sc.E) ℝ) : Prop :=
  ∀ r : List (Fin sc.E), m.forward (edgeTensor r) =
    .ok (List.replicate r.length c, .mat r.length r.length (Matrix.of fun a b => K r[a] r[b]))

/-- Expected squared error of `c + ∑ w b * (observation b - c)` as a prediction of the value at edge `e`, when the
values have covariance `K` and every observation carries independent noise of variance `s`. -/
def predErr (K : Matrix (Fin sc.E) (Fin sc.E) ℝ) (s : ℝ) (rt : List (Fin sc.E)) (e : Fin sc.E)
    (w : Fin rt.length → ℝ) : ℝ :=
  K e e - 2 * ∑ b, w b * K rt[b] e + ∑ b, ∑ b', w b * w b' * K rt[b] rt[b'] + s * ∑ b, w b ^ 2

theorem predErr_eq (K : Matrix (Fin sc.E) (Fin sc.E) ℝ) (s : ℝ) (rt : List (Fin sc.E)) (e : Fin sc.E)
    (w : Fin rt.length → ℝ) : predErr K s rt e w = expErr K s rt.get e w := by
  unfold predErr expErr
  rw [obsCov_quad]
  have h1 : (∑ b, w b * K rt[b] e) = w ⬝ᵥ crossCov K rt.get e := rfl
  have h2 : (∑ b, ∑ b', w b * w b' * K rt[b] rt[b']) =
      w ⬝ᵥ (Matrix.of fun a b => K (rt.get a) (rt.get b)).mulVec w := by
    simp only [dotProduct, mulVec, of_apply, Finset.mul_sum]
    refine Finset.sum_congr rfl fun b _ => Finset.sum_congr rfl fun b' _ => ?_
    simp only [List.get_eq_getElem, Fin.getElem_fin]
    ring
  have h3 : (∑ b, w b ^ 2) = w ⬝ᵥ w := by
    simp only [dotProduct, pow_two]
  rw [h1, h2, h3]
  ring

/-- the prior covariance of all edges -/
noncomputable def GpModel.prior (m : GpModel sc.E) : Matrix (Fin sc.E) (Fin sc.E) ℝ := m.outputscale • fullCov m.kernel

theorem GpModel.prior_psd (m : GpModel sc.E) (hk : m.kernel.FromComplex lib tol) (ht : 0 < tol) : SymmPSD m.prior := by
  obtain ⟨hs, hp⟩ := (slice_psd m.kernel hk ht (id : Fin sc.E → Fin sc.E)).1
  have he : (Matrix.of fun a b => fullCov m.kernel (id a) (id b)) = fullCov m.kernel := rfl
  rw [he] at hs hp
  refine ⟨?_, fun x => ?_⟩
  · unfold GpModel.prior; rw [transpose_smul, hs]
  · unfold GpModel.prior
    rw [smul_mulVec, dotProduct_smul]
    exact mul_nonneg (softplus_pos _).le (hp x)

theorem GpModel.hasPrior (m : GpModel sc.E) (hk : m.kernel.FromComplex lib tol) (ht : 0 < tol) :
    m.HasPrior (m.meanConst.getD 0) m.prior := by
  intro r
  simp only [GpModel.forward, rows_cast, bind, Except.bind, cov_ok hk ht]
  have : (edgeTensor r).map (fun _ => m.meanConst.getD 0) = List.replicate r.length (m.meanConst.getD 0) := by
    rw [List.map_const']
    simp [edgeTensor]
  rw [this]
  rfl

theorem HasPrior.unique {m : GpModel sc.E} {c c' : ℝ} {K K' : Matrix (Fin sc.E) (Fin sc.E) ℝ} (h : m.HasPrior c K)
    (h' : m.HasPrior c' K') : K = K' ∧ (0 < sc.E → c = c') := by
  constructor
  · ext i j
    have h1 := h [i, j]
    have h2 := h' [i, j]
    rw [h1] at h2
    injection h2 with h2
    injection h2 with h2 h3
    injection h3 with _ _ h3
    exact congrFun (congrFun (eq_of_heq (heq_of_eq h3)) (0 : Fin 2)) (1 : Fin 2)
  · intro hE
    have h1 := h [⟨0, hE⟩]
    have h2 := h' [⟨0, hE⟩]
    rw [h1] at h2
    injection h2 with h2
    injection h2 with h2 h3
    simpa using h2

theorem predictive_eq (m : GpModel sc.E) (hk : m.kernel.FromComplex lib tol) (ht : 0 < tol)
    (rt rs : List (Fin sc.E)) (y : Fin rt.length → ℝ) :
    m.predictive (edgeTensor rt) (List.ofFn y) (edgeTensor rs) = .ok ⟨rs.length,
      fun a => m.meanConst.getD 0 + (Matrix.of fun a b => m.prior (rs.get a) (rt.get b)).mulVec
        ((obsCov m.prior m.noise rt.get)⁻¹.mulVec fun b => y b - m.meanConst.getD 0) a,
      postCov m.prior m.noise rt.get rs.get + m.noise • 1⟩ := by
  unfold GpModel.predictive
  rw [if_neg (by simp [edgeTensor])]
  simp only [rows_cast, bind, Except.bind, cov_ok hk ht]
  have hy : (fun i : Fin rt.length => (List.ofFn y)[(i : ℕ)]?.getD 0 - m.meanConst.getD 0) =
      fun b => y b - m.meanConst.getD 0 := by
    ext b
    simp
  rw [hy]
  rfl

theorem mean_weights {K : Matrix (Fin sc.E) (Fin sc.E) ℝ} (hK : SymmPSD K) (s : ℝ) {n p : ℕ} (i : Fin n → Fin sc.E)
    (j : Fin p → Fin sc.E) (v : Fin n → ℝ) (a : Fin p) :
    (Matrix.of fun a b => K (j a) (i b)).mulVec ((obsCov K s i)⁻¹.mulVec v) a = ∑ b, weights K s i (j a) b * v b := by
  have h1 : (Matrix.of fun a b => K (j a) (i b)).mulVec ((obsCov K s i)⁻¹.mulVec v) a =
      crossCov K i (j a) ⬝ᵥ (obsCov K s i)⁻¹.mulVec v := by
    change (fun b => K (j a) (i b)) ⬝ᵥ _ = _
    congr 1
    ext b
    exact congrFun (congrFun hK.1 (i b)) (j a)
  rw [h1, dot_symm (obsCov_inv_symm hK s i), dotProduct_comm]
  rfl

/-- C101, start: whatever mean function is asked for, a model that has not been trained expects 0 everywhere, with ln 2
times the kernel as covariance; only the mean function "zero" makes the mean a fixed value, not a parameter. -/
theorem C101_untrained (k : GpKernel sc.E) (hk : k.FromComplex lib tol) (ht : 0 < tol) (mf : Option String) (s : ℝ) :
    (GpModel.create k mf s).HasPrior 0 (Real.log 2 • fullCov k) ∧ (GpModel.create k mf s).noise = s ∧
    ((GpModel.create k mf s).meanConst = none ↔ mf = some "zero") := by
  have h := GpModel.hasPrior (GpModel.create k mf s) hk ht
  have h0 : (GpModel.create k mf s).meanConst.getD 0 = 0 := by
    unfold GpModel.create
    split_ifs <;> rfl
  have h1 : (GpModel.create k mf s).prior = Real.log 2 • fullCov k := by
    unfold GpModel.prior GpModel.outputscale GpModel.create softplus
    norm_num
  rw [h0, h1] at h
  refine ⟨h, rfl, ?_⟩
  unfold GpModel.create
  split_ifs with hz <;> simp [hz]

/-- C101: predictions are best linear predictions.  Whatever is observed at the training edges, `predict` returns
at every test edge the prior mean plus a fixed weighted sum of the deviations of the observations from the prior
mean; the weights are those with the smallest expected squared error, and the returned variance is that error
plus the observation noise. -/
theorem C101_best_prediction (m : GpModel sc.E) (hk : m.kernel.FromComplex lib tol) (ht : 0 < tol) (hn : 0 < m.noise)
    (rt : List (Fin sc.E)) : ∃ (c : ℝ) (K : Matrix (Fin sc.E) (Fin sc.E) ℝ) (w : Fin sc.E → Fin rt.length → ℝ),
    m.HasPrior c K ∧
    (∀ (y : Fin rt.length → ℝ) (rs : List (Fin sc.E)), ∃ mean cov,
      m.predictive (edgeTensor rt) (List.ofFn y) (edgeTensor rs) = .ok ⟨rs.length, mean, cov⟩ ∧
      (∀ a, mean a = c + ∑ b, w rs[a] b * (y b - c)) ∧
      (∀ a, cov a a = predErr K m.noise rt rs[a] (w rs[a]) + m.noise)) ∧
    ∀ e w', predErr K m.noise rt e (w e) ≤ predErr K m.noise rt e w' := by
  have hK := m.prior_psd hk ht
  refine ⟨_, _, weights m.prior m.noise rt.get, m.hasPrior hk ht, fun y rs => ⟨_, _, predictive_eq m hk ht rt rs y, ?_, ?_⟩, ?_⟩
  · intro a
    exact congrArg (m.meanConst.getD 0 + ·) (mean_weights hK m.noise rt.get rs.get _ a)
  · intro a
    rw [Matrix.add_apply, postCov_diag hK hn, predErr_eq, Matrix.smul_apply, one_apply_eq, smul_eq_mul, mul_one]
    rfl
  · intro e w'
    rw [predErr_eq, predErr_eq]
    exact expErr_min hK hn e w'

/-- C101: the returned covariance is symmetric, and for every combination of test edges the variance lies between
the noise and the prior variance plus the noise. -/
theorem C101_variance (m : GpModel sc.E) (hk : m.kernel.FromComplex lib tol) (ht : 0 < tol) (hn : 0 < m.noise)
    (rt rs : List (Fin sc.E)) (y : Fin rt.length → ℝ) : ∃ mean cov c prior,
    m.predictive (edgeTensor rt) (List.ofFn y) (edgeTensor rs) = .ok ⟨rs.length, mean, cov⟩ ∧
    m.forward (edgeTensor rs) = .ok (List.replicate rs.length c, .mat rs.length rs.length prior) ∧
    cov.transpose = cov ∧
    ∀ x, m.noise * (x ⬝ᵥ x) ≤ x ⬝ᵥ cov.mulVec x ∧ x ⬝ᵥ cov.mulVec x ≤ x ⬝ᵥ prior.mulVec x + m.noise * (x ⬝ᵥ x) := by
  have hK := m.prior_psd hk ht
  refine ⟨_, _, _, _, predictive_eq m hk ht rt rs y, m.hasPrior hk ht rs, ?_, ?_⟩
  · rw [transpose_add, postCov_symm hK, transpose_smul, transpose_one]
  · intro x
    obtain ⟨h1, h2⟩ := postCov_quad hK hn rt.get rs.get x
    rw [add_mulVec, dotProduct_add, smul_mulVec, one_mulVec, dotProduct_smul, smul_eq_mul]
    refine ⟨by linarith, ?_⟩
    have h3 : x ⬝ᵥ (Matrix.of fun a b => m.prior (rs.get a) (rs.get b)).mulVec x =
      x ⬝ᵥ (Matrix.of fun (a b : Fin rs.length) => m.prior rs[a] rs[b]).mulVec x := rfl
    linarith

/-- C101: additional observations never make a prediction less certain. -/
theorem C101_more_data (m : GpModel sc.E) (hk : m.kernel.FromComplex lib tol) (ht : 0 < tol) (hn : 0 < m.noise)
    (rt rt' rs : List (Fin sc.E)) (g : Fin rt.length → Fin rt'.length) (hg : Function.Injective g)
    (hr : ∀ a, rt'[g a] = rt[a]) (y : Fin rt.length → ℝ) (y' : Fin rt'.length → ℝ) :
    ∃ mean cov mean' cov', m.predictive (edgeTensor rt) (List.ofFn y) (edgeTensor rs) = .ok ⟨rs.length, mean, cov⟩ ∧
      m.predictive (edgeTensor rt') (List.ofFn y') (edgeTensor rs) = .ok ⟨rs.length, mean', cov'⟩ ∧
      ∀ a, cov' a a ≤ cov a a := by
  have hK := m.prior_psd hk ht
  refine ⟨_, _, _, _, predictive_eq m hk ht rt rs y, predictive_eq m hk ht rt' rs y', fun a => ?_⟩
  rw [Matrix.add_apply, Matrix.add_apply, postCov_diag hK hn, postCov_diag hK hn]
  have := expErr_mono hK hn rt.get rt'.get g hg hr (rs.get a)
  linarith

/-- C101: the order of the training observations does not matter. -/
theorem C101_order (m : GpModel sc.E) (hk : m.kernel.FromComplex lib tol) (ht : 0 < tol)
    (rt rt' rs : List (Fin sc.E)) (σ : Fin rt.length ≃ Fin rt'.length) (hr : ∀ a, rt'[σ a] = rt[a])
    (y : Fin rt.length → ℝ) (y' : Fin rt'.length → ℝ) (hy : ∀ a, y' (σ a) = y a) :
    m.predictive (edgeTensor rt') (List.ofFn y') (edgeTensor rs) =
      m.predictive (edgeTensor rt) (List.ofFn y) (edgeTensor rs) := by
  have hK := m.prior_psd hk ht
  have hr' : ∀ b, rt'.get b = rt.get (σ.symm b) := by
    intro b
    have := hr (σ.symm b)
    have h2 : σ (σ.symm b) = b := Equiv.apply_symm_apply _ _
    have h3 : ∀ k, k = b → rt'[k] = rt'.get b := by rintro k rfl; rfl
    rw [h3 _ h2] at this
    exact this
  have hy' : y' = fun b => y (σ.symm b) := by
    ext b
    have := hy (σ.symm b)
    rwa [Equiv.apply_symm_apply] at this
  have hA : obsCov m.prior m.noise rt'.get = (obsCov m.prior m.noise rt.get).submatrix σ.symm σ.symm := by
    unfold obsCov
    ext a b
    simp only [Matrix.add_apply, Matrix.smul_apply, of_apply, submatrix_apply, hr', one_apply,
      EmbeddingLike.apply_eq_iff_eq]
  have hS : (obsCov m.prior m.noise rt'.get)⁻¹ = (obsCov m.prior m.noise rt.get)⁻¹.submatrix σ.symm σ.symm := by
    rw [hA, inv_submatrix_equiv]
  have hC : (Matrix.of fun a b => m.prior (rs.get a) (rt'.get b)) =
      (Matrix.of fun a b => m.prior (rs.get a) (rt.get b)).submatrix id σ.symm := by
    ext a b
    simp only [of_apply, submatrix_apply, hr', id]
  rw [predictive_eq m hk ht, predictive_eq m hk ht]
  congr 2
  · ext a
    rw [mean_weights hK, mean_weights hK]
    congr 1
    rw [← σ.sum_comp]
    refine Finset.sum_congr rfl fun b _ => ?_
    rw [hy b]
    congr 1
    unfold weights
    rw [hS, submatrix_mulVec_equiv]
    simp only [Function.comp_def, Equiv.symm_symm, Equiv.symm_apply_apply]
    congr 2
    ext c
    simp only [crossCov, hr', Equiv.symm_apply_apply]
  · unfold postCov
    rw [hS, hC, transpose_submatrix, submatrix_mul_equiv, submatrix_mul_equiv, submatrix_id_id]

/-- C101: on the training edges themselves the predicted means are at least as close to the observations as the
prior mean is. -/
theorem C101_fit (m : GpModel sc.E) (hk : m.kernel.FromComplex lib tol) (ht : 0 < tol) (hn : 0 < m.noise)
    (rt : List (Fin sc.E)) (y : Fin rt.length → ℝ) : ∃ mean cov,
    m.predictive (edgeTensor rt) (List.ofFn y) (edgeTensor rt) = .ok ⟨rt.length, mean, cov⟩ ∧
    ∑ b, (y b - mean b) ^ 2 ≤ ∑ b, (y b - m.meanConst.getD 0) ^ 2 := by
  have hK := m.prior_psd hk ht
  refine ⟨_, _, predictive_eq m hk ht rt rt y, ?_⟩
  set c := m.meanConst.getD 0
  set r : Fin rt.length → ℝ := fun b => y b - c with hr
  set v := (obsCov m.prior m.noise rt.get)⁻¹.mulVec r with hv
  set Kt : Matrix (Fin rt.length) (Fin rt.length) ℝ := Matrix.of fun a b => m.prior (rt.get a) (rt.get b) with hKt
  have h1 : r = Kt.mulVec v + m.noise • v := by
    have : (obsCov m.prior m.noise rt.get).mulVec v = r := by
      rw [hv, mulVec_mulVec, (obsCov_inv hK hn rt.get).1, one_mulVec]
    rw [← this]
    unfold obsCov
    rw [add_mulVec, smul_mulVec, one_mulVec]
  have h2 : ∀ b, y b - (c + Kt.mulVec v b) = m.noise * v b := by
    intro b
    have := congrFun h1 b
    simp only [hr, Pi.add_apply, Pi.smul_apply, smul_eq_mul] at this
    linarith
  have h3 : ∀ b, y b - c = r b := fun b => rfl
  simp only [h2, h3]
  have h4 : (∑ b, r b ^ 2) = r ⬝ᵥ r := by simp only [dotProduct, pow_two]
  have h5 : (∑ b, (m.noise * v b) ^ 2) = m.noise ^ 2 * (v ⬝ᵥ v) := by
    simp only [dotProduct, Finset.mul_sum]
    refine Finset.sum_congr rfl fun b _ => by ring
  rw [h4, h5]
  have h6 := slice_nonneg (i := rt.get) hK v
  have h7 := dot_self_nonneg (Kt.mulVec v)
  have h8 : r ⬝ᵥ r = Kt.mulVec v ⬝ᵥ Kt.mulVec v + 2 * m.noise * (v ⬝ᵥ Kt.mulVec v) + m.noise ^ 2 * (v ⬝ᵥ v) := by
    rw [h1]
    simp only [dotProduct_add, add_dotProduct, dotProduct_smul, smul_dotProduct, smul_eq_mul]
    rw [dotProduct_comm (Kt.mulVec v) v]
    ring
  have h9 := mul_nonneg hn.le h6
  rw [h8]
  change 0 ≤ m.noise * (v ⬝ᵥ Kt.mulVec v) at h9
  linarith

theorem mapM_npIdx_bad {n : ℕ} {xs : List ℚ} (h : ∃ a ∈ xs, toLong a < -(n : Int) ∨ (n : Int) ≤ toLong a) :
    torchRows n xs = .error .indexError := by
  obtain ⟨a, ha, hb⟩ := h
  unfold torchRows
  induction xs with
  | nil => cases ha
  | cons x xs ih =>
    rw [List.mapM_cons]
    by_cases hx : toLong x < -(n : Int) ∨ (n : Int) ≤ toLong x
    · have : npIdx n (toLong x) = .error .indexError := by
        unfold npIdx
        rw [dif_neg (by omega), dif_neg (by omega)]
      rw [this]; rfl
    · have hmem : a ∈ xs := by
        rcases List.mem_cons.mp ha with rfl | h
        · exact absurd hb hx
        · exact h
      have hok : ∃ r, npIdx n (toLong x) = .ok r := by
        unfold npIdx
        split_ifs with h1 h2
        · exact ⟨_, rfl⟩
        · exact ⟨_, rfl⟩
        · omega
      obtain ⟨r, hr⟩ := hok
      rw [hr, ih hmem]
      rfl

/-- C101: an edge number out of range, among the training or the test inputs, raises `IndexError`. -/
theorem C101_index_error (m : GpModel sc.E) (xTrain xTest : List ℚ) (y : List ℝ) (hl : y.length = xTrain.length)
    (h : ∃ a ∈ xTrain ++ xTest, toLong a < -(sc.E : Int) ∨ (sc.E : Int) ≤ toLong a) :
    m.predictive xTrain y xTest = .error .indexError := by
  have herr : ∀ xs e, torchRows sc.E xs = .error e → e = .indexError := by
    intro xs e he
    obtain ⟨a, ha, h1⟩ := mapM_error he
    unfold npIdx at h1
    split_ifs at h1
    cases h1; rfl
  unfold GpModel.predictive
  rw [if_neg (by simp [hl])]
  obtain ⟨a, ha, hb⟩ := h
  rw [List.mem_append] at ha
  cases h1 : torchRows sc.E xTrain with
  | error e => rw [herr _ _ h1]; rfl
  | ok r1 =>
    rcases ha with ha | ha
    · rw [mapM_npIdx_bad ⟨a, ha, hb⟩] at h1; cases h1
    · rw [mapM_npIdx_bad ⟨a, ha, hb⟩]; rfl

/-- C101: training targets that are not one per training edge raise an error, and nothing is predicted. -/
theorem C101_training_length (m : GpModel sc.E) (xTrain xTest : List ℚ) (y yTest : List ℝ)
    (hl : y.length ≠ xTrain.length) :
    m.predictive xTrain y xTest = .error .runtimeError ∧ m.predict xTrain y xTest yTest = .error .runtimeError := by
  have h : m.predictive xTrain y xTest = .error .runtimeError := by
    unfold GpModel.predictive
    rw [if_pos hl]
  refine ⟨h, ?_⟩
  unfold GpModel.predict
  rw [h]
  rfl

/-! ## C102: the printed metrics -/

/-- mean of the entries -/
noncomputable def average {n : ℕ} (v : Fin n → ℝ) : ℝ := (∑ i, v i) / n

/-- sum of the squared deviations from the mean -/
noncomputable def spreadAbout {n : ℕ} (v : Fin n → ℝ) : ℝ := ∑ i, (v i - average v) ^ 2

/-- the coefficient of determination of the predictions `pred` for the observations `y` -/
noncomputable def determination {n : ℕ} (pred y : Fin n → ℝ) : ℝ := 1 - (∑ i, (y i - pred i) ^ 2) / spreadAbout y

theorem tss_eq {n : ℕ} (hn : 0 < n) (v : Fin n → ℝ) : ∑ i, v i ^ 2 - (∑ i, v i) ^ 2 / n = spreadAbout v := by
  have hn' : (n : ℝ) ≠ 0 := by exact_mod_cast hn.ne'
  unfold spreadAbout average
  set S := ∑ i, v i
  have : ∀ i, (v i - S / n) ^ 2 = v i ^ 2 - 2 * (S / n) * v i + (S / n) ^ 2 := fun i => by ring
  simp only [this]
  rw [Finset.sum_add_distrib, Finset.sum_sub_distrib, ← Finset.mul_sum, Finset.sum_const, Finset.card_univ,
    Fintype.card_fin, nsmul_eq_mul]
  field_simp
  ring

/-- C102, what holds: for at least two test targets `predict` returns the prediction, the mean absolute error and
the mean squared error are the right ones, and if the predicted means spread as much as the targets do, so is the
coefficient of determination.  In general the number printed as R2 relates the squared errors to the spread of the
predicted means.  Missing: the printed R2 is the coefficient of determination, which is false
(`C102_r2_counterexample`). -/
theorem C102_metrics_partial (m : GpModel sc.E) (xTrain xTest : List ℚ) (yTrain : List ℝ) (n : ℕ)
    (mean : Fin n → ℝ) (cov : Matrix (Fin n) (Fin n) ℝ)
    (hp : m.predictive xTrain yTrain xTest = .ok ⟨n, mean, cov⟩) (hn : 2 ≤ n) (y : Fin n → ℝ) :
    ∃ metrics, m.predict xTrain yTrain xTest (List.ofFn y) = .ok (⟨n, mean, cov⟩, metrics) ∧
      metrics.mae = (∑ i, |y i - mean i|) / n ∧
      metrics.mse = (∑ i, (y i - mean i) ^ 2) / n ∧
      (spreadAbout mean ≠ 0 → metrics.r2 = some (1 - (∑ i, (y i - mean i) ^ 2) / spreadAbout mean)) ∧
      (spreadAbout mean = 0 → metrics.r2 = none) ∧
      (spreadAbout y ≠ 0 → spreadAbout mean = spreadAbout y → metrics.r2 = some (determination mean y)) := by
  have hy : (fun i : Fin n => (List.ofFn y)[(i : ℕ)]?.getD 0) = y := by
    ext i
    simp
  have hr2 : torchR2 y mean = .ok ((fdiv (∑ i, (mean i - y i) ^ 2) (spreadAbout mean)).map fun q => 1 - q) := by
    unfold torchR2
    rw [if_neg (by omega), tss_eq (by omega)]
  have hsq : (∑ i, (mean i - y i) ^ 2) = ∑ i, (y i - mean i) ^ 2 := Finset.sum_congr rfl fun i _ => by ring
  have hrun : m.predict xTrain yTrain xTest (List.ofFn y) = .ok (⟨n, mean, cov⟩,
      ⟨(∑ i, |mean i - y i|) / n, (∑ i, (mean i - y i) ^ 2) / n,
        (fdiv (∑ i, (mean i - y i) ^ 2) (spreadAbout mean)).map fun q => 1 - q,
        (∑ i, (1 / 2 * Real.log (2 * Real.pi * cov i i) + (y i - mean i) ^ 2 / (2 * cov i i))) / n,
        -GpPrediction.logProb ⟨n, mean, cov⟩ y / n⟩) := by
    unfold GpModel.predict
    rw [hp]
    simp only [bind, Except.bind]
    have hy2 : ∀ i : Fin n, (List.ofFn y)[(i : ℕ)]?.getD 0 = y i := fun i => congrFun hy i
    rw [if_neg (by simp), hy, hr2]
    simp only [hy2]
    rfl
  refine ⟨_, hrun, ?_, ?_, ?_, ?_, ?_⟩
  · simp only [abs_sub_comm]
  · simp only [hsq]
  · intro h
    simp only [fdiv, if_neg h, hsq]
    rfl
  · intro h
    simp only [fdiv, if_pos h]
    rfl
  · intro h1 h2
    rw [← h2] at h1
    simp only [fdiv, if_neg h1, hsq]
    unfold determination
    rw [h2]
    rfl

/-- C102: with fewer than two test targets `predict` raises `ValueError`. -/
theorem C102_too_few (m : GpModel sc.E) (xTrain xTest : List ℚ) (yTrain : List ℝ) (p : GpPrediction)
    (hp : m.predictive xTrain yTrain xTest = .ok p) (hn : p.n < 2) (yTest : List ℝ) (hl : yTest.length = p.n) :
    m.predict xTrain yTrain xTest yTest = .error .valueError := by
  unfold GpModel.predict
  rw [hp]
  simp only [bind, Except.bind]
  rw [if_neg (by simp [hl])]
  unfold torchR2
  rw [if_pos hn]

/-- C102: `predict` with another number of test targets than test edges raises an error: `ValueError` if there is a
single test target or a single test edge, `RuntimeError` otherwise. -/
theorem C102_length (m : GpModel sc.E) (xTrain xTest : List ℚ) (yTrain : List ℝ) (p : GpPrediction)
    (hp : m.predictive xTrain yTrain xTest = .ok p) (yTest : List ℝ) (hl : yTest.length ≠ xTest.length) :
    (yTest.length = 1 ∨ xTest.length = 1 → m.predict xTrain yTrain xTest yTest = .error .valueError) ∧
    (yTest.length ≠ 1 → xTest.length ≠ 1 → m.predict xTrain yTrain xTest yTest = .error .runtimeError) := by
  have hn : p.n = xTest.length := by
    unfold GpModel.predictive at hp
    split_ifs at hp
    simp only [bind, Except.bind, pure, Except.pure] at hp
    split at hp
    · cases hp
    split at hp
    · cases hp
    rename_i rs hrs
    split at hp
    · cases hp
    split at hp
    · cases hp
    split at hp
    · cases hp
    cases hp
    exact (mapM_eq_ok hrs).length_eq.symm
  unfold GpModel.predict
  rw [hp]
  simp only [bind, Except.bind]
  rw [if_pos (by rw [hn]; exact hl), hn]
  exact ⟨fun h => by rw [if_pos h], fun h1 h2 => by rw [if_neg (by tauto)]⟩

/-- C102 is false of the code: there are a complex, a model and data with coefficient of determination 0 for which
`predict` prints a value that is not finite. -/
theorem C102_r2_counterexample : ∃ (sc : SC ℝ) (m : GpModel sc.E) (xTrain xTest : List ℚ) (yTrain : List ℝ)
    (mean y : Fin 2 → ℝ) (cov : Matrix (Fin 2) (Fin 2) ℝ) (metrics : GpMetrics), sc.WellFormed ∧ 0 < m.noise ∧
    m.predict xTrain yTrain xTest (List.ofFn y) = .ok (⟨2, mean, cov⟩, metrics) ∧
    spreadAbout y ≠ 0 ∧ determination mean y = 0 ∧ metrics.r2 = none := by
  obtain ⟨lib⟩ := NumLib.exists
  obtain ⟨k, -, hk⟩ := GpKernel.FromComplex.exists lib twoTri (by decide) (1 / 1000) .matern
  set m : GpModel twoTri.E := ⟨k, 0, none, 1⟩ with hm
  have hpe := predictive_eq m hk (by norm_num) [(0 : Fin 6)] [(1 : Fin 6), (2 : Fin 6)] (fun _ => 0)
  have hmean : (fun a : Fin 2 => m.meanConst.getD 0 + (Matrix.of fun a b => m.prior ([(1 : Fin 6), (2 : Fin 6)].get a)
      ([(0 : Fin 6)].get b)).mulVec ((obsCov m.prior m.noise [(0 : Fin 6)].get)⁻¹.mulVec
        fun _ => 0 - m.meanConst.getD 0) a) = fun _ => (0 : ℝ) := by
    have h0 : m.meanConst.getD 0 = 0 := rfl
    rw [h0]
    have hz : (fun _ : Fin [(0 : Fin 6)].length => (0 : ℝ) - 0) = 0 := by ext; simp
    rw [hz, mulVec_zero, mulVec_zero]
    ext a
    simp
  obtain ⟨metrics, h1, -, -, -, h2, -⟩ := C102_metrics_partial m _ _ _ _ _ _ hpe (by decide)
    (![1, -1] : Fin 2 → ℝ)
  refine ⟨twoTri, m, _, _, _, _, (![1, -1] : Fin 2 → ℝ), _, metrics, twoTri_wellFormed, by norm_num [hm], h1, ?_, ?_, ?_⟩
  · simp [spreadAbout, average, Fin.sum_univ_two]
  · have hd : determination (fun _ : Fin 2 => (0 : ℝ)) (![1, -1] : Fin 2 → ℝ) = 0 := by
      simp [determination, spreadAbout, average, Fin.sum_univ_two]
    refine Eq.trans ?_ hd
    exact congrArg (fun v : Fin 2 → ℝ => determination v (![1, -1] : Fin 2 → ℝ)) hmean
  · apply h2
    have hd : spreadAbout (fun _ : Fin 2 => (0 : ℝ)) = 0 := by
      simp [spreadAbout, average]
    refine Eq.trans ?_ hd
    exact congrArg (fun v : Fin 2 → ℝ => spreadAbout v) hmean

/-! ## The hypotheses can be met -/

/-- a model over the sample complex: three observations, two predictions, and one more observation -/
example : ∃ (lib : NumLib) (m : GpModel twoTri.E), m.kernel.FromComplex lib (1 / 1000) ∧ 0 < m.noise ∧
    (∃ mean cov, m.predictive [0, 1, 3] [1, 2, -1] [2, 4] = .ok ⟨2, mean, cov⟩) ∧
    ∃ g : Fin 3 → Fin 4, Function.Injective g ∧ ∀ a, [(0 : Fin 6), 1, 5, 3][g a] = [(0 : Fin 6), 1, 3][a] := by
  obtain ⟨lib⟩ := NumLib.exists
  obtain ⟨k, -, hk⟩ := GpKernel.FromComplex.exists lib twoTri (by decide) (1 / 1000) .matern
  refine ⟨lib, ⟨k, 0, none, 1⟩, hk, by norm_num, ?_, ![0, 1, 3], by decide, by decide⟩
  obtain ⟨mean, cov, _, _, h, -⟩ := C101_variance (⟨k, 0, none, 1⟩ : GpModel twoTri.E) hk (by norm_num)
    (by norm_num) [(0 : Fin 6), (1 : Fin 6), (3 : Fin 6)] [(2 : Fin 6), (4 : Fin 6)] (![1, 2, -1] : Fin 3 → ℝ)
  exact ⟨mean, cov, h⟩

end Pytspl
