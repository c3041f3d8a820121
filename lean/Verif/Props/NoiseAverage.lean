import Verif.Props.EdgeFlowLimit
import Verif.Props.Chebyshev
import Mathlib.Probability.ProbabilityMassFunction.Integrals
import Mathlib.Probability.Distributions.Uniform

/-!
# C171: what denoising does to random noise, on average
-/

namespace Pytspl

open Matrix MeasureTheory

variable {lib : NumLib} {sc : SC ℝ} {Ω : Type*} [MeasurableSpace Ω]

/-! ## Specification -/

/-- Random noise on the edges without bias, with variance `v` on every edge and no correlation between edges. -/
structure WhiteNoise {E : ℕ} (Pr : Measure Ω) (x : Ω → Fin E → ℝ) (v : ℝ) : Prop where
  prob : IsProbabilityMeasure Pr
  int1 : ∀ i, Integrable (fun ω => x ω i) Pr
  int2 : ∀ i j, Integrable (fun ω => x ω i * x ω j) Pr
  mean : ∀ i, ∫ ω, x ω i ∂Pr = 0
  cov : ∀ i j, ∫ ω, x ω i * x ω j ∂Pr = if i = j then v else 0

/-- White noise exists for every number of edges and every variance. -/
theorem WhiteNoise.exists (E : ℕ) (hE : 0 < E) {v : ℝ} (hv : 0 ≤ v) :
    ∃ (Pr : Measure (Fin E × Bool)) (x : Fin E × Bool → Fin E → ℝ), WhiteNoise Pr x v := by
  have : Nonempty (Fin E) := ⟨⟨0, hE⟩⟩
  have hE' : (0 : ℝ) < E := by exact_mod_cast hE
  have hp : ∀ a : Fin E × Bool, (PMF.uniformOfFintype (Fin E × Bool) a).toReal = (2 * (E : ℝ))⁻¹ := by
    intro a
    rw [PMF.uniformOfFintype_apply]
    simp [mul_comm]
  refine ⟨(PMF.uniformOfFintype (Fin E × Bool)).toMeasure,
    fun a i => if a.1 = i then (if a.2 then Real.sqrt (v * E) else - Real.sqrt (v * E)) else 0,
    inferInstance, fun i => .of_finite, fun i j => .of_finite, fun i => ?_, fun i j => ?_⟩
  · rw [PMF.integral_eq_sum, Fintype.sum_prod_type]
    simp
  · rw [PMF.integral_eq_sum, Fintype.sum_prod_type]
    have hs : Real.sqrt (v * E) * Real.sqrt (v * E) = v * E := Real.mul_self_sqrt (by positivity)
    by_cases hij : i = j
    · subst hij
      rw [if_pos rfl, Finset.sum_eq_single i]
      · simp only [hp, smul_eq_mul, Fintype.sum_bool, if_true, Bool.false_eq_true, if_false, neg_mul_neg, hs]
        field_simp
        ring
      · intro k _ hk
        refine Finset.sum_eq_zero fun b _ => ?_
        simp [hk]
      · exact fun h => absurd (Finset.mem_univ _) h
    · rw [if_neg hij]
      refine Finset.sum_eq_zero fun k _ => Finset.sum_eq_zero fun b _ => ?_
      by_cases hk : k = i
      · have : k ≠ j := fun h => hij (hk.symm.trans h)
        simp [this]
      · simp [hk]

/-! ## The mean error of a linear filter -/

section
variable {E : ℕ} {Pr : Measure Ω} {x : Ω → Fin E → ℝ} {v : ℝ}

theorem WhiteNoise.linear (h : WhiteNoise Pr x v) (a : Fin E → ℝ) (b : ℝ) :
    Integrable (fun ω => (b + a ⬝ᵥ x ω) ^ 2) Pr ∧ ∫ ω, (b + a ⬝ᵥ x ω) ^ 2 ∂Pr = b ^ 2 + v * ∑ j, a j ^ 2 := by
  have := h.prob
  have e : (fun ω => (b + a ⬝ᵥ x ω) ^ 2) = fun ω => (b ^ 2 + ∑ j, 2 * b * a j * x ω j) +
      ∑ i, ∑ j, a i * a j * (x ω i * x ω j) := by
    funext ω
    have h1 : (a ⬝ᵥ x ω) ^ 2 = ∑ i, ∑ j, a i * a j * (x ω i * x ω j) := by
      rw [sq, dotProduct, Finset.sum_mul_sum]
      exact Finset.sum_congr rfl fun i _ => Finset.sum_congr rfl fun j _ => by ring
    have h2 : 2 * b * a ⬝ᵥ x ω = ∑ j, 2 * b * a j * x ω j := by
      rw [dotProduct, Finset.mul_sum]
      exact Finset.sum_congr rfl fun j _ => by ring
    rw [← h1, ← h2]
    ring
  have i1 : ∀ j, Integrable (fun ω => 2 * b * a j * x ω j) Pr := fun j => (h.int1 j).const_mul _
  have i2 : ∀ i j, Integrable (fun ω => a i * a j * (x ω i * x ω j)) Pr := fun i j => (h.int2 i j).const_mul _
  have i3 : Integrable (fun ω => b ^ 2 + ∑ j, 2 * b * a j * x ω j) Pr :=
    (integrable_const _).add (integrable_finset_sum _ fun j _ => i1 j)
  have i4 : Integrable (fun ω => ∑ i, ∑ j, a i * a j * (x ω i * x ω j)) Pr :=
    integrable_finset_sum _ fun i _ => integrable_finset_sum _ fun j _ => i2 i j
  rw [e]
  refine ⟨i3.add i4, ?_⟩
  rw [integral_add i3 i4, integral_add (integrable_const _) (integrable_finset_sum _ fun j _ => i1 j),
    integral_finset_sum _ fun j _ => i1 j, integral_finset_sum _ fun i _ => integrable_finset_sum _ fun j _ => i2 i j]
  have h0 : ∑ j, ∫ ω, 2 * b * a j * x ω j ∂Pr = 0 := by
    refine Finset.sum_eq_zero fun j _ => ?_
    rw [integral_const_mul, h.mean, mul_zero]
  have h1 : ∑ i, ∫ ω, ∑ j, a i * a j * (x ω i * x ω j) ∂Pr = v * ∑ j, a j ^ 2 := by
    rw [Finset.mul_sum]
    refine Finset.sum_congr rfl fun i _ => ?_
    rw [integral_finset_sum _ fun j _ => i2 i j]
    simp only [integral_const_mul, h.cov, mul_ite, mul_zero, Finset.sum_ite_eq, Finset.mem_univ, if_true]
    ring
  rw [h0, h1, integral_const, add_zero]
  simp

theorem WhiteNoise.scale (h : WhiteNoise Pr x v) (p : ℝ) : WhiteNoise Pr (fun ω => p • x ω) (p ^ 2 * v) where
  prob := h.prob
  int1 i := (h.int1 i).const_mul p
  int2 i j := by
    have e : (fun ω => (p • x ω) i * (p • x ω) j) = fun ω => p ^ 2 * (x ω i * x ω j) := by
      funext ω
      simp only [Pi.smul_apply, smul_eq_mul]
      ring
    rw [e]
    exact (h.int2 i j).const_mul _
  mean i := by
    simp only [Pi.smul_apply, smul_eq_mul]
    rw [integral_const_mul, h.mean, mul_zero]
  cov i j := by
    have e : (fun ω => (p • x ω) i * (p • x ω) j) = fun ω => p ^ 2 * (x ω i * x ω j) := by
      funext ω
      simp only [Pi.smul_apply, smul_eq_mul]
      ring
    rw [e, integral_const_mul, h.cov, mul_ite, mul_zero]

/-- bias plus variance -/
theorem WhiteNoise.filter (h : WhiteNoise Pr x v) (H : Matrix (Fin E) (Fin E) ℝ) (f : Fin E → ℝ) :
    Integrable (fun ω => misfit f (H.mulVec (f + x ω))) Pr ∧
    ∫ ω, misfit f (H.mulVec (f + x ω)) ∂Pr = misfit f (H.mulVec f) + v * ∑ i, ∑ j, H i j ^ 2 := by
  have e : (fun ω => misfit f (H.mulVec (f + x ω))) =
      fun ω => ∑ i, ((H.mulVec f i - f i) + (fun j => H i j) ⬝ᵥ x ω) ^ 2 := by
    funext ω
    unfold misfit
    rw [dotProduct]
    refine Finset.sum_congr rfl fun i _ => ?_
    rw [mulVec_add]
    simp only [Pi.sub_apply, Pi.add_apply]
    have : H.mulVec (x ω) i = (fun j => H i j) ⬝ᵥ x ω := rfl
    rw [← this]
    ring
  rw [e]
  refine ⟨integrable_finset_sum _ fun i _ => (h.linear _ _).1, ?_⟩
  rw [integral_finset_sum _ fun i _ => (h.linear _ _).1]
  simp only [(h.linear _ _).2, Finset.sum_add_distrib, Finset.mul_sum]
  congr 1
  unfold misfit
  rw [dotProduct]
  exact Finset.sum_congr rfl fun i _ => by rw [Pi.sub_apply, sq]

theorem WhiteNoise.unfiltered (h : WhiteNoise Pr x v) (f : Fin E → ℝ) :
    Integrable (fun ω => misfit f (f + x ω)) Pr ∧ ∫ ω, misfit f (f + x ω) ∂Pr = v * E := by
  have h1 := h.filter 1 f
  simp only [one_mulVec, one_apply] at h1
  refine ⟨h1.1, h1.2.trans ?_⟩
  have h2 : misfit f f = 0 := by unfold misfit; rw [sub_self, dotProduct_zero]
  rw [h2, zero_add]
  simp

/-- the comparison in the eigenbasis -/
theorem denoiser_helps {P H : Matrix (Fin E) (Fin E) ℝ} (hps : SymmPSD P) {mu : ℝ} (hmu : 0 < mu)
    (hH : IsDenoiser P H mu) (hv : 0 < v) (hP0 : P ≠ 0) (f : Fin E → ℝ) (hf : mu * roughness P f ≤ 2 * v) :
    misfit f (H.mulVec f) + v * ∑ i, ∑ j, H i j ^ 2 < v * E := by
  obtain ⟨lib⟩ := NumLib.exists
  have h := lib.isEig hps
  set U := (lib.eigh E P).2 with hU
  set w := (lib.eigh E P).1 with hw
  have hw0 : ∀ i, 0 ≤ w i := h.nonneg hps
  set a := U.transpose.mulVec f with ha
  have hfa : f = U.mulVec a := by rw [ha, mulVec_mulVec, h.orth', one_mulVec]
  set d : Fin E → ℝ := fun i => 1 / (1 + mu * w i) with hd
  have hpos : ∀ i, 0 < 1 + mu * w i := fun i => by have := mul_nonneg hmu.le (hw0 i); linarith
  have hHU : H * U = U * diagonal d := by
    have h1 : (1 + mu • P) * U = U * diagonal fun i => 1 + mu * w i := by
      rw [add_mul, one_mul, smul_mul_assoc, h.eig]
      ext i j
      simp only [Matrix.add_apply, Matrix.smul_apply, mul_diagonal, smul_eq_mul]
      ring
    have h2 : H * (1 + mu • P) = 1 := mul_eq_one_comm.mp hH.1
    have h3 : (diagonal fun i => 1 + mu * w i) * diagonal d = 1 := by
      rw [diagonal_mul_diagonal]
      have : (fun i => (1 + mu * w i) * d i) = fun _ => 1 := by
        funext i
        rw [hd]
        exact mul_one_div_cancel (hpos i).ne'
      rw [this, diagonal_one]
    calc H * U = H * (U * ((diagonal fun i => 1 + mu * w i) * diagonal d)) := by rw [h3, mul_one]
      _ = H * ((1 + mu • P) * U) * diagonal d := by rw [h1, mul_assoc, mul_assoc]
      _ = U * diagonal d := by rw [← mul_assoc, h2, one_mul]
  have hHr : H = U * diagonal d * U.transpose := by rw [← hHU, mul_assoc, h.orth', mul_one]
  have hdot : ∀ y z : Fin E → ℝ, U.mulVec y ⬝ᵥ U.mulVec z = y ⬝ᵥ z := by
    intro y z
    rw [dotProduct_mulVec, ← mulVec_transpose, mulVec_mulVec, h.orth, one_mulVec]
  have e1 : misfit f (H.mulVec f) = ∑ i, (1 - d i) ^ 2 * a i ^ 2 := by
    have : H.mulVec f - f = U.mulVec fun i => (d i - 1) * a i := by
      have h1 : H.mulVec f = U.mulVec fun i => d i * a i := by
        conv_lhs => rw [hfa]
        rw [mulVec_mulVec, hHU, ← mulVec_mulVec]
        congr 1
        funext i
        rw [mulVec_diagonal]
      rw [h1]
      conv_lhs => rw [hfa]
      rw [← mulVec_sub]
      congr 1
      funext i
      simp only [Pi.sub_apply]
      ring
    unfold misfit
    rw [this, hdot, dotProduct]
    exact Finset.sum_congr rfl fun i _ => by ring
  have e2 : ∑ i, ∑ j, H i j ^ 2 = ∑ i, d i ^ 2 := by
    have h1 : ∑ i, ∑ j, H i j ^ 2 = (H * H.transpose).trace := by
      unfold trace
      refine Finset.sum_congr rfl fun i _ => ?_
      rw [diag_apply, mul_apply]
      exact Finset.sum_congr rfl fun j _ => by rw [transpose_apply, sq]
    rw [h1, hH.2.1]
    have h2 : H * H = U * (diagonal d * diagonal d) * U.transpose := by
      conv_lhs => rw [hHr]
      calc U * diagonal d * U.transpose * (U * diagonal d * U.transpose)
          = U * diagonal d * (U.transpose * U) * diagonal d * U.transpose := by simp only [mul_assoc]
        _ = _ := by rw [h.orth, mul_one]; simp only [mul_assoc]
    rw [h2, trace_mul_comm, ← mul_assoc, h.orth, one_mul, diagonal_mul_diagonal, trace_diagonal]
    exact Finset.sum_congr rfl fun i _ => (sq _).symm
  have e3 : roughness P f = ∑ i, w i * a i ^ 2 := by
    unfold roughness
    conv_lhs => rw [hfa]
    generalize a = a
    rw [mulVec_mulVec, h.eig, ← mulVec_mulVec, hdot, dotProduct]
    refine Finset.sum_congr rfl fun i _ => ?_
    rw [mulVec_diagonal]
    ring
  have hle : ∀ i, mu * (w i * a i ^ 2) ≤ 2 * v := by
    intro i
    refine le_trans (mul_le_mul_of_nonneg_left ?_ hmu.le) hf
    rw [e3]
    exact Finset.single_le_sum (f := fun i => w i * a i ^ 2) (fun j _ => mul_nonneg (hw0 j) (sq_nonneg _)) (Finset.mem_univ i)
  have hterm : ∀ i, ((1 - d i) ^ 2 * a i ^ 2 + v * d i ^ 2 ≤ v) ∧
      (0 < w i → (1 - d i) ^ 2 * a i ^ 2 + v * d i ^ 2 < v) := by
    intro i
    have hp := hpos i
    have hden : 0 < (1 + mu * w i) ^ 2 := by positivity
    have e : (1 - d i) ^ 2 * a i ^ 2 + v * d i ^ 2 = ((mu * w i) * (mu * (w i * a i ^ 2)) + v) / (1 + mu * w i) ^ 2 := by
      rw [hd]
      field_simp
      ring
    rw [e]
    have hmw := mul_nonneg hmu.le (hw0 i)
    have h1 := mul_le_mul_of_nonneg_left (hle i) hmw
    constructor
    · rw [div_le_iff₀ hden]
      nlinarith [mul_nonneg hv.le (sq_nonneg (mu * w i))]
    · intro hwi
      rw [div_lt_iff₀ hden]
      have : 0 < v * (mu * w i) ^ 2 := by positivity
      nlinarith
  have hex : ∃ i, 0 < w i := by
    by_contra hn
    push_neg at hn
    refine hP0 ?_
    have : w = 0 := funext fun i => le_antisymm (hn i) (hw0 i)
    rw [h.recon, this]
    simp
  obtain ⟨i0, hi0⟩ := hex
  have hsum : misfit f (H.mulVec f) + v * ∑ i, ∑ j, H i j ^ 2 = ∑ i, ((1 - d i) ^ 2 * a i ^ 2 + v * d i ^ 2) := by
    rw [e1, e2, Finset.mul_sum, Finset.sum_add_distrib]
  have hE : v * E = ∑ _i : Fin E, v := by simp [mul_comm]
  rw [hsum, hE]
  exact Finset.sum_lt_sum (fun i _ => (hterm i).1) ⟨i0, Finset.mem_univ _, (hterm i0).2 hi0⟩

end

/-! ## C171 -/

/-- C171: with white noise of variance `v` on a flow `f`, the flows stored by `denoise` miss `f` by an expected squared
distance of bias plus variance: what the filter does to `f` itself, and `v` times the sum of its squared entries. -/
theorem C171_mean_error (hE : 0 < sc.E) {pChoice : String} {P : Matrix (Fin sc.E) (Fin sc.E) ℝ}
    (hP : sc.getPMatrix pChoice = .ok P) (st : Ω → FilterSt sc.E) (hst : ∀ ω, (st ω).Valid) (f : Fin sc.E → ℝ)
    {Pr : Measure Ω} {x : Ω → Fin sc.E → ℝ} {v : ℝ} (hx : WhiteNoise Pr x v)
    (muVals : List ℝ) (hmu : ∀ m ∈ muVals, 0 ≤ m) (mu : ℝ) (hl : muVals.getLast? = some mu) :
    ∃ H, IsDenoiser P H mu ∧ ∃ est : Ω → Fin sc.E → ℝ,
      (∀ ω, ∃ st', edgeFlowDenoise lib sc (st ω) (f + x ω) f pChoice muVals = (.ok (), st') ∧
        st'.history.get? "f_estimated" = some (.vec (est ω))) ∧
      ∫ ω, misfit f (est ω) ∂Pr = misfit f (H.mulVec f) + v * ∑ i, ∑ j, H i j ^ 2 := by
  have hd := isDenoiser_inv (getPMatrix_psd hP) (hmu mu (List.mem_of_getLast? hl))
  refine ⟨_, hd, fun ω => (1 + mu • P)⁻¹.mulVec (f + x ω), fun ω => ?_, (hx.filter _ f).2⟩
  obtain ⟨st', H, h1, -, h3, h4⟩ := C59_denoise (lib := lib) hE hP (st ω) (hst ω) (f + x ω) f muVals hmu mu hl
  refine ⟨st', h1, ?_⟩
  rw [h3, inv_eq_right_inv h4.1]

/-- C171: denoising helps on average as long as `mu` times the roughness of the true flow is at most twice the variance of
the noise; in particular for every `mu` if the true flow is smooth. -/
theorem C171_helps (hE : 0 < sc.E) {pChoice : String} {P : Matrix (Fin sc.E) (Fin sc.E) ℝ}
    (hP : sc.getPMatrix pChoice = .ok P) (hP0 : P ≠ 0) (st : Ω → FilterSt sc.E) (hst : ∀ ω, (st ω).Valid) (f : Fin sc.E → ℝ)
    {Pr : Measure Ω} {x : Ω → Fin sc.E → ℝ} {v : ℝ} (hx : WhiteNoise Pr x v) (hv : 0 < v)
    (muVals : List ℝ) (hmu : ∀ m ∈ muVals, 0 ≤ m) (mu : ℝ) (hl : muVals.getLast? = some mu) (hmu0 : 0 < mu)
    (hf : mu * roughness P f ≤ 2 * v) :
    ∃ est : Ω → Fin sc.E → ℝ,
      (∀ ω, ∃ st', edgeFlowDenoise lib sc (st ω) (f + x ω) f pChoice muVals = (.ok (), st') ∧
        st'.history.get? "f_estimated" = some (.vec (est ω))) ∧
      ∫ ω, misfit f (est ω) ∂Pr < ∫ ω, misfit f (f + x ω) ∂Pr := by
  obtain ⟨H, hH, est, h1, h2⟩ := C171_mean_error (lib := lib) hE hP st hst f hx muVals hmu mu hl
  refine ⟨est, h1, ?_⟩
  rw [h2, (hx.unfiltered f).2]
  exact denoiser_helps (getPMatrix_psd hP) hmu0 hH hv hP0 f hf

/-- C171: the same for the errors recorded for the true flow: for every parameter in the list that meets the condition the
mean square of the recorded error is below that of the noisy flow. -/
theorem C171_recorded (hE : 0 < sc.E) {pChoice : String} {P : Matrix (Fin sc.E) (Fin sc.E) ℝ}
    (hP : sc.getPMatrix pChoice = .ok P) (hP0 : P ≠ 0) (st : Ω → FilterSt sc.E) (hst : ∀ ω, (st ω).Valid) (f : Fin sc.E → ℝ)
    (hf0 : f ≠ 0) {Pr : Measure Ω} {x : Ω → Fin sc.E → ℝ} {v : ℝ} (hx : WhiteNoise Pr x v) (hv : 0 < v)
    (muVals : List ℝ) (hmu : ∀ m ∈ muVals, 0 ≤ m) (i : ℕ) (mu : ℝ) (hi : muVals[i]? = some mu) (hmu0 : 0 < mu)
    (hf : mu * roughness P f ≤ 2 * v) :
    ∃ r r0 : Ω → ℝ,
      (∀ ω, ∃ st' errs, edgeFlowDenoise lib sc (st ω) (f + x ω) f pChoice muVals = (.ok (), st') ∧
        st'.history.get? "extracted_component_error" = some (.errs errs) ∧ errs[i]? = some (some (r ω))) ∧
      (∀ ω, calculateErrorNRMSE (f + x ω) f = some (r0 ω)) ∧
      ∫ ω, r ω ^ 2 ∂Pr < ∫ ω, r0 ω ^ 2 ∂Pr := by
  have hps := getPMatrix_psd hP
  have hd := isDenoiser_inv hps hmu0.le
  have hn : norm2 f ≠ 0 := fun h => hf0 (norm2_eq_zero.1 h)
  have hmis : ∀ y : Fin sc.E → ℝ, (norm2 (y - f) / norm2 f) ^ 2 = misfit f y * (norm2 f ^ 2)⁻¹ := by
    intro y
    rw [div_pow, norm2_sq, misfit, div_eq_mul_inv]
  refine ⟨fun ω => norm2 ((1 + mu • P)⁻¹.mulVec (f + x ω) - f) / norm2 f, fun ω => norm2 (f + x ω - f) / norm2 f,
    fun ω => ?_, fun ω => ?_, ?_⟩
  · obtain ⟨st', resp, errs, h1, -, -, h2, -, h3⟩ := C61_response (lib := lib) hE hP (st ω) (hst ω) (f + x ω) f muVals hmu
      (by rintro rfl; simp at hi) _ (eigh_isSpectrum lib hps)
    obtain ⟨H, h4, h5⟩ := h3 i mu hi
    refine ⟨st', errs, h1, h2, ?_⟩
    rw [h5, calculateErrorNRMSE, fdiv, if_neg hn, inv_eq_right_inv h4.1]
  · rw [calculateErrorNRMSE, fdiv, if_neg hn]
  · simp only [hmis]
    rw [integral_mul_const, integral_mul_const, (hx.filter _ f).2, (hx.unfiltered f).2]
    exact mul_lt_mul_of_pos_right (denoiser_helps hps hmu0 hd hv hP0 f hf) (by positivity)

/-- C171: too much of it does not help: if the part of the true flow that the limit of strong denoising removes has more
energy than the noise on all edges together, every sufficiently large `mu` makes the expected squared error larger than
that of the noisy flow. -/
theorem C171_too_much (lib' : NumLib) (hE : 0 < sc.E) {pChoice : String} (f k : Fin sc.E → ℝ) (hk : IsLimitFlow lib' sc pChoice f k)
    {Pr : Measure Ω} {x : Ω → Fin sc.E → ℝ} {v : ℝ} (hx : WhiteNoise Pr x v) (hv : 0 ≤ v) (hf : v * sc.E < misfit f k) :
    ∃ m0, ∀ (st : Ω → FilterSt sc.E) (muVals : List ℝ) (mu : ℝ), (∀ ω, (st ω).Valid) → (∀ m ∈ muVals, 0 ≤ m) →
      muVals.getLast? = some mu → m0 ≤ mu →
      ∃ est : Ω → Fin sc.E → ℝ,
        (∀ ω, ∃ st', edgeFlowDenoise lib sc (st ω) (f + x ω) f pChoice muVals = (.ok (), st') ∧
          st'.history.get? "f_estimated" = some (.vec (est ω))) ∧
        ∫ ω, misfit f (f + x ω) ∂Pr < ∫ ω, misfit f (est ω) ∂Pr := by
  obtain ⟨P, hP⟩ : ∃ P, sc.getPMatrix pChoice = .ok P := by
    rcases hk with ⟨rfl, -⟩ | ⟨rfl, -⟩ | ⟨rfl, -⟩
    exacts [⟨_, rfl⟩, ⟨_, rfl⟩, ⟨_, rfl⟩]
  obtain ⟨C, hC⟩ := C105_limit (lib := lib) lib' hE pChoice f k hk
  have hs : 0 ≤ v * sc.E := mul_nonneg hv (Nat.cast_nonneg _)
  have hgap : Real.sqrt (v * sc.E) < norm2 (k - f) := by
    rw [Real.sqrt_lt' (lt_of_le_of_ne (norm2_nonneg _) ?_), norm2_sq]
    · exact hf
    · intro h0
      have : misfit f k = 0 := by rw [misfit, ← norm2_sq, ← h0]; ring
      rw [this] at hf
      exact absurd hf (not_lt.2 hs)
  set δ := norm2 (k - f) - Real.sqrt (v * sc.E) with hδ
  have hδ0 : 0 < δ := sub_pos.2 hgap
  refine ⟨(|C| + 1) / δ, fun st muVals mu hst hmu hl hm => ?_⟩
  have hm0 : 0 < mu := lt_of_lt_of_le (by positivity) hm
  obtain ⟨H, hH, est, h1, h2⟩ := C171_mean_error (lib := lib) hE hP st hst f hx muVals hmu mu hl
  refine ⟨est, h1, ?_⟩
  rw [h2, (hx.unfiltered f).2]
  have hne : Nonempty Ω := by
    have := hx.prob
    exact nonempty_of_isProbabilityMeasure Pr
  obtain ⟨ω⟩ := hne
  obtain ⟨s1, y, g1, g2, g3⟩ := hC (st ω) f muVals mu (hst ω) hmu hl hm0
  obtain ⟨s2, H', g4, -, g5, g6⟩ := C59_denoise (lib := lib) hE hP (st ω) (hst ω) f f muVals hmu mu hl
  have hs12 : s1 = s2 := (Prod.mk.inj (g1.symm.trans g4)).2
  subst hs12
  have hy : y = H.mulVec f := by
    have h3 : H' = H := (inv_eq_right_inv g6.1).symm.trans (inv_eq_right_inv hH.1)
    have h4 := g2.symm.trans g5
    rw [h3] at h4
    simpa using h4
  rw [hy] at g3
  have h5 : C / mu < δ := by
    rw [div_lt_iff₀ hm0]
    rw [div_le_iff₀ hδ0] at hm
    have := le_abs_self C
    linarith
  have h6 : norm2 (k - f) ≤ norm2 (H.mulVec f - k) + norm2 (H.mulVec f - f) := by
    have h7 := norm2_add_le (k - H.mulVec f) (H.mulVec f - f)
    have h8 : k - H.mulVec f = (-1 : ℝ) • (H.mulVec f - k) := by rw [neg_smul, one_smul, neg_sub]
    rw [sub_add_sub_cancel, h8, norm2_smul] at h7
    simpa using h7
  have h9 : Real.sqrt (v * sc.E) < norm2 (H.mulVec f - f) := by linarith
  have h10 : v * sc.E < misfit f (H.mulVec f) := by
    rw [Real.sqrt_lt hs (norm2_nonneg _), norm2_sq] at h9
    exact h9
  have h11 : 0 ≤ v * ∑ i, ∑ j, H i j ^ 2 :=
    mul_nonneg hv (Finset.sum_nonneg fun i _ => Finset.sum_nonneg fun j _ => sq_nonneg _)
  linarith

private theorem tri_roughness (f : Fin tri.E → ℝ) : roughness tri.L1 f = 3 * f ⬝ᵥ f := by
  rw [roughness, tri_L1, smul_mulVec, one_mulVec, dotProduct_smul, smul_eq_mul]

private theorem tri_single (c : ℝ) : ∃ f : Fin tri.E → ℝ, f ⬝ᵥ f = c ^ 2 := by
  refine ⟨(Pi.single 0 c : Fin 3 → ℝ), ?_⟩
  change (Pi.single 0 c : Fin 3 → ℝ) ⬝ᵥ Pi.single 0 c = c ^ 2
  rw [dotProduct_single, Pi.single_eq_same, sq]

/-- on the filled triangle and noise of variance 1, the default `mu = 1/2` helps for flows that are not smooth -/
example : ∃ (Pr : Measure (Fin tri.E × Bool)) (x : Fin tri.E × Bool → Fin tri.E → ℝ) (f : Fin tri.E → ℝ),
    WhiteNoise Pr x 1 ∧ tri.getPMatrix "L1" = .ok tri.L1 ∧ tri.L1 ≠ 0 ∧ f ≠ 0 ∧ 0 < roughness tri.L1 f ∧
    1 / 2 * roughness tri.L1 f ≤ 2 * 1 := by
  obtain ⟨Pr, x, hx⟩ := WhiteNoise.exists tri.E (by decide) zero_le_one
  obtain ⟨f, hf⟩ := tri_single 1
  have hr := tri_roughness f
  rw [hf] at hr
  refine ⟨Pr, x, f, hx, rfl, fun h => ?_, fun h => ?_, ?_, ?_⟩
  · rw [h, roughness, zero_mulVec, dotProduct_zero] at hr
    norm_num at hr
  · rw [h, dotProduct_zero] at hf
    norm_num at hf
  · rw [hr]; norm_num
  · rw [hr]; norm_num

/-- a flow of norm 3 on the filled triangle has more energy than noise of variance 1, and strong denoising removes it -/
example (lib : NumLib) : ∃ (Pr : Measure (Fin tri.E × Bool)) (x : Fin tri.E × Bool → Fin tri.E → ℝ) (f k : Fin tri.E → ℝ),
    WhiteNoise Pr x 1 ∧ IsLimitFlow lib tri "L1" f k ∧ 1 * (tri.E : ℝ) < misfit f k := by
  obtain ⟨Pr, x, hx⟩ := WhiteNoise.exists tri.E (by decide) zero_le_one
  obtain ⟨f, hf⟩ := tri_single 3
  obtain ⟨g, c, hh, hp⟩ := HodgeParts.exists lib tri f
  obtain ⟨-, -, -, -, hL⟩ := C20_component_behaviour tri_wellFormed f g c hh hp
  have h0 : hh = 0 := by
    rw [tri_L1, smul_mulVec, one_mulVec] at hL
    exact (smul_eq_zero.1 hL).resolve_left (by norm_num)
  refine ⟨Pr, x, f, hh, hx, Or.inr (Or.inr ⟨rfl, tri_wellFormed, hp.harm⟩), ?_⟩
  rw [misfit, h0, zero_sub, neg_dotProduct, dotProduct_neg, neg_neg, hf]
  have : tri.E = 3 := rfl
  rw [this]
  norm_num

end Pytspl
