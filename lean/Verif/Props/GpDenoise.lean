import Verif.Props.GpClosedForms
import Verif.Props.GpComponents
import Verif.Props.EdgeFlow

/-!
# C168: Gaussian process regression on all edges is edge-flow denoising
-/

namespace Pytspl

open Matrix

variable {lib lib' : NumLib} {sc : SC ℝ} {tol : ℝ}

/-- The prediction on all edges of a model that was given the flow `y` of every edge, in any order. -/
theorem predictive_all (m : GpModel sc.E) (hk : m.kernel.FromComplex lib tol) (ht : 0 < tol)
    (rt : List (Fin sc.E)) (hrt : rt.Perm (List.finRange sc.E)) (y : Fin sc.E → ℝ) :
    ∃ mean cov,
      m.predictive (edgeTensor rt) (List.ofFn fun b : Fin rt.length => y rt[b]) (edgeTensor (List.finRange sc.E)) =
        .ok ⟨(List.finRange sc.E).length, mean, cov⟩ ∧
      (∀ a, mean a = m.meanConst.getD 0 + (m.prior * (m.prior + m.noise • 1)⁻¹).mulVec
        (fun e => y e - m.meanConst.getD 0) (List.finRange sc.E)[a]) ∧
      ∀ a b, cov a b = (m.prior - m.prior * (m.prior + m.noise • 1)⁻¹ * m.prior + m.noise • 1)
        (List.finRange sc.E)[a] (List.finRange sc.E)[b] := by
  have hK := m.prior_psd hk ht
  have hnd : rt.Nodup := hrt.nodup_iff.2 (List.nodup_finRange _)
  have hmem : ∀ e, e ∈ rt := fun e => hrt.mem_iff.2 (List.mem_finRange e)
  let σ : Fin rt.length ≃ Fin sc.E := Equiv.ofBijective rt.get
    ⟨List.nodup_iff_injective_get.1 hnd, fun e => List.get_of_mem (hmem e)⟩
  have hO : obsCov m.prior m.noise rt.get = (m.prior + m.noise • 1).submatrix σ σ := by
    ext a b
    simp only [obsCov, Matrix.add_apply, Matrix.smul_apply, of_apply, submatrix_apply, one_apply,
      EmbeddingLike.apply_eq_iff_eq]
    rfl
  have hOi : (obsCov m.prior m.noise rt.get)⁻¹ = (m.prior + m.noise • 1)⁻¹.submatrix σ σ := by
    rw [hO, inv_submatrix_equiv]
  let rs := List.finRange sc.E
  have hC : (Matrix.of fun a b => m.prior (rs.get a) (rt.get b)) = m.prior.submatrix rs.get σ := rfl
  refine ⟨_, _, predictive_eq m hk ht rt rs _, fun a => ?_, fun a b => ?_⟩
  · congr 1
    rw [hOi, hC]
    have hy : (fun b : Fin rt.length => y rt[b] - m.meanConst.getD 0) =
        (fun e => y e - m.meanConst.getD 0) ∘ σ := rfl
    have h2 : ∀ v : Fin sc.E → ℝ, (v ∘ σ) ∘ σ.symm = v := by
      intro v
      funext e
      simp
    rw [hy, submatrix_mulVec_equiv (M := (m.prior + m.noise • 1)⁻¹), h2, submatrix_mulVec_equiv, h2, ← mulVec_mulVec]
    rfl
  · unfold postCov
    rw [hOi, hC, transpose_submatrix, submatrix_mul_equiv, submatrix_mul_equiv, hK.1]
    simp only [Matrix.add_apply, Matrix.sub_apply, Matrix.smul_apply, of_apply, submatrix_apply, one_apply]
    have : (rs.get a = rs.get b) ↔ a = b := (List.nodup_finRange sc.E).get_inj_iff
    simp only [← this]
    rfl

theorem fullCov_of_hasCov {k : GpKernel sc.E} (hk : k.FromComplex lib tol) (ht : 0 < tol)
    {K : Matrix (Fin sc.E) (Fin sc.E) ℝ} (h : k.HasCov K) : fullCov k = K := by
  refine (HasCov.unique h fun r1 r2 => ?_).symm
  simp only [GpKernel.forward, rows_cast, bind, Except.bind, cov_ok hk ht]
  rfl

/-- regression with the prior `s • (a + L)⁻¹` and the noise `n` -/
theorem regress_inv {E : ℕ} {L : Matrix (Fin E) (Fin E) ℝ} (hL : SymmPSD L) {s n a : ℝ} (hs : 0 < s) (hn : 0 < n)
    (ha : 0 < a) {K : Matrix (Fin E) (Fin E) ℝ} (hK : K = s • (a • 1 + L)⁻¹) :
    K * (K + n • 1)⁻¹ = (s / (s + n * a)) • (1 + (n / (s + n * a)) • L)⁻¹ ∧
    K - K * (K + n • 1)⁻¹ * K + n • 1 = n • ((s / (s + n * a)) • (1 + (n / (s + n * a)) • L)⁻¹ + 1) := by
  have hD : 0 < s + n * a := by positivity
  set D := s + n * a with hDd
  set Q := a • (1 : Matrix (Fin E) (Fin E) ℝ) + L with hQ
  set R := (1 : Matrix (Fin E) (Fin E) ℝ) + (n / D) • L with hR
  have hRd : IsUnit R.det := isUnit_iff_ne_zero.2 (det_ne_zero_of_psd hL (by positivity))
  have hQd : IsUnit Q.det := by
    have h1 : Q = a • (1 + (1 / a) • L) := by
      rw [smul_add, smul_smul, mul_one_div_cancel ha.ne', one_smul]
    rw [h1, det_smul]
    exact (isUnit_iff_ne_zero.2 (pow_ne_zero _ ha.ne')).mul
      (isUnit_iff_ne_zero.2 (det_ne_zero_of_psd hL (by positivity)))
  have h1 : s • (1 : Matrix (Fin E) (Fin E) ℝ) + n • Q = D • R := by
    rw [hQ, hR, smul_add, smul_add, smul_smul, smul_smul, mul_div_cancel₀ _ hD.ne', ← add_assoc, ← add_smul]
  have hKR : K + n • 1 = D • (R * Q⁻¹) := by
    rw [← smul_mul_assoc, ← h1, add_mul, smul_mul_assoc, smul_mul_assoc, one_mul, mul_nonsing_inv _ hQd, hK]
  have hI : (K + n • (1 : Matrix (Fin E) (Fin E) ℝ))⁻¹ = D⁻¹ • (Q * R⁻¹) := by
    refine inv_eq_right_inv ?_
    rw [hKR, smul_mul_smul_comm, mul_inv_cancel₀ hD.ne', one_smul, Matrix.mul_assoc, ← Matrix.mul_assoc Q⁻¹,
      nonsing_inv_mul _ hQd, Matrix.one_mul, mul_nonsing_inv _ hRd]
  have hU : IsUnit (K + n • (1 : Matrix (Fin E) (Fin E) ℝ)).det := by
    rw [hKR, det_smul, det_mul]
    exact (isUnit_iff_ne_zero.2 (pow_ne_zero _ hD.ne')).mul (hRd.mul (by
      rw [isUnit_nonsing_inv_det_iff]; exact hQd))
  have hH : K * (K + n • 1)⁻¹ = (s / D) • R⁻¹ := by
    rw [hI, hK, smul_mul_smul_comm, ← Matrix.mul_assoc, nonsing_inv_mul _ hQd, Matrix.one_mul, div_eq_mul_inv]
  refine ⟨hH, ?_⟩
  have h2 : K * (K + n • 1)⁻¹ * K = K - n • (K * (K + n • 1)⁻¹) := by
    have h3 : K * (K + n • 1)⁻¹ * (K + n • 1) = K := by
      rw [Matrix.mul_assoc, nonsing_inv_mul _ hU, Matrix.mul_one]
    rw [Matrix.mul_add, Matrix.mul_smul, Matrix.mul_one] at h3
    exact eq_sub_of_add_eq h3
  rw [h2, hH, sub_sub_cancel, ← smul_add]

/-- The edge-flow denoising of `f` with `P = L1` and the parameter `mu` stores the filter `F` and the estimate `x`,
whatever the filter object held before and whatever true flow it is compared with. -/
def DenoisesTo (lib : NumLib) (sc : SC ℝ) (f : Fin sc.E → ℝ) (mu : ℝ) (F : Matrix (Fin sc.E) (Fin sc.E) ℝ)
    (x : Fin sc.E → ℝ) : Prop :=
  ∀ (st : FilterSt sc.E) (_ : st.Valid) (fTrue : Fin sc.E → ℝ), ∃ st',
    edgeFlowDenoise lib sc st f fTrue "L1" [mu] = (.ok (), st') ∧
    st'.history.get? "filter" = some (.mat F) ∧ st'.history.get? "f_estimated" = some (.vec x)

private theorem core (hw : sc.WellFormed) (hE : 0 < sc.E) (m : GpModel sc.E) (hk : m.kernel.FromComplex lib tol)
    (ht : machineEps ≤ tol) (hgap : NoSmallEigenvalue sc.L1 tol) (hty : m.kernel.type = .maternNonHC) (kappa : ℝ)
    (hp : m.kernel.get "kappa_down" = .ok kappa) (hp' : m.kernel.get "mu_down" = .ok 1) (hn : 0 < m.noise)
    (rt : List (Fin sc.E)) (hrt : rt.Perm (List.finRange sc.E)) (y : Fin sc.E → ℝ) :
    ∃ mean cov F x,
      m.predictive (edgeTensor rt) (List.ofFn fun b : Fin rt.length => y rt[b]) (edgeTensor (List.finRange sc.E)) =
        .ok ⟨(List.finRange sc.E).length, mean, cov⟩ ∧
      DenoisesTo lib' sc (fun e => y e - m.meanConst.getD 0)
        (m.noise / (m.outputscale + m.noise * (2 / kappa ^ 2))) F x ∧
      (∀ a, mean a = m.meanConst.getD 0 +
        m.outputscale / (m.outputscale + m.noise * (2 / kappa ^ 2)) * x (List.finRange sc.E)[a]) ∧
      ∀ a b, cov a b = m.noise * (m.outputscale / (m.outputscale + m.noise * (2 / kappa ^ 2)) *
        F (List.finRange sc.E)[a] (List.finRange sc.E)[b] + if a = b then 1 else 0) := by
  have ht0 : 0 < tol := machineEps_pos.trans_le ht
  have hs : 0 < m.outputscale := softplus_pos _
  have hk0 : 0 < kappa := by
    have := hp
    rw [GpKernel.get] at this
    split at this
    · rw [← Except.ok.inj this]; exact softplus_pos _
    · cases this
  have ha : 0 < 2 / kappa ^ 2 := by positivity
  have hcov := C161_matern_integer hw m.kernel hk ht hgap hty kappa 1 hp (by rw [hp', Nat.cast_one])
  rw [pow_one, Nat.cast_one, mul_one] at hcov
  have hK : m.prior = m.outputscale • ((2 / kappa ^ 2) • 1 + sc.L1)⁻¹ := by
    rw [GpModel.prior, fullCov_of_hasCov hk ht0 hcov]
  obtain ⟨h1, h2⟩ := regress_inv (symmPSD_L1 sc) hs hn ha hK
  obtain ⟨mean, cov, e1, e2, e3⟩ := predictive_all m hk ht0 rt hrt y
  rw [h1] at e2
  rw [h2] at e3
  set theta := m.noise / (m.outputscale + m.noise * (2 / kappa ^ 2))
  have hth : 0 ≤ theta := by positivity
  refine ⟨mean, cov, (1 + theta • sc.L1)⁻¹, (1 + theta • sc.L1)⁻¹.mulVec (fun e => y e - m.meanConst.getD 0),
    e1, fun st hst fTrue => ?_, fun a => ?_, fun a b => ?_⟩
  · obtain ⟨st', H, g1, g2, g3, g4⟩ := C59_denoise (lib := lib') hE (P := sc.L1) (pChoice := "L1") rfl st hst
      (fun e => y e - m.meanConst.getD 0) fTrue [theta] (fun m' hm => by rw [List.mem_singleton.1 hm]; exact hth) theta rfl
    obtain rfl : (1 + theta • sc.L1)⁻¹ = H := inv_eq_right_inv g4.1
    exact ⟨st', g1, g2, g3⟩
  · rw [e2 a, smul_mulVec]; rfl
  · rw [e3 a b, Matrix.smul_apply, Matrix.add_apply, Matrix.smul_apply, one_apply, smul_eq_mul, smul_eq_mul]
    have : ((List.finRange sc.E)[a] = (List.finRange sc.E)[b]) ↔ a = b := (List.nodup_finRange sc.E).get_inj_iff
    simp only [this]

/-- C168: a model with the Matérn kernel without Hodge decomposition and `mu_down = 1` that was given the flow of every
edge predicts, on every edge, its mean `c` plus a fixed factor times the denoised deviation from `c`; the covariance of
the prediction is the noise times (that factor times the stored denoising filter, plus the identity). -/
theorem C168_denoising (hw : sc.WellFormed) (hE : 0 < sc.E) (m : GpModel sc.E) (hk : m.kernel.FromComplex lib tol)
    (ht : machineEps ≤ tol) (hgap : NoSmallEigenvalue sc.L1 tol) (hty : m.kernel.type = .maternNonHC) (kappa : ℝ)
    (hp : m.kernel.get "kappa_down" = .ok kappa) (hp' : m.kernel.get "mu_down" = .ok 1) (hn : 0 < m.noise)
    (rt : List (Fin sc.E)) (hrt : rt.Perm (List.finRange sc.E)) (y : Fin sc.E → ℝ) :
    ∃ c K mean cov F x, m.HasPrior c K ∧
      m.predictive (edgeTensor rt) (List.ofFn fun b : Fin rt.length => y rt[b]) (edgeTensor (List.finRange sc.E)) =
        .ok ⟨(List.finRange sc.E).length, mean, cov⟩ ∧
      DenoisesTo lib' sc (fun e => y e - c) (m.noise / (m.outputscale + m.noise * (2 / kappa ^ 2))) F x ∧
      (∀ a, mean a = c + m.outputscale / (m.outputscale + m.noise * (2 / kappa ^ 2)) * x (List.finRange sc.E)[a]) ∧
      ∀ a b, cov a b = m.noise * (m.outputscale / (m.outputscale + m.noise * (2 / kappa ^ 2)) *
        F (List.finRange sc.E)[a] (List.finRange sc.E)[b] + if a = b then 1 else 0) := by
  obtain ⟨mean, cov, F, x, h1, h2⟩ := core (lib' := lib') hw hE m hk ht hgap hty kappa hp hp' hn rt hrt y
  exact ⟨_, _, mean, cov, F, x, m.hasPrior hk (machineEps_pos.trans_le ht), h1, h2⟩

/-- C168: every denoising strength `mu > 0` is the regression of some model with zero mean, and the factor by which its
prediction is smaller can be any number strictly between 0 and 1. -/
theorem C168_every_strength (hw : sc.WellFormed) (hE : 0 < sc.E) (lib : NumLib) (ht : machineEps ≤ tol)
    (hgap : NoSmallEigenvalue sc.L1 tol) (mu rho : ℝ) (hmu : 0 < mu) (h0 : 0 < rho) (h1 : rho < 1) :
    ∃ m : GpModel sc.E, m.kernel.FromComplex lib tol ∧ m.kernel.type = .maternNonHC ∧ 0 < m.noise ∧
      ∀ (rt : List (Fin sc.E)) (_ : rt.Perm (List.finRange sc.E)) (y : Fin sc.E → ℝ), ∃ mean cov F x,
        m.predictive (edgeTensor rt) (List.ofFn fun b : Fin rt.length => y rt[b]) (edgeTensor (List.finRange sc.E)) =
          .ok ⟨(List.finRange sc.E).length, mean, cov⟩ ∧
        DenoisesTo lib' sc y mu F x ∧ (∀ a, mean a = rho * x (List.finRange sc.E)[a]) ∧
        ∀ a b, cov a b = mu / rho * (rho * F (List.finRange sc.E)[a] (List.finRange sc.E)[b] +
          if a = b then 1 else 0) := by
  obtain ⟨k, hty, hk⟩ := GpKernel.FromComplex.exists lib sc hE tol .maternNonHC
  have hr : 0 < 1 - rho := by linarith
  have hq : 0 < 2 * mu / (1 - rho) := by positivity
  let k' : GpKernel sc.E :=
    { k with raw := fun n => invSoftplus (if n = "mu_down" then 1 else Real.sqrt (2 * mu / (1 - rho))) }
  have hp : k'.get "kappa_down" = .ok (Real.sqrt (2 * mu / (1 - rho))) := by
    have hm : "kappa_down" ∈ k'.type.params := by
      have : k'.type = .maternNonHC := hty
      rw [this]; decide
    rw [GpKernel.get, if_pos hm]
    exact congrArg Except.ok (softplus_invSoftplus (Real.sqrt_pos.2 hq))
  have hp' : k'.get "mu_down" = .ok 1 := by
    have hm : "mu_down" ∈ k'.type.params := by
      have : k'.type = .maternNonHC := hty
      rw [this]; decide
    rw [GpKernel.get, if_pos hm]
    exact congrArg Except.ok (softplus_invSoftplus one_pos)
  let m : GpModel sc.E := ⟨k', invSoftplus 1, none, mu / rho⟩
  have hs : m.outputscale = 1 := softplus_invSoftplus one_pos
  have hn : 0 < m.noise := show 0 < mu / rho by positivity
  refine ⟨m, hk, hty, hn, fun rt hrt y => ?_⟩
  obtain ⟨mean, cov, F, x, g1, g2, g3, g4⟩ := core (lib' := lib') hw hE m hk ht hgap hty _ hp hp' hn rt hrt y
  have hD : (1 : ℝ) + mu / rho * (2 / (2 * mu / (1 - rho))) = 1 / rho := by
    field_simp
    ring
  have e1 : m.outputscale + m.noise * (2 / Real.sqrt (2 * mu / (1 - rho)) ^ 2) = 1 / rho := by
    rw [hs, Real.sq_sqrt hq.le]; exact hD
  have e2 : m.noise / (1 / rho) = mu := by
    show mu / rho / (1 / rho) = mu
    field_simp
  have e3 : m.outputscale / (1 / rho) = rho := by rw [hs, one_div_one_div]
  rw [e1, e2] at g2
  rw [e1, e3] at g3 g4
  refine ⟨mean, cov, F, x, g1, ?_, fun a => ?_, g4⟩
  · have : (fun e => y e - m.meanConst.getD 0) = y := funext fun e => sub_zero _
    rwa [this] at g2
  · rw [g3 a]; exact zero_add _

/-- on the sample complex some model halves the flow denoised with strength 1: `C168_every_strength` applies -/
example : ∃ (lib : NumLib) (m : GpModel twoTri.E), m.kernel.FromComplex lib (1 / 1000) ∧
    ∀ y : Fin twoTri.E → ℝ, ∃ mean cov F x,
      m.predictive (edgeTensor (List.finRange twoTri.E)) (List.ofFn fun b : Fin _ => y (List.finRange twoTri.E)[b])
        (edgeTensor (List.finRange twoTri.E)) = .ok ⟨(List.finRange twoTri.E).length, mean, cov⟩ ∧
      DenoisesTo lib twoTri y 1 F x ∧ ∀ a, mean a = 1 / 2 * x (List.finRange twoTri.E)[a] := by
  obtain ⟨lib⟩ := NumLib.exists
  obtain ⟨m, h1, -, -, h2⟩ := C168_every_strength (lib' := lib) twoTri_wellFormed (by decide) lib
    (by norm_num [machineEps]) twoTri_gap 1 (1 / 2) one_pos (by norm_num) (by norm_num)
  refine ⟨lib, m, h1, fun y => ?_⟩
  obtain ⟨mean, cov, F, x, g1, g2, g3, -⟩ := h2 _ (List.Perm.refl _) y
  exact ⟨mean, cov, F, x, g1, g2, g3⟩

end Pytspl
