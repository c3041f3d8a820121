import Verif.Props.GpComponents
import Mathlib.Analysis.Normed.Algebra.MatrixExponential
import Mathlib.Analysis.SpecialFunctions.Exponential

/-!
# C161: the covariance matrices in closed form

The kernels are computed from eigenvectors; their matrices are the functions of the Hodge Laplacians that the
literature defines them by.
-/

namespace Pytspl

open Matrix

variable {lib : NumLib} {sc : SC ℝ} {tol : ℝ} {n : ℕ}

/-! ## Auxiliary facts -/

private theorem exp_sym {A U : Matrix (Fin n) (Fin n) ℝ} {w : Fin n → ℝ} (h : IsEig A U w) (t : ℝ) :
    NormedSpace.exp (t • A) = U * diagonal (fun i => Real.exp (t * w i)) * U.transpose := by
  have hi : U⁻¹ = U.transpose := inv_eq_right_inv h.orth'
  have hu : IsUnit U := (Matrix.isUnit_iff_isUnit_det _).2
    (isUnit_det_of_right_inverse h.orth')
  have h1 : t • A = U * diagonal (fun i => t * w i) * U⁻¹ := by
    rw [hi]
    conv_lhs => rw [h.recon]
    have : diagonal (fun i => t * w i) = t • diagonal w := by
      ext i j
      simp [diagonal_apply]
    rw [this, Matrix.mul_smul, Matrix.smul_mul]
  rw [h1, Matrix.exp_conj _ _ hu, Matrix.exp_diagonal, hi]
  have h2 : (NormedSpace.exp fun i => t * w i) = fun i => Real.exp (t * w i) := by
    funext i
    rw [Pi.coe_exp, Real.exp_eq_exp_ℝ]
  rw [h2]

private theorem diag_col {A U : Matrix (Fin n) (Fin n) ℝ} {w : Fin n → ℝ} (h : IsEig A U w) (g : Fin n → ℝ) (i : Fin n) :
    (U * diagonal g * U.transpose).mulVec (fun k => U k i) = g i • fun k => U k i := by
  have h1 : U.transpose.mulVec (fun k => U k i) = Pi.single i 1 := by
    funext j
    have : U.transpose.mulVec (fun k => U k i) j = (fun k => U k j) ⬝ᵥ fun k => U k i := rfl
    rw [this, h.col_dot, Pi.single_apply]
  rw [← mulVec_mulVec, h1, mulVec_single_one]
  funext k
  rw [col_apply, mul_diagonal, Pi.smul_apply, smul_eq_mul, mul_comm]

/-- the exponential multiplies eigenvectors by the exponential of the eigenvalue -/
private theorem exp_eig {A : Matrix (Fin n) (Fin n) ℝ} (lib : NumLib) (hA : SymmPSD A) (t : ℝ) {lam : ℝ} {f : Fin n → ℝ}
    (hf : A.mulVec f = lam • f) : (NormedSpace.exp (t • A)).mulVec f = Real.exp (t * lam) • f := by
  have h := lib.isEig hA
  rw [exp_sym h t]
  set U := (lib.eigh n A).2
  set w := (lib.eigh n A).1
  have key : ∀ i, U.transpose.mulVec f i = 0 ∨ w i = lam := by
    intro i
    by_cases hw : w i = lam
    · exact .inr hw
    · left
      have h1 : U.transpose.mulVec f i = (fun k => U k i) ⬝ᵥ f := rfl
      have h2 : (fun k => U k i) ⬝ᵥ A.mulVec f = A.mulVec (fun k => U k i) ⬝ᵥ f := by
        rw [dotProduct_mulVec, ← mulVec_transpose, hA.1]
      rw [hf, h.col_eig i, dotProduct_smul, smul_dotProduct, smul_eq_mul, smul_eq_mul] at h2
      rw [h1]
      have : (lam - w i) * ((fun k => U k i) ⬝ᵥ f) = 0 := by linarith
      exact (mul_eq_zero.1 this).resolve_left (sub_ne_zero.2 (Ne.symm hw))
  conv_lhs => rw [h.expand f]
  conv_rhs => rw [h.expand f]
  rw [mulVec_sum, Finset.smul_sum]
  refine Finset.sum_congr rfl fun i _ => ?_
  rw [mulVec_smul, diag_col h, smul_smul, smul_smul]
  rcases key i with h0 | h0
  · rw [h0, zero_mul, mul_zero]
  · rw [h0, mul_comm]

private theorem ext_eig {A U K M : Matrix (Fin n) (Fin n) ℝ} {w : Fin n → ℝ} (h : IsEig A U w)
    (hK : ∀ i, K.mulVec (fun k => U k i) = M.mulVec (fun k => U k i)) : K = M := by
  refine ext_of_mulVec_single fun j => ?_
  rw [h.expand (Pi.single j 1), mulVec_sum, mulVec_sum]
  refine Finset.sum_congr rfl fun i _ => ?_
  rw [mulVec_smul, mulVec_smul, hK]

/-- what a kernel without Hodge components does to the eigenvectors of the Hodge Laplacian -/
theorem same_gain (hw : sc.WellFormed) {K : Matrix (Fin sc.E) (Fin sc.E) ℝ} {g : ℝ → ℝ}
    (hh : ∀ f, sc.getDivergence f = 0 → sc.getCurl f = 0 → K.mulVec f = g 0 • f)
    (hg : ∀ f lam, tol < lam → (sc.B1.transpose * sc.B1).mulVec f = lam • f → K.mulVec f = g lam • f)
    (hc : ∀ f lam, tol < lam → (sc.B2 * sc.B2.transpose).mulVec f = lam • f → K.mulVec f = g lam • f)
    {lam : ℝ} (hl : lam = 0 ∨ 0 < lam ∧ tol < lam) {f : Fin sc.E → ℝ} (hf : sc.L1.mulVec f = lam • f) :
    K.mulVec f = g lam • f := by
  obtain ⟨t12, t21⟩ := C12_lower_upper_annihilate sc hw
  rcases hl with rfl | ⟨hp, hl⟩
  · have h0 : sc.L1.mulVec f = 0 := by rw [hf, zero_smul]
    have h1 : f ⬝ᵥ sc.L1.mulVec f = 0 := by rw [h0, dotProduct_zero]
    have h2 : sc.L1 = sc.L1l + sc.L1u := rfl
    rw [h2, add_mulVec, dotProduct_add] at h1
    have e1 : f ⬝ᵥ sc.L1l.mulVec f = sc.B1.mulVec f ⬝ᵥ sc.B1.mulVec f := by
      rw [SC.L1l, ← mulVec_mulVec, dotProduct_mulVec, vecMul_transpose]
    have e2 : f ⬝ᵥ sc.L1u.mulVec f = sc.B2.transpose.mulVec f ⬝ᵥ sc.B2.transpose.mulVec f := by
      rw [SC.L1u, ← mulVec_mulVec, dotProduct_mulVec, ← mulVec_transpose]
    have p1 : ∀ {m : ℕ} (v : Fin m → ℝ), 0 ≤ v ⬝ᵥ v := fun v => Finset.sum_nonneg fun i _ => mul_self_nonneg _
    have q1 := p1 (sc.B1.mulVec f)
    have q2 := p1 (sc.B2.transpose.mulVec f)
    rw [e1, e2] at h1
    have z1 : sc.B1.mulVec f ⬝ᵥ sc.B1.mulVec f = 0 := by linarith
    have z2 : sc.B2.transpose.mulVec f ⬝ᵥ sc.B2.transpose.mulVec f = 0 := by linarith
    exact hh f (dotProduct_self_eq_zero.1 z1) (dotProduct_self_eq_zero.1 z2)
  · have hs : sc.L1l.mulVec f + sc.L1u.mulVec f = lam • f := by rw [← add_mulVec]; exact hf
    have a1 : sc.L1l.mulVec (sc.L1l.mulVec f) = lam • sc.L1l.mulVec f := by
      have := congrArg sc.L1l.mulVec hs
      rwa [mulVec_add, mulVec_mulVec _ sc.L1l sc.L1u, t12, zero_mulVec, add_zero, mulVec_smul] at this
    have a2 : sc.L1u.mulVec (sc.L1u.mulVec f) = lam • sc.L1u.mulVec f := by
      have := congrArg sc.L1u.mulVec hs
      rwa [mulVec_add, mulVec_mulVec _ sc.L1u sc.L1l, t21, zero_mulVec, zero_add, mulVec_smul] at this
    have h3 : K.mulVec (lam • f) = g lam • (lam • f) := by
      rw [← hs, mulVec_add, hg _ _ hl a1, hc _ _ hl a2, smul_add]
    rw [mulVec_smul, smul_comm] at h3
    exact smul_right_injective _ hp.ne' h3

theorem get_raw {k : GpKernel sc.E} {name : String} {v : ℝ} (h : k.get name = .ok v) :
    softplus (k.raw name) = v := by
  unfold GpKernel.get at h
  split_ifs at h
  exact Except.ok.inj h

/-! ## C161 -/

/-- C161: without Hodge components the diffusion kernel is the matrix exponential `exp (-κ L1)`. -/
theorem C161_diffusion_non_hc (hw : sc.WellFormed) (k : GpKernel sc.E) (hk : k.FromComplex lib tol)
    (ht : machineEps ≤ tol) (hgap : NoSmallEigenvalue sc.L1 tol) (hty : k.type = .diffusionNonHC) (kappa : ℝ)
    (hp : k.get "kappa_down" = .ok kappa) : k.HasCov (NormedSpace.exp (-kappa • sc.L1)) := by
  obtain ⟨K, h1, hh, hg, hc⟩ := C73_spectral_action hw k hk ht (fun n => softplus (k.raw n))
    fun n hn => by rw [GpKernel.get, if_pos hn]
  simp only [hty, docGain, get_raw hp] at hh hg hc
  have h := lib.isEig (symmPSD_L1 sc)
  have : K = NormedSpace.exp (-kappa • sc.L1) := by
    refine ext_eig h fun i => ?_
    rw [exp_eig lib (symmPSD_L1 sc) (-kappa) (h.col_eig i)]
    refine (same_gain (g := fun lam => Real.exp (-(kappa * lam))) hw (fun f a b => ?_) hg hc ?_ (h.col_eig i)).trans ?_
    · simpa using hh f a b
    · rcases h.gap (symmPSD_L1 sc) hgap i with h0 | h0
      · exact .inl h0
      · exact .inr ⟨(machineEps_pos.trans_le ht).trans h0, h0⟩
    · rw [neg_mul]
  rw [← this]
  exact h1

/-- C161: without Hodge components the Matern kernel is the power `(2μ/κ² + L1)^(-μ)`: with a logarithm `M` of
`2μ/κ² + L1` it is `exp (-μ M)`. -/
theorem C161_matern_non_hc (hw : sc.WellFormed) (k : GpKernel sc.E) (hk : k.FromComplex lib tol)
    (ht : machineEps ≤ tol) (hgap : NoSmallEigenvalue sc.L1 tol) (hty : k.type = .maternNonHC) (kappa mu : ℝ)
    (hp : k.get "kappa_down" = .ok kappa) (hp' : k.get "mu_down" = .ok mu) :
    ∃ M : Matrix (Fin sc.E) (Fin sc.E) ℝ, M.transpose = M ∧
      NormedSpace.exp M = (2 * mu / kappa ^ 2) • 1 + sc.L1 ∧ k.HasCov (NormedSpace.exp (-mu • M)) := by
  obtain ⟨K, h1, hh, hg, hc⟩ := C73_spectral_action hw k hk ht (fun n => softplus (k.raw n))
    fun n hn => by rw [GpKernel.get, if_pos hn]
  simp only [hty, docGain, get_raw hp, get_raw hp'] at hh hg hc
  have h := lib.isEig (symmPSD_L1 sc)
  have hk0 : 0 < kappa := by rw [← get_raw hp]; exact softplus_pos _
  have hm0 : 0 < mu := by rw [← get_raw hp']; exact softplus_pos _
  have hc0 : 0 < 2 * mu / kappa ^ 2 := by positivity
  set c := 2 * mu / kappa ^ 2
  set U := (lib.eigh _ sc.L1).2
  set w := (lib.eigh _ sc.L1).1
  have hw0 : ∀ i, 0 ≤ w i := h.nonneg (symmPSD_L1 sc)
  let M : Matrix (Fin sc.E) (Fin sc.E) ℝ := U * diagonal (fun i => Real.log (c + w i)) * U.transpose
  have hM : IsEig M U fun i => Real.log (c + w i) := by
    refine .of_cols h.orth fun i => ?_
    exact diag_col h _ i
  refine ⟨M, ?_, ?_, ?_⟩
  · change (U * diagonal _ * U.transpose).transpose = U * diagonal _ * U.transpose
    rw [transpose_mul, transpose_mul, transpose_transpose, diagonal_transpose, Matrix.mul_assoc]
  · refine ext_eig h fun i => ?_
    have := exp_sym hM 1
    rw [one_smul] at this
    rw [this, diag_col h, add_mulVec, smul_mulVec, one_mulVec, h.col_eig i, ← add_smul, one_mul,
      Real.exp_log (by linarith [hw0 i])]
  · have : K = NormedSpace.exp (-mu • M) := by
      refine ext_eig h fun i => ?_
      rw [exp_sym hM, diag_col h]
      refine (same_gain (g := fun lam => (c + lam) ^ (-mu)) hw (fun f a b => ?_) hg hc ?_ (h.col_eig i)).trans ?_
      · simpa using hh f a b
      · rcases h.gap (symmPSD_L1 sc) hgap i with h0 | h0
        · exact .inl h0
        · exact .inr ⟨(machineEps_pos.trans_le ht).trans h0, h0⟩
      · have hpos : 0 < c + w i := by linarith [hw0 i]
        have : (c + w i) ^ (-mu) = Real.exp (-mu * Real.log (c + w i)) := by
          rw [Real.rpow_def_of_pos hpos, mul_comm]
        exact congrArg (fun r : ℝ => r • fun k => U k i) this
    rw [← this]
    exact h1

/-- C161: in particular for a whole number `μ = m` it is the `m`-th power of the inverse of `2μ/κ² + L1`. -/
theorem C161_matern_integer (hw : sc.WellFormed) (k : GpKernel sc.E) (hk : k.FromComplex lib tol)
    (ht : machineEps ≤ tol) (hgap : NoSmallEigenvalue sc.L1 tol) (hty : k.type = .maternNonHC) (kappa : ℝ) (m : ℕ)
    (hp : k.get "kappa_down" = .ok kappa) (hp' : k.get "mu_down" = .ok (m : ℝ)) :
    k.HasCov (((2 * (m : ℝ) / kappa ^ 2) • 1 + sc.L1)⁻¹ ^ m) := by
  obtain ⟨M, -, h1, h2⟩ := C161_matern_non_hc hw k hk ht hgap hty kappa m hp hp'
  have h3 : -(m : ℝ) • M = m • (-M) := by
    rw [neg_smul, smul_neg, Nat.cast_smul_eq_nsmul]
  rwa [h3, Matrix.exp_nsmul, Matrix.exp_neg, h1] at h2

/-- C161: the diffusion kernel is `h_down` times the exponential of the lower Laplacian on gradient flows, `h_up` times
that of the upper Laplacian on curl flows, and `h` on harmonic flows. -/
theorem C161_diffusion (hw : sc.WellFormed) (k : GpKernel sc.E) (hk : k.FromComplex lib tol)
    (ht : machineEps ≤ tol) (hgap : NoSmallEigenvalue sc.L1 tol) (hty : k.type = .diffusion) (p : String → ℝ)
    (hp : ∀ n ∈ ["kappa_down", "kappa_up", "h", "h_down", "h_up"], k.get n = .ok (p n)) :
    ∃ K, k.HasCov K ∧
      (∀ x, K.mulVec (sc.B1.transpose.mulVec x) =
        p "h_down" • (NormedSpace.exp (-p "kappa_down" • sc.L1l)).mulVec (sc.B1.transpose.mulVec x)) ∧
      (∀ y, K.mulVec (sc.B2.mulVec y) =
        p "h_up" • (NormedSpace.exp (-p "kappa_up" • sc.L1u)).mulVec (sc.B2.mulVec y)) ∧
      ∀ f, sc.getDivergence f = 0 → sc.getCurl f = 0 → K.mulVec f = p "h" • f := by
  obtain ⟨K, h1, hh, hg, hc⟩ := C73_spectral_action hw k hk ht p fun n hn => hp n (by rwa [hty] at hn)
  simp only [hty, docGain] at hh hg hc
  obtain ⟨g1, g2⟩ := lower_gap hw hgap
  refine ⟨K, h1, fun x => ?_, fun y => ?_, hh⟩
  · have hA : SymmPSD (sc.B1.transpose * sc.B1.transpose.transpose) := by
      rw [transpose_transpose]; exact symmPSD_L1l sc
    have hg' : NoSmallEigenvalue (sc.B1.transpose * sc.B1.transpose.transpose) tol := by
      rw [transpose_transpose]; exact g1
    rw [← smul_mulVec]
    refine range_eig lib _ hA hg' (fun f lam hl hf => ?_) x
    rw [transpose_transpose] at hf
    rw [hg f lam hl hf, smul_mulVec, exp_eig lib (symmPSD_L1l sc) _ hf, smul_smul, neg_mul]
  · rw [← smul_mulVec]
    refine range_eig lib _ (symmPSD_L1u sc) g2 (fun f lam hl hf => ?_) y
    rw [hc f lam hl hf, smul_mulVec, exp_eig lib (symmPSD_L1u sc) _ hf, smul_smul, neg_mul]

/-- C161: the Laplacian kernel holds generalised inverses of the lower and upper Laplacians, times `kappa_down` and
`kappa_up`; harmonic flows are multiplied by 1000 times `mu`. -/
theorem C161_laplacian (hw : sc.WellFormed) (k : GpKernel sc.E) (hk : k.FromComplex lib tol)
    (ht : machineEps ≤ tol) (hgap : NoSmallEigenvalue sc.L1 tol) (hty : k.type = .laplacian) (p : String → ℝ)
    (hp : ∀ n ∈ ["kappa_down", "kappa_up", "mu"], k.get n = .ok (p n)) :
    ∃ K, k.HasCov K ∧ sc.L1l * K * sc.L1l = p "kappa_down" • sc.L1l ∧ sc.L1u * K * sc.L1u = p "kappa_up" • sc.L1u ∧
      ∀ f, sc.getDivergence f = 0 → sc.getCurl f = 0 → K.mulVec f = (1000 * p "mu") • f := by
  obtain ⟨K, h1, hh, hg, hc⟩ := C73_spectral_action hw k hk ht p fun n hn => hp n (by rwa [hty] at hn)
  simp only [hty, docGain] at hh hg hc
  obtain ⟨g1, g2⟩ := lower_gap hw hgap
  have h0 : 0 < tol := machineEps_pos.trans_le ht
  have key : ∀ {A : Matrix (Fin sc.E) (Fin sc.E) ℝ} (hA : SymmPSD A) (c : ℝ) (hgA : NoSmallEigenvalue A tol),
      (∀ f lam, tol < lam → A.mulVec f = lam • f → K.mulVec f = (c / lam) • f) → A * K * A = c • A := by
    intro A hA c hgA hK
    have h := lib.isEig hA
    refine ext_eig h fun i => ?_
    rw [← mulVec_mulVec, ← mulVec_mulVec, smul_mulVec, h.col_eig i]
    rcases h.gap hA hgA i with hz | hz
    · rw [hz, zero_smul, mulVec_zero, mulVec_zero, smul_zero]
    · have hn : (lib.eigh _ A).1 i ≠ 0 := (h0.trans hz).ne'
      rw [mulVec_smul, hK _ _ hz (h.col_eig i), smul_smul, mulVec_smul, h.col_eig i, mul_div_cancel₀ _ hn]
  refine ⟨K, h1, key (symmPSD_L1l sc) _ g1 hg, key (symmPSD_L1u sc) _ g2 hc, fun f a b => ?_⟩
  rw [hh f a b, mul_comm]

/-- the hypotheses of `C161_matern_integer` are met by the sample complex with `mu_down = 2`, `kappa_down = 1`: the
covariance is the inverse of `4 + L1`, squared -/
example : ∃ (lib : NumLib) (k : GpKernel twoTri.E), k.FromComplex lib (1 / 1000) ∧
    k.HasCov (((2 * ((2 : ℕ) : ℝ) / 1 ^ 2) • 1 + twoTri.L1)⁻¹ ^ 2) := by
  obtain ⟨lib⟩ := NumLib.exists
  obtain ⟨k, hty, hk⟩ := GpKernel.FromComplex.exists lib twoTri (by decide) (1 / 1000) .maternNonHC
  let k' : GpKernel twoTri.E := { k with raw := fun n => invSoftplus (if n = "mu_down" then 2 else 1) }
  refine ⟨lib, k', hk, C161_matern_integer twoTri_wellFormed k' hk (by norm_num [machineEps]) twoTri_gap hty 1 2 ?_ ?_⟩
  · have hm : "kappa_down" ∈ k'.type.params := by
      have : k'.type = .maternNonHC := hty
      rw [this]; decide
    rw [GpKernel.get, if_pos hm]
    exact congrArg Except.ok (softplus_invSoftplus one_pos)
  · have hm : "mu_down" ∈ k'.type.params := by
      have : k'.type = .maternNonHC := hty
      rw [this]; decide
    rw [GpKernel.get, if_pos hm]
    exact congrArg Except.ok ((softplus_invSoftplus two_pos).trans (by norm_num))

end Pytspl
