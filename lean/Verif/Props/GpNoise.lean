import Verif.Props.GpDenoise
import Verif.Props.FrequencyBounds
import Verif.Props.FilterAccuracy

/-!
# C169: how the noise of a Gaussian process model balances data and prior
-/

namespace Pytspl

open Matrix

variable {lib : NumLib} {sc : SC ℝ} {tol : ℝ}

/-- the prior variance of every combination `∑ x a * f rt[a]` of training edges lies between `lo` and `hi` times
`∑ x a ^ 2` -/
def PriorBetween (K : Matrix (Fin sc.E) (Fin sc.E) ℝ) (rt : List (Fin sc.E)) (lo hi : ℝ) : Prop :=
  ∀ x : Fin rt.length → ℝ, lo * ∑ a, x a ^ 2 ≤ ∑ a, ∑ b, x a * x b * K rt[a] rt[b] ∧
    ∑ a, ∑ b, x a * x b * K rt[a] rt[b] ≤ hi * ∑ a, x a ^ 2

/-- `(A + n)⁻¹` shrinks by a factor between `n + lo` and `n + hi` -/
theorem shift_inv_bounds (lib : NumLib) {p : ℕ} {A : Matrix (Fin p) (Fin p) ℝ} (hA : SymmPSD A) {n lo hi : ℝ}
    (hn : 0 < n) (hlo : 0 ≤ lo) (h1 : ∀ x, lo * (x ⬝ᵥ x) ≤ x ⬝ᵥ A.mulVec x)
    (h2 : ∀ x, x ⬝ᵥ A.mulVec x ≤ hi * (x ⬝ᵥ x)) (z : Fin p → ℝ) :
    (n + lo) * norm2 z ≤ norm2 (A.mulVec z + n • z) ∧ norm2 (A.mulVec z + n • z) ≤ (n + hi) * norm2 z := by
  constructor
  · by_cases hz : norm2 z = 0
    · rw [hz, mul_zero]; exact norm2_nonneg _
    · have hz' : 0 < norm2 z := lt_of_le_of_ne (norm2_nonneg _) (Ne.symm hz)
      have h3 := dot_le_norm2 z (A.mulVec z + n • z)
      rw [dotProduct_add, dotProduct_smul, smul_eq_mul] at h3
      have h4 := h1 z
      have h5 := norm2_sq z
      have h6 : ((n + lo) * norm2 z) * norm2 z ≤ norm2 (A.mulVec z + n • z) * norm2 z := by nlinarith
      exact le_of_mul_le_mul_right h6 hz'
  · have h := lib.isEig hA
    have h3 : ∀ i, |(lib.eigh p A).1 i| ≤ hi := by
      intro i
      rw [abs_of_nonneg (h.nonneg hA i)]
      have h4 := h2 (fun k => (lib.eigh p A).2 k i)
      rw [h.col_eig i, dotProduct_smul, h.col_dot, smul_eq_mul, if_pos rfl] at h4
      linarith
    have h4 : norm2 (A.mulVec z) ≤ hi * norm2 z := by
      exact h.norm2_le (M := A) h.2 h3 z
    have h5 := norm2_add_le (A.mulVec z) (n • z)
    rw [norm2_smul, abs_of_pos hn] at h5
    linarith

/-- C169: on its own training edges a model misses the observations by an amount between `n / (n + hi)` and
`n / (n + lo)` of their deviation from the prior mean, where `n` is the noise and `lo`, `hi` bound the prior variance. -/
theorem C169_residual (m : GpModel sc.E) (hk : m.kernel.FromComplex lib tol) (ht : 0 < tol) (hn : 0 < m.noise)
    (rt : List (Fin sc.E)) (y : Fin rt.length → ℝ) :
    ∃ c K mean cov, m.HasPrior c K ∧
      m.predictive (edgeTensor rt) (List.ofFn y) (edgeTensor rt) = .ok ⟨rt.length, mean, cov⟩ ∧
      ∀ lo hi, 0 ≤ lo → PriorBetween K rt lo hi →
        m.noise / (m.noise + hi) * norm2 (fun a => y a - c) ≤ norm2 (fun a => y a - mean a) ∧
        norm2 (fun a => y a - mean a) ≤ m.noise / (m.noise + lo) * norm2 (fun a => y a - c) := by
  have hK := m.prior_psd hk ht
  obtain ⟨i1, -⟩ := obsCov_inv hK hn rt.get
  refine ⟨_, _, _, _, m.hasPrior hk ht, predictive_eq m hk ht rt rt y, fun lo hi hlo hb => ?_⟩
  set c := m.meanConst.getD 0
  set x : Fin rt.length → ℝ := fun b => y b - c with hx
  set A : Matrix (Fin rt.length) (Fin rt.length) ℝ := Matrix.of fun a b => m.prior (rt.get a) (rt.get b) with hAd
  have hA : SymmPSD A := ⟨by ext a b; exact congrFun (congrFun hK.1 _) _, fun v => slice_nonneg hK v⟩
  set z := (obsCov m.prior m.noise rt.get)⁻¹.mulVec x with hz
  have hO : obsCov m.prior m.noise rt.get = A + m.noise • 1 := rfl
  have hxz : x = A.mulVec z + m.noise • z := by
    have : (A + m.noise • 1).mulVec z = x := by rw [← hO, hz, mulVec_mulVec, i1, one_mulVec]
    rw [← this, add_mulVec, smul_mulVec, one_mulVec]
  have hr : (fun a => y a - (c + A.mulVec z a)) = m.noise • z := by
    funext a
    have := congrFun hxz a
    simp only [hx, Pi.add_apply] at this
    linarith
  have q : ∀ v : Fin rt.length → ℝ, v ⬝ᵥ A.mulVec v = ∑ a, ∑ b, v a * v b * m.prior rt[a] rt[b] := by
    intro v
    simp only [dotProduct, mulVec, hAd, of_apply, Finset.mul_sum]
    refine Finset.sum_congr rfl fun b _ => Finset.sum_congr rfl fun b' _ => ?_
    simp only [List.get_eq_getElem, Fin.getElem_fin]
    ring
  have q' : ∀ v : Fin rt.length → ℝ, v ⬝ᵥ v = ∑ a, v a ^ 2 := fun v => by simp only [dotProduct, sq]
  obtain ⟨b1, b2⟩ := shift_inv_bounds lib hA hn hlo (fun v => by rw [q, q']; exact (hb v).1)
    (fun v => by rw [q, q']; exact (hb v).2) z
  rw [← hxz] at b1 b2
  rw [hr, norm2_smul, abs_of_pos hn]
  have hz0 := norm2_nonneg z
  have hx0 := norm2_nonneg x
  constructor
  · by_cases hp : 0 < m.noise + hi
    · rw [div_mul_eq_mul_div, div_le_iff₀ hp]
      calc m.noise * norm2 x ≤ m.noise * ((m.noise + hi) * norm2 z) := mul_le_mul_of_nonneg_left b2 hn.le
        _ = m.noise * norm2 z * (m.noise + hi) := by ring
    · have h3 : m.noise / (m.noise + hi) * norm2 x ≤ 0 :=
        mul_nonpos_of_nonpos_of_nonneg (div_nonpos_of_nonneg_of_nonpos hn.le (not_lt.1 hp)) hx0
      exact h3.trans (mul_nonneg hn.le hz0)
  · have hp : 0 < m.noise + lo := by linarith
    rw [div_mul_eq_mul_div, le_div_iff₀ hp]
    calc m.noise * norm2 z * (m.noise + lo) = m.noise * ((m.noise + lo) * norm2 z) := by ring
      _ ≤ m.noise * norm2 x := mul_le_mul_of_nonneg_left b1 hn.le

/-- a covariance with eigenvalues between `lo` and `hi`, restricted to distinct edges -/
theorem priorBetween_of_eig {A U : Matrix (Fin sc.E) (Fin sc.E) ℝ} {w : Fin sc.E → ℝ} (h : IsEig A U w)
    {K : Matrix (Fin sc.E) (Fin sc.E) ℝ} {d : Fin sc.E → ℝ} (hK : ∀ i, K.mulVec (fun k => U k i) = d i • fun k => U k i)
    {lo hi : ℝ} (h1 : ∀ i, lo ≤ d i) (h2 : ∀ i, d i ≤ hi) (rt : List (Fin sc.E)) (hrt : rt.Nodup) :
    PriorBetween K rt lo hi := by
  intro x
  set v := spread rt.get x
  have q : ∑ a, ∑ b, x a * x b * K rt[a] rt[b] = v ⬝ᵥ K.mulVec v := by
    rw [spread_quad]
    simp only [dotProduct, mulVec, of_apply, Finset.mul_sum]
    refine Finset.sum_congr rfl fun b _ => Finset.sum_congr rfl fun b' _ => ?_
    simp only [List.get_eq_getElem, Fin.getElem_fin]
    ring
  have q' : ∑ a, x a ^ 2 = v ⬝ᵥ v := by
    have h3 := spread_quad (K := (1 : Matrix (Fin sc.E) (Fin sc.E) ℝ)) rt.get rt.get x x
    rw [one_mulVec] at h3
    have h4 : (Matrix.of fun a b => (1 : Matrix (Fin sc.E) (Fin sc.E) ℝ) (rt.get a) (rt.get b)) = 1 := by
      ext a b
      simp only [of_apply, one_apply, hrt.get_inj_iff]
    rw [h4, one_mulVec] at h3
    rw [h3]
    simp only [dotProduct, sq]
  have e : ∀ (M : Matrix (Fin sc.E) (Fin sc.E) ℝ) (g : Fin sc.E → ℝ),
      (∀ i, M.mulVec (fun k => U k i) = g i • fun k => U k i) →
      v ⬝ᵥ M.mulVec v = ∑ i, g i * (U.transpose.mulVec v i) ^ 2 := by
    intro M g hg
    have h5 : M.mulVec v = ∑ i, (U.transpose.mulVec v i * g i) • fun k => U k i := by
      conv_lhs => rw [h.expand v]
      rw [mulVec_sum]
      refine Finset.sum_congr rfl fun i _ => ?_
      rw [mulVec_smul, hg, smul_smul]
    rw [h5, dotProduct_sum]
    refine Finset.sum_congr rfl fun i _ => ?_
    rw [dotProduct_smul, smul_eq_mul]
    have h6 : v ⬝ᵥ (fun k => U k i) = U.transpose.mulVec v i := dotProduct_comm _ _
    rw [h6]
    ring
  have e1 := e K d hK
  have e2 := e 1 (fun _ => 1) fun i => by rw [one_mulVec, one_smul]
  rw [one_mulVec] at e2
  rw [q, q', e1, e2, Finset.mul_sum, Finset.mul_sum]
  constructor
  · exact Finset.sum_le_sum fun i _ => by
      rw [one_mul]; exact mul_le_mul_of_nonneg_right (h1 i) (sq_nonneg _)
  · exact Finset.sum_le_sum fun i _ => by
      rw [one_mul]; exact mul_le_mul_of_nonneg_right (h2 i) (sq_nonneg _)

private theorem between (hw : sc.WellFormed) (hs : NoRepeats sc.edges) (htr : sc.triangles.Nodup) (m : GpModel sc.E)
    (hk : m.kernel.FromComplex lib tol) (ht : machineEps ≤ tol) (hgap : NoSmallEigenvalue sc.L1 tol) {g : ℝ → ℝ}
    (hg0 : docGain m.kernel.type (fun n => softplus (m.kernel.raw n)) 0 0 = g 0)
    (hg1 : ∀ lam, docGain m.kernel.type (fun n => softplus (m.kernel.raw n)) 1 lam = g lam)
    (hg2 : ∀ lam, docGain m.kernel.type (fun n => softplus (m.kernel.raw n)) 2 lam = g lam)
    (hanti : ∀ a b, 0 ≤ a → a ≤ b → g b ≤ g a) (rt : List (Fin sc.E)) (hrt : rt.Nodup) :
    PriorBetween m.prior rt (m.outputscale * g sc.nodes.length) (m.outputscale * g 0) := by
  have ht0 : 0 < tol := machineEps_pos.trans_le ht
  obtain ⟨K, h1, hh, hgr, hc⟩ := C73_spectral_action hw m.kernel hk ht (fun n => softplus (m.kernel.raw n))
    fun n hn => by rw [GpKernel.get, if_pos hn]
  simp only [hg0, hg1, hg2] at hh hgr hc
  have h := lib.isEig (symmPSD_L1 sc)
  have hK : fullCov m.kernel = K := fullCov_of_hasCov hk ht0 h1
  have ho : 0 < m.outputscale := softplus_pos _
  have hb : ∀ i, 0 ≤ (lib.eigh _ sc.L1).1 i ∧ (lib.eigh _ sc.L1).1 i ≤ sc.nodes.length := fun i =>
    C165_hodge hw hs htr ⟨_, h.col_ne_zero i, h.col_eig i⟩
  refine priorBetween_of_eig h (d := fun i => m.outputscale * g ((lib.eigh _ sc.L1).1 i)) (fun i => ?_) (fun i => ?_)
    (fun i => ?_) rt hrt
  · rw [GpModel.prior, hK, smul_mulVec, same_gain hw hh hgr hc ?_ (h.col_eig i), smul_smul]
    rcases h.gap (symmPSD_L1 sc) hgap i with h0 | h0
    · exact .inl h0
    · exact .inr ⟨ht0.trans h0, h0⟩
  · exact mul_le_mul_of_nonneg_left (hanti _ _ (hb i).1 (hb i).2) ho.le
  · exact mul_le_mul_of_nonneg_left (hanti _ _ le_rfl (hb i).1) ho.le

/-- C169: with the Matérn kernel without Hodge components, on a simple graph with `N` nodes: the observations of distinct
edges are missed by at least `n / (n + s (2 mu / kappa²)^(-mu))` and at most `n / (n + s (2 mu / kappa² + N)^(-mu))` of
their deviation from the prior mean. -/
theorem C169_matern (hw : sc.WellFormed) (hs : NoRepeats sc.edges) (htr : sc.triangles.Nodup) (m : GpModel sc.E)
    (hk : m.kernel.FromComplex lib tol) (ht : machineEps ≤ tol) (hgap : NoSmallEigenvalue sc.L1 tol)
    (hty : m.kernel.type = .maternNonHC) (kappa mu : ℝ) (hp : m.kernel.get "kappa_down" = .ok kappa)
    (hp' : m.kernel.get "mu_down" = .ok mu) (hn : 0 < m.noise) (rt : List (Fin sc.E)) (hrt : rt.Nodup)
    (y : Fin rt.length → ℝ) :
    ∃ c K mean cov, m.HasPrior c K ∧
      m.predictive (edgeTensor rt) (List.ofFn y) (edgeTensor rt) = .ok ⟨rt.length, mean, cov⟩ ∧
      m.noise / (m.noise + m.outputscale * (2 * mu / kappa ^ 2) ^ (-mu)) * norm2 (fun a => y a - c) ≤
        norm2 (fun a => y a - mean a) ∧
      norm2 (fun a => y a - mean a) ≤
        m.noise / (m.noise + m.outputscale * (2 * mu / kappa ^ 2 + sc.nodes.length) ^ (-mu)) *
          norm2 (fun a => y a - c) := by
  have ht0 : 0 < tol := machineEps_pos.trans_le ht
  have hk0 : 0 < kappa := by rw [← get_raw hp]; exact softplus_pos _
  have hm0 : 0 < mu := by rw [← get_raw hp']; exact softplus_pos _
  have hc0 : 0 < 2 * mu / kappa ^ 2 := by positivity
  have ho : 0 < m.outputscale := softplus_pos _
  have hb := between hw hs htr m hk ht hgap (g := fun lam => (2 * mu / kappa ^ 2 + lam) ^ (-mu))
    (by simp only [hty, docGain, get_raw hp, get_raw hp', add_zero])
    (fun lam => by simp only [hty, docGain, get_raw hp, get_raw hp'])
    (fun lam => by simp only [hty, docGain, get_raw hp, get_raw hp'])
    (fun a b h0 hab => Real.rpow_le_rpow_of_nonpos (by linarith) (by linarith) (by linarith)) rt hrt
  obtain ⟨c, K, mean, cov, h1, h2, h3⟩ := C169_residual m hk ht0 hn rt y
  obtain rfl := (HasPrior.unique h1 (m.hasPrior hk ht0)).1
  refine ⟨c, _, mean, cov, h1, h2, ?_⟩
  have := h3 _ _ ?_ hb
  · simpa only [add_zero] using this
  · positivity

/-- C169: the same for the diffusion kernel without Hodge components, with the bounds `s` and `s exp (-kappa N)` on the
prior variance. -/
theorem C169_diffusion (hw : sc.WellFormed) (hs : NoRepeats sc.edges) (htr : sc.triangles.Nodup) (m : GpModel sc.E)
    (hk : m.kernel.FromComplex lib tol) (ht : machineEps ≤ tol) (hgap : NoSmallEigenvalue sc.L1 tol)
    (hty : m.kernel.type = .diffusionNonHC) (kappa : ℝ) (hp : m.kernel.get "kappa_down" = .ok kappa)
    (hn : 0 < m.noise) (rt : List (Fin sc.E)) (hrt : rt.Nodup) (y : Fin rt.length → ℝ) :
    ∃ c K mean cov, m.HasPrior c K ∧
      m.predictive (edgeTensor rt) (List.ofFn y) (edgeTensor rt) = .ok ⟨rt.length, mean, cov⟩ ∧
      m.noise / (m.noise + m.outputscale) * norm2 (fun a => y a - c) ≤ norm2 (fun a => y a - mean a) ∧
      norm2 (fun a => y a - mean a) ≤
        m.noise / (m.noise + m.outputscale * Real.exp (-(kappa * sc.nodes.length))) * norm2 (fun a => y a - c) := by
  have ht0 : 0 < tol := machineEps_pos.trans_le ht
  have hk0 : 0 < kappa := by rw [← get_raw hp]; exact softplus_pos _
  have ho : 0 < m.outputscale := softplus_pos _
  have hb := between hw hs htr m hk ht hgap (g := fun lam => Real.exp (-(kappa * lam)))
    (by simp only [hty, docGain, mul_zero, neg_zero, Real.exp_zero])
    (fun lam => by simp only [hty, docGain, get_raw hp])
    (fun lam => by simp only [hty, docGain, get_raw hp])
    (fun a b h0 hab => Real.exp_le_exp.2 (by nlinarith)) rt hrt
  obtain ⟨c, K, mean, cov, h1, h2, h3⟩ := C169_residual m hk ht0 hn rt y
  obtain rfl := (HasPrior.unique h1 (m.hasPrior hk ht0)).1
  refine ⟨c, _, mean, cov, h1, h2, ?_⟩
  have := h3 _ _ ?_ hb
  · simpa only [mul_zero, neg_zero, Real.exp_zero, mul_one] using this
  · positivity

/-- C169: a model with more noise is less certain: the variance of every prediction grows by at least the added noise. -/
theorem C169_more_noise (m : GpModel sc.E) (hk : m.kernel.FromComplex lib tol) (ht : 0 < tol) (hn : 0 < m.noise)
    (noise' : ℝ) (hn' : m.noise ≤ noise') (rt rs : List (Fin sc.E)) (y : Fin rt.length → ℝ) :
    ∃ mean cov mean' cov',
      m.predictive (edgeTensor rt) (List.ofFn y) (edgeTensor rs) = .ok ⟨rs.length, mean, cov⟩ ∧
      ({ m with noise := noise' } : GpModel sc.E).predictive (edgeTensor rt) (List.ofFn y) (edgeTensor rs) =
        .ok ⟨rs.length, mean', cov'⟩ ∧
      ∀ a, cov a a + (noise' - m.noise) ≤ cov' a a := by
  obtain ⟨c, K, w, h1, h2, h3⟩ := C101_best_prediction m hk ht hn rt
  obtain ⟨c', K', w', h1', h2', -⟩ :=
    C101_best_prediction ({ m with noise := noise' } : GpModel sc.E) hk ht (hn.trans_le hn') rt
  have hKK : K = K' := (HasPrior.unique (m := m) h1 h1').1
  subst hKK
  obtain ⟨mean, cov, g1, -, g2⟩ := h2 y rs
  obtain ⟨mean', cov', g1', -, g2'⟩ := h2' y rs
  refine ⟨mean, cov, mean', cov', g1, g1', fun a => ?_⟩
  rw [g2, g2']
  have h4 := h3 rs[a] (w' rs[a])
  have h5 : predErr K m.noise rt rs[a] (w' rs[a]) ≤ predErr K noise' rt rs[a] (w' rs[a]) := by
    unfold predErr
    have : 0 ≤ ∑ b, w' rs[a] b ^ 2 := Finset.sum_nonneg fun b _ => sq_nonneg _
    have := mul_le_mul_of_nonneg_right hn' this
    linarith
  show _ ≤ predErr K noise' rt rs[a] (w' rs[a]) + noise'
  linarith

/-- on the sample complex with the diffusion kernel and noise 1 the observations of its first two edges are missed by at
least half of their deviation when the output scale is 1 -/
example : ∃ (lib : NumLib) (m : GpModel twoTri.E), m.kernel.FromComplex lib (1 / 1000) ∧
    ∀ y : Fin 2 → ℝ, ∃ c K mean cov, m.HasPrior c K ∧
      m.predictive (edgeTensor (n := twoTri.E) [⟨0, by decide⟩, ⟨1, by decide⟩]) (List.ofFn y)
        (edgeTensor (n := twoTri.E) [⟨0, by decide⟩, ⟨1, by decide⟩]) = .ok ⟨2, mean, cov⟩ ∧
      1 / 2 * norm2 (fun a => y a - c) ≤ norm2 (fun a => y a - mean a) := by
  obtain ⟨lib⟩ := NumLib.exists
  obtain ⟨k, hty, hk⟩ := GpKernel.FromComplex.exists lib twoTri (by decide) (1 / 1000) .diffusionNonHC
  let m : GpModel twoTri.E := ⟨k, invSoftplus 1, none, 1⟩
  have hs : m.outputscale = 1 := softplus_invSoftplus one_pos
  have hp : m.kernel.get "kappa_down" = .ok (softplus (k.raw "kappa_down")) := by
    have hm : "kappa_down" ∈ k.type.params := by rw [hty]; decide
    exact if_pos hm
  refine ⟨lib, m, hk, fun y => ?_⟩
  obtain ⟨c, K, mean, cov, h1, h2, h3, -⟩ := C169_diffusion twoTri_wellFormed (by decide) (by decide) m hk
    (by norm_num [machineEps]) twoTri_gap hty _ hp one_pos [⟨0, by decide⟩, ⟨1, by decide⟩] (by decide) y
  refine ⟨c, K, mean, cov, h1, h2, ?_⟩
  have : m.noise / (m.noise + m.outputscale) = 1 / 2 := by
    rw [hs]; show (1 : ℝ) / (1 + 1) = 1 / 2; norm_num
  rwa [this] at h3

end Pytspl
