import Verif.Props.FilterComponents
import Verif.Props.GpPredict
import Mathlib.LinearAlgebra.Lagrange

/-!
# C160: Gaussian processes keep the Hodge components apart

Under the prior the gradient, curl and harmonic components of the flow are uncorrelated, and which parameters govern
which component; a model that has seen every edge predicts each component from the same component of the data.
-/

namespace Pytspl

open Matrix Polynomial

variable {lib lib' : NumLib} {sc : SC ℝ} {tol tol' : ℝ}

private theorem sandwich_poly {n : ℕ} {A U : Matrix (Fin n) (Fin n) ℝ} {w : Fin n → ℝ} (h : IsEig A U w)
    (cond : ℝ → Prop) [DecidablePred cond] (φ : ℝ → ℝ) : ∃ q : ℝ[X],
    sandwich (selectPairs U (snapVals w) cond) (fun j => φ ((selectPairs U (snapVals w) cond).vals j)) id id =
      aeval A q := by
  let s : ℝ → ℝ := fun x => if |x| < machineEps then 0 else x
  let q : ℝ[X] := Lagrange.interpolate (Finset.univ.image w) id fun x => if cond (s x) then φ (s x) else 0
  have hq : ∀ i, q.eval (w i) = if cond (s (w i)) then φ (s (w i)) else 0 := fun i =>
    Lagrange.eval_interpolate_at_node _ (Function.injective_id.injOn) (Finset.mem_image_of_mem w (Finset.mem_univ i))
  refine ⟨q, ?_⟩
  have h1 : aeval A q = U * diagonal (fun i => q.eval (w i)) * U.transpose := by
    rw [← h.aeval_mul, Matrix.mul_assoc, h.orth', Matrix.mul_one]
  rw [h1]
  ext a b
  rw [Matrix.mul_apply]
  have h2 := sum_sel (w := snapVals w) (cond := cond) (fun i => U a i * φ (s (w i)) * U b i)
  refine Eq.trans ?_ (h2.trans ?_)
  · rfl
  · refine Finset.sum_congr rfl fun i _ => ?_
    rw [mul_diagonal, hq]
    have : snapVals w i = s (w i) := rfl
    rw [this]
    split_ifs <;> simp

/-- the covariance of all edges keeps the components apart, whatever the tolerance -/
theorem sep_fullCov (hw : sc.WellFormed) (k : GpKernel sc.E) (hk : k.FromComplex lib tol) : Sep sc "L1" (fullCov k) := by
  obtain ⟨-, he⟩ := fromComplex_eig hk
  have hl : Sep sc "L1" sc.L1l := sep_l1l hw (by decide)
  have hu : Sep sc "L1" sc.L1u := sep_l1u hw (by decide)
  have h1 : Sep sc "L1" sc.L1 := hl.add hu
  unfold fullCov
  rw [he]
  refine ((Sep.smul _ ?_).add (Sep.smul _ ?_)).add (Sep.smul _ ?_)
  · obtain ⟨q, hq⟩ := sandwich_poly (lib.isEig (symmPSD_L1 sc)) (fun x => x ≤ tol) (k.kap 0)
    rw [hq]
    exact h1.aeval q
  · obtain ⟨q, hq⟩ := sandwich_poly (lib.isEig (symmPSD_L1l sc)) (fun x => tol < x) (k.kap 1)
    rw [hq]
    exact hl.aeval q
  · obtain ⟨q, hq⟩ := sandwich_poly (lib.isEig (symmPSD_L1u sc)) (fun x => tol ≤ x) (k.kap 2)
    rw [hq]
    exact hu.aeval q

/-- The covariance matrix `K` of a random flow makes its gradient, curl and harmonic components, as returned by
`get_component_flow`, uncorrelated: for all weights `f`, `f'`, the weighted sum of one component with `f` and that of
another component with `f'` have covariance 0 (the components being orthogonal projections, weighting a component with
`f` is weighting the flow with the component of `f`). -/
def UncorrelatedComponents (lib : NumLib) (sc : SC ℝ) (K : Matrix (Fin sc.E) (Fin sc.E) ℝ) : Prop :=
  ∀ f g c h f' g' c' h', HodgeParts lib sc f g c h → HodgeParts lib sc f' g' c' h' →
    g ⬝ᵥ K.mulVec c' = 0 ∧ g ⬝ᵥ K.mulVec h' = 0 ∧ c ⬝ᵥ K.mulVec g' = 0 ∧ c ⬝ᵥ K.mulVec h' = 0 ∧
      h ⬝ᵥ K.mulVec g' = 0 ∧ h ⬝ᵥ K.mulVec c' = 0

theorem Sep.uncorrelated {p : String} {K : Matrix (Fin sc.E) (Fin sc.E) ℝ} (hw : sc.WellFormed) (hK : Sep sc p K) :
    UncorrelatedComponents lib sc K := by
  intro f g c h f' g' c' h' hp hp'
  have hk := hK.keeps (lib := lib) _ _ _ _ hp'
  obtain ⟨⟨⟨x, hx⟩, -⟩, ⟨⟨y, hy⟩, -⟩, -⟩ := hp.proj
  obtain ⟨⟨⟨x', hx'⟩, -⟩, ⟨⟨y', hy'⟩, -⟩, -⟩ := hk.proj
  obtain ⟨⟨-, -⟩, ⟨-, -⟩, d, r, -⟩ := C20_component_behaviour hw _ _ _ _ hp
  obtain ⟨⟨a1, -⟩, ⟨a2, -⟩, a3, a4, -⟩ := C20_component_behaviour hw _ _ _ _ hk
  have hd : ∀ z : Fin sc.E → ℝ, sc.getDivergence z = 0 → g ⬝ᵥ z = 0 := by
    intro z hz
    have hz' : sc.B1.mulVec z = 0 := hz
    rw [← hx, mulVec_transpose, ← dotProduct_mulVec, hz', dotProduct_zero]
  have hc : ∀ z : Fin sc.E → ℝ, sc.getCurl z = 0 → c ⬝ᵥ z = 0 := by
    intro z hz
    have hz' : sc.B2.transpose.mulVec z = 0 := hz
    rw [← hy, ← vecMul_transpose, ← dotProduct_mulVec, hz', dotProduct_zero]
  refine ⟨hd _ a2, hd _ a3, hc _ a1, hc _ a4, ?_, ?_⟩
  · rw [← hx', mulVec_transpose, dotProduct_comm, ← dotProduct_mulVec, show sc.B1.mulVec h = 0 from d, dotProduct_zero]
  · rw [← hy', ← vecMul_transpose, dotProduct_comm, ← dotProduct_mulVec,
      show sc.B2.transpose.mulVec h = 0 from r, dotProduct_zero]

theorem sep_prior (hw : sc.WellFormed) (m : GpModel sc.E) (hk : m.kernel.FromComplex lib tol) : Sep sc "L1" m.prior :=
  (sep_fullCov hw m.kernel hk).smul _

/-- C160: under the prior of every model the three components of the flow are uncorrelated. -/
theorem C160_prior (hw : sc.WellFormed) (m : GpModel sc.E) (hk : m.kernel.FromComplex lib tol) (ht : 0 < tol) :
    ∃ c K, m.HasPrior c K ∧ UncorrelatedComponents lib' sc K :=
  ⟨_, _, m.hasPrior hk ht, (sep_prior hw m hk).uncorrelated hw⟩

/-- C160: a model that was given the flow `y` of every edge, in any order, predicts on all edges the prior mean plus a
fixed matrix times the deviation of `y` from it.  That matrix maps each Hodge component of the deviation to the same
component of the prediction's deviation, and no component grows.  The components are still uncorrelated. -/
theorem C160_posterior (hw : sc.WellFormed) (m : GpModel sc.E) (hk : m.kernel.FromComplex lib tol) (ht : 0 < tol)
    (hn : 0 < m.noise) (rt : List (Fin sc.E)) (hrt : rt.Perm (List.finRange sc.E)) :
    ∃ (c : ℝ) (H C : Matrix (Fin sc.E) (Fin sc.E) ℝ),
      (∀ (y : Fin sc.E → ℝ), ∃ mean cov,
        m.predictive (edgeTensor rt) (List.ofFn fun b : Fin rt.length => y rt[b]) (edgeTensor (List.finRange sc.E)) =
          .ok ⟨(List.finRange sc.E).length, mean, cov⟩ ∧
        (∀ a, mean a = c + H.mulVec (fun e => y e - c) (List.finRange sc.E)[a]) ∧
        ∀ a b, cov a b = C (List.finRange sc.E)[a] (List.finRange sc.E)[b]) ∧
      KeepsComponents lib' sc H ∧ (∀ x, H.mulVec x ⬝ᵥ H.mulVec x ≤ x ⬝ᵥ x) ∧
      UncorrelatedComponents lib' sc C := by
  have hK := m.prior_psd hk ht
  have hS := sep_prior hw m hk
  obtain ⟨hi1, hi2⟩ := obsCov_inv hK hn (id : Fin sc.E → Fin sc.E)
  have hA : obsCov m.prior m.noise (id : Fin sc.E → Fin sc.E) = m.prior + m.noise • 1 := rfl
  rw [hA] at hi1 hi2
  have hSA : Sep sc "L1" (m.prior + m.noise • 1) := hS.add (Sep.one.smul _)
  have hdet : (m.prior + m.noise • (1 : Matrix (Fin sc.E) (Fin sc.E) ℝ)).det ≠ 0 := by
    intro h0
    have := congrArg Matrix.det hi1
    rw [det_mul, h0, zero_mul, det_one] at this
    exact zero_ne_one this
  have hSI := hSA.inv lib hdet
  -- the training edges as a bijection
  have hnd : rt.Nodup := hrt.nodup_iff.2 (List.nodup_finRange _)
  have hmem : ∀ e, e ∈ rt := fun e => hrt.mem_iff.2 (List.mem_finRange e)
  let σ : Fin rt.length ≃ Fin sc.E := Equiv.ofBijective rt.get
    ⟨List.nodup_iff_injective_get.1 hnd, fun e => List.get_of_mem (hmem e)⟩
  have hO : obsCov m.prior m.noise rt.get = (m.prior + m.noise • 1).submatrix σ σ := by
    ext a b
    simp only [obsCov, Matrix.add_apply, Matrix.smul_apply, of_apply, submatrix_apply, one_apply,
      EmbeddingLike.apply_eq_iff_eq]
    rfl
  have hOi : (obsCov m.prior m.noise rt.get)⁻¹ = (m.prior + m.noise • 1)⁻¹.submatrix σ σ := by
    rw [hO, inv_submatrix_equiv]
  let rs := List.finRange sc.E
  have hC : (Matrix.of fun a b => m.prior (rs.get a) (rt.get b)) = m.prior.submatrix rs.get σ := rfl
  refine ⟨m.meanConst.getD 0, m.prior * (m.prior + m.noise • 1)⁻¹,
    m.prior - m.prior * (m.prior + m.noise • 1)⁻¹ * m.prior + m.noise • 1, fun y => ⟨_, _,
      predictive_eq m hk ht rt rs _, fun a => ?_, fun a b => ?_⟩, (hS.mul hSI).keeps, fun x => ?_, ?_⟩
  · congr 1
    rw [hOi, hC]
    have hy : (fun b : Fin rt.length => y rt[b] - m.meanConst.getD 0) =
        (fun e => y e - m.meanConst.getD 0) ∘ σ := rfl
    have h2 : ∀ v : Fin sc.E → ℝ, (v ∘ σ) ∘ σ.symm = v := by
      intro v
      funext e
      simp
    rw [hy, submatrix_mulVec_equiv (M := (m.prior + m.noise • 1)⁻¹), h2, submatrix_mulVec_equiv, h2, ← mulVec_mulVec]
    rfl
  · unfold postCov
    rw [hOi, hC, transpose_submatrix, submatrix_mul_equiv, submatrix_mul_equiv, hK.1]
    simp only [Matrix.add_apply, Matrix.sub_apply, Matrix.smul_apply, of_apply, submatrix_apply, one_apply]
    have : (rs.get a = rs.get b) ↔ a = b := (List.nodup_finRange sc.E).get_inj_iff
    simp only [← this]
    rfl
  · set z := (m.prior + m.noise • (1 : Matrix (Fin sc.E) (Fin sc.E) ℝ))⁻¹.mulVec x with hz
    have hx : x = m.prior.mulVec z + m.noise • z := by
      have : (m.prior + m.noise • (1 : Matrix (Fin sc.E) (Fin sc.E) ℝ)).mulVec z = x := by
        rw [hz, mulVec_mulVec, hi1, one_mulVec]
      rw [← this, add_mulVec, smul_mulVec, one_mulVec]
    have h1 : (m.prior * (m.prior + m.noise • 1)⁻¹).mulVec x = m.prior.mulVec z := by
      rw [← mulVec_mulVec]
    rw [h1, hx, add_dotProduct, dotProduct_add, dotProduct_add, dotProduct_smul, smul_dotProduct, smul_dotProduct,
      dotProduct_smul, smul_eq_mul, smul_eq_mul, smul_eq_mul, smul_eq_mul, dotProduct_comm (m.prior.mulVec z) z]
    have h2 : 0 ≤ z ⬝ᵥ m.prior.mulVec z := hK.2 z
    have h3 : 0 ≤ z ⬝ᵥ z := by
      rw [dotProduct]
      exact Finset.sum_nonneg fun i _ => mul_self_nonneg _
    have h4 := mul_nonneg hn.le h2
    have h5 := mul_nonneg hn.le (mul_nonneg hn.le h3)
    linarith
  · exact ((hS.sub ((hS.mul hSI).mul hS)).add (Sep.one.smul _)).uncorrelated hw

/-! ## Which parameters govern which component -/

/-- a flow in the range of `A` is a combination of eigenvectors of `A * Aᵀ` with eigenvalues that are not 0 -/
theorem range_eig {n p : ℕ} (lib : NumLib) (A : Matrix (Fin n) (Fin p) ℝ) (hA : SymmPSD (A * A.transpose))
    {K K' : Matrix (Fin n) (Fin n) ℝ} {t : ℝ} (hgap : NoSmallEigenvalue (A * A.transpose) t)
    (h : ∀ f lam, t < lam → (A * A.transpose).mulVec f = lam • f → K.mulVec f = K'.mulVec f) (x : Fin p → ℝ) :
    K.mulVec (A.mulVec x) = K'.mulVec (A.mulVec x) := by
  have he := lib.isEig hA
  set U := (lib.eigh n (A * A.transpose)).2
  set w := (lib.eigh n (A * A.transpose)).1
  have key : ∀ i, (U.transpose.mulVec (A.mulVec x) i) • K.mulVec (fun k => U k i) =
      (U.transpose.mulVec (A.mulVec x) i) • K'.mulVec (fun k => U k i) := by
    intro i
    rcases he.gap hA hgap i with h0 | h0
    · have h1 : (A * A.transpose).mulVec (fun k => U k i) = 0 := by rw [he.col_eig i, h0, zero_smul]
      have h2 : A.transpose.mulVec (fun k => U k i) = 0 := by
        rw [← mulVec_mulVec] at h1
        have h3 : A.transpose.mulVec (fun k => U k i) ⬝ᵥ A.transpose.mulVec (fun k => U k i) = 0 := by
          have : (fun k => U k i) ⬝ᵥ A.mulVec (A.transpose.mulVec (fun k => U k i)) = 0 := by rw [h1, dotProduct_zero]
          rwa [dotProduct_mulVec, ← mulVec_transpose] at this
        exact dotProduct_self_eq_zero.1 h3
      have h4 : U.transpose.mulVec (A.mulVec x) i = 0 := by
        have : U.transpose.mulVec (A.mulVec x) i = (fun k => U k i) ⬝ᵥ A.mulVec x := rfl
        rw [this, dotProduct_mulVec, ← mulVec_transpose, h2, zero_dotProduct]
      rw [h4, zero_smul, zero_smul]
    · rw [h _ _ h0 (he.col_eig i)]
  rw [he.expand (A.mulVec x), mulVec_sum, mulVec_sum]
  refine Finset.sum_congr rfl fun i _ => ?_
  rw [mulVec_smul, mulVec_smul]
  exact key i

/-- `k` returns the covariances `K` for all lists of edges -/
def GpKernel.HasCov (k : GpKernel sc.E) (K : Matrix (Fin sc.E) (Fin sc.E) ℝ) : Prop :=
  ∀ r1 r2 : List (Fin sc.E), k.forward (edgeTensor r1) (some (edgeTensor r2)) =
    .ok (.mat r1.length r2.length (Matrix.of fun a b => K r1[a] r2[b]))

theorem HasCov.unique {k : GpKernel sc.E} {K K' : Matrix (Fin sc.E) (Fin sc.E) ℝ} (h : k.HasCov K) (h' : k.HasCov K') :
    K = K' := by
  ext i j
  have h1 := h [i] [j]
  rw [h' [i] [j]] at h1
  injection h1 with h1
  injection h1 with _ _ h1
  exact (congrFun (congrFun (eq_of_heq (heq_of_eq h1)) (0 : Fin 1)) (0 : Fin 1)).symm

private theorem same_val {k k' : GpKernel sc.E} (hty : k.type = k'.type) {n : String} (hn : n ∈ k.type.params)
    (h : k.get n = k'.get n) : softplus (k.raw n) = softplus (k'.raw n) := by
  rw [GpKernel.get, GpKernel.get, if_pos hn, if_pos (hty ▸ hn)] at h
  exact Except.ok.inj h

/-- C160: the parameters whose names end in `_down` alone decide how gradient flows vary under the prior; in kernels with
Hodge components those whose names end in `_up` decide how curl flows vary, and `h` and `mu` how harmonic flows vary.
Two kernels of the same kind that agree in these parameters act alike on all those flows, whatever their other
parameters are. -/
theorem C160_parameters (hw : sc.WellFormed) (k k' : GpKernel sc.E) (hk : k.FromComplex lib tol)
    (hk' : k'.FromComplex lib' tol) (ht : machineEps ≤ tol) (hty : k.type = k'.type)
    (K K' : Matrix (Fin sc.E) (Fin sc.E) ℝ) (hK : k.HasCov K) (hK' : k'.HasCov K') :
    ((∀ n ∈ ["kappa_down", "mu_down", "h_down"], k.get n = k'.get n) → NoSmallEigenvalue sc.L1l tol →
      ∀ x, K.mulVec (sc.B1.transpose.mulVec x) = K'.mulVec (sc.B1.transpose.mulVec x)) ∧
    ((∀ n ∈ ["kappa_up", "mu_up", "h_up"], k.get n = k'.get n) → NoSmallEigenvalue sc.L1u tol →
      k.type ≠ .diffusionNonHC → k.type ≠ .maternNonHC →
      ∀ y, K.mulVec (sc.B2.mulVec y) = K'.mulVec (sc.B2.mulVec y)) ∧
    ((∀ n ∈ ["h", "mu"], k.get n = k'.get n) → k.type ≠ .maternNonHC →
      ∀ f, sc.getDivergence f = 0 → sc.getCurl f = 0 → K.mulVec f = K'.mulVec f) := by
  obtain ⟨K1, h1, h1h, h1g, h1c⟩ := C73_spectral_action hw k hk ht (fun n => softplus (k.raw n))
    fun n hn => by rw [GpKernel.get, if_pos hn]
  obtain ⟨K2, h2, h2h, h2g, h2c⟩ := C73_spectral_action hw k' hk' ht (fun n => softplus (k'.raw n))
    fun n hn => by rw [GpKernel.get, if_pos hn]
  obtain rfl := HasCov.unique hK h1
  obtain rfl := HasCov.unique hK' h2
  refine ⟨fun hp hgap x => ?_, fun hp hgap e1 e2 y => ?_, fun hp e1 f hd hc => ?_⟩
  · have hgap' : NoSmallEigenvalue (sc.B1.transpose * sc.B1.transpose.transpose) tol := by
      rw [transpose_transpose]; exact hgap
    have hA : SymmPSD (sc.B1.transpose * sc.B1.transpose.transpose) := by
      rw [transpose_transpose]; exact symmPSD_L1l sc
    refine range_eig lib _ hA hgap' (fun f lam hl hf => ?_) x
    rw [transpose_transpose] at hf
    rw [h1g f lam hl hf, h2g f lam hl hf, ← hty]
    congr 1
    have hv := fun n hn hm => same_val hty (n := n) hn (hp n hm)
    cases hT : k.type <;> rw [hT] at hv <;> simp only [docGain]
    · rw [hv "h_down" (by decide) (by decide), hv "kappa_down" (by decide) (by decide)]
    · rw [hv "kappa_down" (by decide) (by decide)]
    · rw [hv "h_down" (by decide) (by decide), hv "kappa_down" (by decide) (by decide),
        hv "mu_down" (by decide) (by decide)]
    · rw [hv "kappa_down" (by decide) (by decide), hv "mu_down" (by decide) (by decide)]
    · rw [hv "kappa_down" (by decide) (by decide)]
  · refine range_eig lib _ (symmPSD_L1u sc) hgap (fun f lam hl hf => ?_) y
    rw [h1c f lam hl hf, h2c f lam hl hf, ← hty]
    congr 1
    have hv := fun n hn hm => same_val hty (n := n) hn (hp n hm)
    cases hT : k.type <;> rw [hT] at hv <;> simp only [docGain]
    · rw [hv "h_up" (by decide) (by decide), hv "kappa_up" (by decide) (by decide)]
    · exact absurd hT e1
    · rw [hv "h_up" (by decide) (by decide), hv "kappa_up" (by decide) (by decide),
        hv "mu_up" (by decide) (by decide)]
    · exact absurd hT e2
    · rw [hv "kappa_up" (by decide) (by decide)]
  · rw [h1h f hd hc, h2h f hd hc, ← hty]
    congr 1
    have hv := fun n hn hm => same_val hty (n := n) hn (hp n hm)
    cases hT : k.type <;> rw [hT] at hv <;> simp only [docGain]
    · rw [hv "h" (by decide) (by decide)]
    · rw [hv "h" (by decide) (by decide), hv "mu" (by decide) (by decide)]
    · exact absurd hT e1
    · rw [hv "mu" (by decide) (by decide)]

/-! ## Training on one edge only -/

private theorem fullCov_pos (hw : sc.WellFormed) (k : GpKernel sc.E) (hk : k.FromComplex lib tol)
    (ht : machineEps ≤ tol) (x : Fin sc.E → ℝ) (hx : x ≠ 0) : 0 < x ⬝ᵥ (fullCov k).mulVec x := by
  have htp : 0 < tol := lt_of_lt_of_le machineEps_pos ht
  obtain ⟨K, hK, -, hpos⟩ := C72_positive_definite hw k hk ht (List.finRange sc.E) (List.nodup_finRange _)
  have hK' : k.forward (edgeTensor (List.finRange sc.E)) (some (edgeTensor (List.finRange sc.E))) =
      .ok (.mat _ _ (Matrix.of fun a b => fullCov k ((List.finRange sc.E).get a) ((List.finRange sc.E).get b))) := by
    simp only [GpKernel.forward, rows_cast, bind, Except.bind, cov_ok hk htp]
    rfl
  rw [hK] at hK'
  injection hK' with h1
  injection h1 with _ _ h1
  have h1 := eq_of_heq (heq_of_eq h1)
  let σ : Fin (List.finRange sc.E).length ≃ Fin sc.E := finCongr (List.length_finRange ..)
  have hσ : ∀ a, (List.finRange sc.E).get a = σ a := fun a => by
    apply Fin.ext
    simp [σ]
  have hx' : x ∘ σ ≠ 0 := fun h => hx (by
    funext e
    have := congrFun h (σ.symm e)
    simpa using this)
  have := hpos _ hx'
  have hKσ : K = (fullCov k).submatrix σ σ := by
    rw [h1]
    ext a b
    simp only [of_apply, submatrix_apply, hσ]
  have h2 : (x ∘ σ) ∘ σ.symm = x := by
    funext e
    simp
  rw [hKσ, submatrix_mulVec_equiv, h2] at this
  have h3 : (x ∘ σ) ⬝ᵥ ((fullCov k).mulVec x ∘ σ) = x ⬝ᵥ (fullCov k).mulVec x :=
    Equiv.sum_comp σ fun e => x e * (fullCov k).mulVec x e
  rwa [h3] at this

/-- C160, the limit of `C160_posterior`: after training on the single edge `e` the components of the flow are still
uncorrelated exactly when the unit flow on `e` has only one component, that is, hardly ever.  So what is learnt about one
component from part of the edges also changes the prediction of the others. -/
theorem C160_one_edge (hw : sc.WellFormed) (m : GpModel sc.E) (hk : m.kernel.FromComplex lib tol)
    (ht : machineEps ≤ tol) (hn : 0 ≤ m.noise) (e : Fin sc.E) (g c h : Fin sc.E → ℝ)
    (hp : HodgeParts lib' sc (Pi.single e 1) g c h) :
    ∃ C : Matrix (Fin sc.E) (Fin sc.E) ℝ,
      (∀ y : ℝ, ∃ mean cov, m.predictive (edgeTensor [e]) [y] (edgeTensor (List.finRange sc.E)) =
        .ok ⟨(List.finRange sc.E).length, mean, cov⟩ ∧
        ∀ a b, cov a b = C (List.finRange sc.E)[a] (List.finRange sc.E)[b]) ∧
      (UncorrelatedComponents lib' sc C ↔ (g = 0 ∧ c = 0) ∨ (g = 0 ∧ h = 0) ∨ (c = 0 ∧ h = 0)) := by
  have htp : 0 < tol := lt_of_lt_of_le machineEps_pos ht
  have hK := m.prior_psd hk htp
  have hS := (sep_prior hw m hk).uncorrelated (lib := lib') hw
  have hI := (Sep.one (sc := sc) (p := "L1")).uncorrelated (lib := lib') hw
  have hpos : ∀ x, x ≠ 0 → 0 < x ⬝ᵥ m.prior.mulVec x := by
    intro x hx
    unfold GpModel.prior
    rw [smul_mulVec, dotProduct_smul]
    exact mul_pos (softplus_pos _) (fullCov_pos hw m.kernel hk ht x hx)
  have hee : 0 < m.prior e e := by
    have := hpos (Pi.single e 1) (by
      intro h0
      have := congrFun h0 e
      simp at this)
    simpa [mulVec_single_one, single_dotProduct] using this
  set α : ℝ := m.prior e e + m.noise with hα
  have hαp : 0 < α := by linarith
  -- the covariances with the edge `e`
  set q : Fin sc.E → ℝ := fun i => m.prior i e with hq
  have hqP : ∀ x, x ⬝ᵥ q = x ⬝ᵥ m.prior.mulVec (Pi.single e 1) := by
    intro x
    rw [mulVec_single_one]
    rfl
  let C : Matrix (Fin sc.E) (Fin sc.E) ℝ := m.prior - α⁻¹ • vecMulVec q q + m.noise • 1
  have hC : ∀ x y, x ⬝ᵥ C.mulVec y = x ⬝ᵥ m.prior.mulVec y - α⁻¹ * ((x ⬝ᵥ q) * (q ⬝ᵥ y)) +
      m.noise * (x ⬝ᵥ (1 : Matrix (Fin sc.E) (Fin sc.E) ℝ).mulVec y) := by
    intro x y
    simp only [C]
    rw [add_mulVec, sub_mulVec, smul_mulVec, smul_mulVec, dotProduct_add, dotProduct_sub, dotProduct_smul,
      dotProduct_smul, smul_eq_mul, smul_eq_mul]
    congr 3
    have : (vecMulVec q q).mulVec y = (q ⬝ᵥ y) • q := by
      funext i
      simp only [mulVec, vecMulVec_apply, dotProduct, Pi.smul_apply, smul_eq_mul, Finset.sum_mul]
      exact Finset.sum_congr rfl fun j _ => by ring
    rw [this, dotProduct_smul, smul_eq_mul, mul_comm]
  have hsplit : (Pi.single e 1 : Fin sc.E → ℝ) = g + c + h := by
    obtain ⟨-, -, h3⟩ := hp.proj
    rw [h3]
    abel
  have hqc : ∀ y, q ⬝ᵥ y = y ⬝ᵥ q := fun y => dotProduct_comm _ _
  -- what edge `e` tells about a component
  have hdot : ∀ f' g' c' h', HodgeParts lib' sc f' g' c' h' → g' ⬝ᵥ q = g' ⬝ᵥ m.prior.mulVec g ∧
      c' ⬝ᵥ q = c' ⬝ᵥ m.prior.mulVec c ∧ h' ⬝ᵥ q = h' ⬝ᵥ m.prior.mulVec h := by
    intro f' g' c' h' hp'
    obtain ⟨a1, a2, a3, a4, a5, a6⟩ := hS _ _ _ _ _ _ _ _ hp' hp
    simp only [hqP, hsplit, mulVec_add, dotProduct_add]
    exact ⟨by rw [a1, a2]; ring, by rw [a3, a4]; ring, by rw [a5, a6]; ring⟩
  refine ⟨C, fun y => ⟨_, _, predictive_eq m hk htp [e] (List.finRange sc.E) (fun _ => y), fun a b => ?_⟩, ?_, ?_⟩
  · have hinv : (obsCov m.prior m.noise [e].get)⁻¹ = Matrix.of fun _ _ => α⁻¹ := by
      have h1 : obsCov m.prior m.noise [e].get = Matrix.of fun _ _ => α := by
        ext a b
        have : a = b := by
          apply Fin.ext
          have := a.2
          have := b.2
          simp only [List.length_cons, List.length_nil] at *
          omega
        subst this
        have h2 : [e].get a = e := by
          have := a.2
          simp
        simp only [obsCov, Matrix.add_apply, of_apply, Matrix.smul_apply, one_apply_eq, smul_eq_mul, mul_one, h2, hα]
      rw [h1]
      refine inv_eq_right_inv ?_
      ext a b
      have hab : a = b := by
        apply Fin.ext
        have := a.2
        have := b.2
        simp only [List.length_cons, List.length_nil] at *
        omega
      subst hab
      rw [one_apply_eq, mul_apply]
      simp [hαp.ne']
    unfold postCov
    rw [hinv]
    have : ((List.finRange sc.E).get a = (List.finRange sc.E).get b) ↔ a = b :=
      (List.nodup_finRange sc.E).get_inj_iff
    simp only [C, Matrix.add_apply, Matrix.sub_apply, Matrix.smul_apply, of_apply, one_apply, mul_apply,
      transpose_apply, vecMulVec_apply, smul_eq_mul, hq, ← this]
    simp only [List.length_cons, List.length_nil, Nat.reduceAdd, List.get_eq_getElem, Finset.univ_unique,
      Fin.default_eq_zero, Finset.sum_singleton]
    have h0 : ∀ p a b c d : ℝ, p - a * c * b + d = p - c * (a * b) + d := by
      intros
      ring
    exact h0 _ _ _ _ _
  · intro hU
    obtain ⟨u1, u2, -, u4, -, -⟩ := hU _ _ _ _ _ _ _ _ hp hp
    obtain ⟨a1, a2, -, a4, -, -⟩ := hS _ _ _ _ _ _ _ _ hp hp
    obtain ⟨b1, b2, -, b4, -, -⟩ := hI _ _ _ _ _ _ _ _ hp hp
    obtain ⟨d1, d2, d3⟩ := hdot _ _ _ _ hp
    rw [hC, a1, b1, hqc, d1, d2] at u1
    rw [hC, a2, b2, hqc, d1, d3] at u2
    rw [hC, a4, b4, hqc, d2, d3] at u4
    have key : ∀ x y : Fin sc.E → ℝ, (0 : ℝ) - α⁻¹ * (x ⬝ᵥ m.prior.mulVec x * (y ⬝ᵥ m.prior.mulVec y)) + m.noise * 0 = 0 →
        x = 0 ∨ y = 0 := by
      intro x y hxy
      by_contra hne
      push Not at hne
      have := mul_pos (inv_pos.2 hαp) (mul_pos (hpos x hne.1) (hpos y hne.2))
      linarith
    rcases key _ _ u1 with z | z <;> rcases key _ _ u2 with z' | z' <;> rcases key _ _ u4 with z'' | z'' <;> tauto
  · intro hz f1 g1 c1 h1 f2 g2 c2 h2 hp1 hp2
    obtain ⟨d1, d2, d3⟩ := hdot _ _ _ _ hp1
    obtain ⟨e1, e2, e3⟩ := hdot _ _ _ _ hp2
    obtain ⟨a1, a2, a3, a4, a5, a6⟩ := hS _ _ _ _ _ _ _ _ hp1 hp2
    obtain ⟨b1, b2, b3, b4, b5, b6⟩ := hI _ _ _ _ _ _ _ _ hp1 hp2
    simp only [hC, a1, a2, a3, a4, a5, a6, b1, b2, b3, b4, b5, b6, hqc, d1, d2, d3, e1, e2, e3]
    rcases hz with ⟨rfl, rfl⟩ | ⟨rfl, rfl⟩ | ⟨rfl, rfl⟩ <;> simp

/-- C160: so after training on one edge of a filled triangle the components are always correlated. -/
theorem C160_triangle_edge (hw : sc.WellFormed) (hnd : sc.edges.Nodup) (m : GpModel sc.E)
    (hk : m.kernel.FromComplex lib tol) (ht : machineEps ≤ tol) (hn : 0 ≤ m.noise) (e : Fin sc.E) (a b c : Int)
    (htri : [a, b, c] ∈ sc.triangles)
    (he : sc.edges[e] = (a, b) ∨ sc.edges[e] = (b, c) ∨ sc.edges[e] = (a, c)) :
    ∃ C : Matrix (Fin sc.E) (Fin sc.E) ℝ,
      (∀ y : ℝ, ∃ mean cov, m.predictive (edgeTensor [e]) [y] (edgeTensor (List.finRange sc.E)) =
        .ok ⟨(List.finRange sc.E).length, mean, cov⟩ ∧
        ∀ a b, cov a b = C (List.finRange sc.E)[a] (List.finRange sc.E)[b]) ∧
      ¬ UncorrelatedComponents lib' sc C := by
  obtain ⟨g, cu, h, hp⟩ := HodgeParts.exists lib' sc (Pi.single e 1)
  obtain ⟨C, h1, h2⟩ := C160_one_edge hw m hk ht hn e g cu h hp
  refine ⟨C, h1, ?_⟩
  rw [h2]
  obtain ⟨⟨-, hg⟩, ⟨-, hc⟩, -⟩ := C20_component_behaviour hw _ _ _ _ hp
  have hg0 : g ≠ 0 := by
    rintro rfl
    have h3 : sc.B1.mulVec 0 = sc.B1.mulVec (Pi.single e 1) := hg
    rw [mulVec_zero, mulVec_single_one] at h3
    have hm : sc.edges[e] ∈ sc.edges := List.getElem_mem _
    have hr := hw.inRange _ hm
    have hl := hw.noLoops _ hm
    obtain ⟨i, hi⟩ : ∃ i : Fin sc.N, ((i : ℕ) : Int) = sc.edges[e].2 :=
      ⟨⟨sc.edges[e].2.toNat, by have := hr.2; show sc.edges[e].2.toNat < sc.nodes.length; omega⟩, Int.toNat_of_nonneg hr.2.1⟩
    have h4 := congrFun h3 i
    have h5 := hw.built.b1_entry hw.inRange hw.noLoops i e
    rw [if_pos hi, if_neg (by rw [hi]; exact fun h => hl h.symm)] at h5
    rw [col_apply, h5] at h4
    norm_num at h4
  have hc0 : cu ≠ 0 := by
    rintro rfl
    have h3 : sc.B2.transpose.mulVec 0 = sc.B2.transpose.mulVec (Pi.single e 1) := hc
    rw [mulVec_zero, mulVec_single_one] at h3
    obtain ⟨t, hlt, ht'⟩ := List.getElem_of_mem htri
    obtain ⟨a', b', c', ia, ib, ic, h0, i1, i2, i3, hB⟩ := hw.built.tri_entry ⟨t, hlt⟩
    have h0' : [a, b, c] = [a', b', c'] := ht'.symm.trans h0
    simp only [List.cons.injEq, and_true] at h0'
    obtain ⟨rfl, rfl, rfl⟩ := h0'
    obtain ⟨x, y, z, hx, o1, o2, o3⟩ := hw.oriented _ htri
    simp only [List.cons.injEq, and_true] at hx
    obtain ⟨rfl, rfl, rfl⟩ := hx
    have idx : ∀ {u v : Int} {k : Fin sc.E}, (u, v) ∈ sc.edges → listIndexOr sc.edges (u, v) (v, u) = .ok k →
        sc.edges[e] = (u, v) → e = k := by
      intro u v k hm hk he
      rcases listIndexOr_get hk with g | ⟨hn, -⟩
      · exact Fin.ext ((hnd.getElem_inj_iff (hi := e.2) (hj := k.2)).mp (he.trans g.symm))
      · exact absurd hm hn
    have h4 := congrFun h3 ⟨t, hlt⟩
    rw [col_apply, transpose_apply] at h4
    have h5 := hB e
    have : sc.B2 e ⟨t, hlt⟩ ≠ 0 := by
      rw [h5]
      rcases he with he | he | he
      · have := idx o1 i1 he
        split_ifs <;> first | norm_num | (exfalso; exact absurd this (by assumption))
      · have := idx o2 i2 he
        split_ifs <;> first | norm_num | (exfalso; exact absurd this (by assumption))
      · have := idx o3 i3 he
        split_ifs <;> first | norm_num | (exfalso; exact absurd this (by assumption))
    exact this h4.symm
  tauto

/-! ## The hypotheses can be met -/

/-- a model of the sample complex and the first edge of its filled triangle -/
example : ∃ (lib : NumLib) (m : GpModel twoTri.E) (e : Fin twoTri.E), m.kernel.FromComplex lib (1 / 1000) ∧
    0 ≤ m.noise ∧ twoTri.edges.Nodup ∧ [0, 1, 2] ∈ twoTri.triangles ∧ twoTri.edges[e] = (0, 1) := by
  obtain ⟨lib⟩ := NumLib.exists
  obtain ⟨k, -, hk⟩ := GpKernel.FromComplex.exists lib twoTri (by decide) (1 / 1000) .matern
  exact ⟨lib, ⟨k, 0, none, 1⟩, ⟨0, by decide⟩, hk, zero_le_one, by decide, by decide, by decide⟩

/-- two Matern kernels of the sample complex with the same `_down` parameters and other values of `h` and `mu`: they
differ, but not on gradient flows -/
example : ∃ (lib : NumLib) (k k' : GpKernel twoTri.E) (K K' : Matrix (Fin twoTri.E) (Fin twoTri.E) ℝ),
    k.FromComplex lib (1 / 1000) ∧ k'.FromComplex lib (1 / 1000) ∧ k.HasCov K ∧ k'.HasCov K' ∧
    k.get "h" ≠ k'.get "h" ∧
    ∀ x, K.mulVec (twoTri.B1.transpose.mulVec x) = K'.mulVec (twoTri.B1.transpose.mulVec x) := by
  obtain ⟨lib⟩ := NumLib.exists
  obtain ⟨k, ht, hk⟩ := GpKernel.FromComplex.exists lib twoTri (by decide) (1 / 1000) .matern
  let k' : GpKernel twoTri.E := { k with raw := Function.update k.raw "h" (k.raw "h" + 1) }
  have hk' : k'.FromComplex lib (1 / 1000) := hk
  have he : machineEps ≤ 1 / 1000 := by norm_num [machineEps]
  obtain ⟨K, hK, -⟩ := C73_spectral_action twoTri_wellFormed k hk he (fun n => softplus (k.raw n))
    fun n hn => by rw [GpKernel.get, if_pos hn]
  obtain ⟨K', hK', -⟩ := C73_spectral_action twoTri_wellFormed k' hk' he (fun n => softplus (k'.raw n))
    fun n hn => by rw [GpKernel.get, if_pos hn]
  refine ⟨lib, k, k', K, K', hk, hk', hK, hK', ?_, ?_⟩
  · have h1 : "h" ∈ k.type.params := by rw [ht]; decide
    have h2 : "h" ∈ k'.type.params := h1
    rw [GpKernel.get, GpKernel.get, if_pos h1, if_pos h2]
    intro h
    have h3 := Except.ok.inj h
    have h4 : k'.raw "h" = k.raw "h" + 1 := by simp [k']
    rw [h4] at h3
    unfold softplus at h3
    have h5 := Real.log_lt_log (by positivity) (add_lt_add_right (Real.exp_lt_exp.2 (lt_add_one (k.raw "h"))) 1)
    linarith
  · refine (C160_parameters twoTri_wellFormed k k' hk hk' he rfl K K' hK hK').1 (fun n hn => ?_)
      (lower_gap twoTri_wellFormed twoTri_gap).1
    have hne : n ≠ "h" := by
      rintro rfl
      exact absurd hn (by decide)
    have : k'.raw n = k.raw n := by simp [k', hne]
    unfold GpKernel.get
    rw [this]

/-- a model of the sample complex that is trained on all edges, the last one first -/
example : ∃ (lib : NumLib) (m : GpModel twoTri.E), m.kernel.FromComplex lib (1 / 1000) ∧ 0 < m.noise ∧
    List.Perm [(5 : Fin 6), 0, 1, 2, 3, 4] (List.finRange twoTri.E) := by
  obtain ⟨lib⟩ := NumLib.exists
  obtain ⟨k, -, hk⟩ := GpKernel.FromComplex.exists lib twoTri (by decide) (1 / 1000) .matern
  exact ⟨lib, ⟨k, 0, none, 1⟩, hk, one_pos, show List.Perm [(5 : Fin 6), 0, 1, 2, 3, 4] (List.finRange 6) by decide⟩

end Pytspl
