import Verif.Props.FilterRcond
import Verif.Props.EdgeLaplacian

/-!
# C164: long least-squares filters lose what they should extract
-/

namespace Pytspl

open Matrix Polynomial

variable {lib : NumLib} {sc : SC ℝ} {m n E L l : ℕ}

/-- A solution with cut-off is small: its norm times the cut-off times the largest singular value is at most the norm of
the targets. -/
theorem LstsqRcond.norm_bound {A : Matrix (Fin m) (Fin n) ℝ} {b : Fin m → ℝ} {rcond : ℝ} {x : Fin n → ℝ}
    (h : LstsqRcond A b rcond x) (hr : 0 ≤ rcond) {z : Fin n → ℝ} (hz : norm2 z = 1) :
    rcond * norm2 (A.mulVec z) * norm2 x ≤ norm2 b := by
  obtain ⟨V, s, hs0, hV, hE, keep, hkeep, rfl⟩ := h
  have hI : IsEig (A.transpose * A) V fun i => s i ^ 2 := ⟨hV, hE⟩
  have span : ∀ (S : Finset (Fin n)) (c : Fin n → ℝ),
      A.mulVec (∑ i ∈ S, c i • fun k => V k i) ⬝ᵥ A.mulVec (∑ i ∈ S, c i • fun k => V k i) =
        ∑ i ∈ S, s i ^ 2 * c i ^ 2 := by
    intro S c
    rw [dot_mulVec_transpose, mulVec_mulVec, mulVec_sum, sum_dotProduct]
    refine Finset.sum_congr rfl fun i hi => ?_
    rw [mulVec_smul, hI.col_eig i, smul_smul, smul_dotProduct, dotProduct_sum, Finset.sum_eq_single i]
    · rw [dotProduct_smul, hI.col_dot, if_pos rfl]
      simp only [smul_eq_mul]
      ring
    · intro j _ hj
      rw [dotProduct_smul, hI.col_dot, if_neg (Ne.symm hj), smul_zero]
    · exact fun h => absurd hi h
  have self : ∀ (S : Finset (Fin n)) (c : Fin n → ℝ),
      (∑ i ∈ S, c i • fun k => V k i) ⬝ᵥ (∑ i ∈ S, c i • fun k => V k i) = ∑ i ∈ S, c i ^ 2 := by
    intro S c
    rw [sum_dotProduct]
    refine Finset.sum_congr rfl fun i hi => ?_
    rw [smul_dotProduct, dotProduct_sum, Finset.sum_eq_single i]
    · rw [dotProduct_smul, hI.col_dot, if_pos rfl]
      simp only [smul_eq_mul]
      ring
    · intro j _ hj
      rw [dotProduct_smul, hI.col_dot, if_neg (Ne.symm hj), smul_zero]
    · exact fun h => absurd hi h
  have hkept : ∀ i, i ∈ keep → s i ^ 2 ≠ 0 := by
    intro i hi h0
    have := (hkeep i).mp hi i
    rw [pow_eq_zero_iff two_ne_zero] at h0
    rw [h0, mul_zero] at this
    exact lt_irrefl _ this
  set a : Fin n → ℝ := fun i => ((fun k => V k i) ⬝ᵥ A.transpose.mulVec b) / s i ^ 2 with ha
  set x := ∑ i ∈ keep, a i • fun k => V k i with hx
  -- `A x` is no longer than `b`
  have h1 : A.mulVec x ⬝ᵥ b = A.mulVec x ⬝ᵥ A.mulVec x := by
    rw [span, hx, dotProduct_comm, dot_mulVec_transpose, dotProduct_comm, sum_dotProduct]
    refine Finset.sum_congr rfl fun i hi => ?_
    rw [smul_dotProduct, smul_eq_mul]
    have e1 : ((fun k => V k i) ⬝ᵥ A.transpose.mulVec b) = a i * s i ^ 2 := by
      rw [ha, div_mul_cancel₀ _ (hkept i hi)]
    rw [e1]
    ring
  have h2 : norm2 (A.mulVec x) ≤ norm2 b := by
    by_cases h0 : norm2 (A.mulVec x) = 0
    · rw [h0]; exact norm2_nonneg b
    · have hpos : 0 < norm2 (A.mulVec x) := lt_of_le_of_ne (norm2_nonneg _) (Ne.symm h0)
      have h3 := dot_le_norm2 (A.mulVec x) b
      rw [h1, ← norm2_sq, sq] at h3
      exact le_of_mul_le_mul_left h3 hpos
  -- some singular value is at least `|A z|`
  obtain ⟨j, hj⟩ : ∃ j, norm2 (A.mulVec z) ≤ s j := by
    by_contra hne
    push Not at hne
    have e : z = ∑ i, (V.transpose.mulVec z i) • fun k => V k i := hI.expand z
    have e1 := span Finset.univ (V.transpose.mulVec z)
    have e2 := self Finset.univ (V.transpose.mulVec z)
    rw [← e] at e1 e2
    rw [← norm2_sq] at e1 e2
    rw [hz] at e2
    have e3 : ∑ i, (norm2 (A.mulVec z) ^ 2 - s i ^ 2) * (V.transpose.mulVec z i) ^ 2 = 0 := by
      simp only [sub_mul, Finset.sum_sub_distrib]
      rw [← e1, ← Finset.mul_sum, ← e2]
      ring
    have hp : ∀ i, 0 < norm2 (A.mulVec z) ^ 2 - s i ^ 2 := fun i => by
      have := pow_lt_pow_left₀ (hne i) (hs0 i) two_ne_zero
      linarith
    have e4 := (Finset.sum_eq_zero_iff_of_nonneg (fun i _ => mul_nonneg (hp i).le (sq_nonneg _))).1 e3
    have e5 : ∑ i, (V.transpose.mulVec z i) ^ 2 = 0 := by
      refine Finset.sum_eq_zero fun i hi => ?_
      exact (mul_eq_zero.1 (e4 i hi)).resolve_left (hp i).ne'
    rw [e5] at e2
    norm_num at e2
  refine le_trans ?_ h2
  refine le_trans (mul_le_mul_of_nonneg_right (mul_le_mul_of_nonneg_left hj hr) (norm2_nonneg x)) ?_
  refine Real.le_sqrt_of_sq_le ?_
  rw [span, mul_pow, norm2_sq, self, Finset.mul_sum]
  refine Finset.sum_le_sum fun i hi => ?_
  refine mul_le_mul_of_nonneg_right ?_ (sq_nonneg _)
  exact pow_le_pow_left₀ (mul_nonneg hr (hs0 j)) ((hkeep i).1 hi j).le 2

/-! ## The gain of a long filter -/

/-- C164, every polynomial design: whatever response was asked for, the gain of the filter of size `L` at an eigenvalue
`lam` is at most `sqrt (sum_{j<L} lam^(2j)) |alpha| / (eps max(m, L) Lam^(L-1))`, for every frequency `Lam` in the design.  So
the gains at all eigenvalues well below the largest frequency go to zero as the size grows. -/
theorem C164_gain {P H : Matrix (Fin E) (Fin E) ℝ} {f fEst : Fin E → ℝ} {ev al : Fin m → ℝ} (hL : 0 < L)
    (h : FilterPassRcond P f ev al L (L - 1) H fEst) {lam : ℝ} {v : Fin E → ℝ} (hv : P.mulVec v = lam • v) :
    ∃ r : ℝ, H.mulVec v = r • v ∧ ∀ i, machineEps * (max m L : ℕ) * |ev i| ^ (L - 1) * |r| ≤
      Real.sqrt (∑ j ∈ Finset.range L, (lam ^ j) ^ 2) * norm2 al := by
  obtain ⟨h, hh, rfl, -⟩ := h
  refine ⟨(coefPoly h).eval lam, by rw [buildFilter_eq]; exact aeval_eig P (coefPoly h) hv, fun i => ?_⟩
  have hr : 0 ≤ defaultRcond m L := by
    unfold defaultRcond machineEps
    positivity
  let j : Fin L := ⟨L - 1, by omega⟩
  have hz : norm2 (Pi.single j (1 : ℝ) : Fin L → ℝ) = 1 := by
    rw [norm2, single_dotProduct, Pi.single_eq_same]
    simp
  have h1 := hh.norm_bound hr hz
  have h2 : |ev i| ^ (L - 1) ≤ norm2 ((Matrix.of fun i (j : Fin L) => if (j : ℕ) ≤ L - 1 then ev i ^ (j : ℕ) else 0).mulVec
      (Pi.single j (1 : ℝ) : Fin L → ℝ)) := by
    rw [← abs_pow]
    refine Real.abs_le_sqrt ?_
    refine le_trans (le_of_eq ?_) (Finset.single_le_sum (fun i _ => mul_self_nonneg _) (Finset.mem_univ i))
    rw [mulVec_single_one]
    simp [j, sq]
  have h3 : |(coefPoly h).eval lam| ≤ Real.sqrt (∑ j ∈ Finset.range L, (lam ^ j) ^ 2) * norm2 h := by
    have e : (coefPoly h).eval lam = (fun j : Fin L => lam ^ (j : ℕ)) ⬝ᵥ h := by
      rw [coefPoly, eval_finsetSum, dotProduct]
      exact Finset.sum_congr rfl fun i _ => by rw [eval_mul, eval_C, eval_pow, eval_X, mul_comm]
    have e2 : norm2 (fun j : Fin L => lam ^ (j : ℕ)) = Real.sqrt (∑ j ∈ Finset.range L, (lam ^ j) ^ 2) := by
      rw [norm2, dotProduct, Finset.sum_range fun j => (lam ^ j) ^ 2]
      congr 1
      exact Finset.sum_congr rfl fun i _ => (sq _).symm
    rw [e, ← e2, abs_le]
    constructor
    · have := dot_le_norm2 (fun j : Fin L => lam ^ (j : ℕ)) (-h)
      rw [dotProduct_neg] at this
      have e3 : norm2 (-h) = norm2 h := by rw [norm2, neg_dotProduct_neg, norm2]
      rw [e3] at this
      linarith
    · exact dot_le_norm2 _ _
  have hd : machineEps * ((max m L : ℕ) : ℝ) = defaultRcond m L := rfl
  rw [hd]
  calc defaultRcond m L * |ev i| ^ (L - 1) * |(coefPoly h).eval lam|
      ≤ defaultRcond m L * |ev i| ^ (L - 1) * (Real.sqrt (∑ j ∈ Finset.range L, (lam ^ j) ^ 2) * norm2 h) :=
        mul_le_mul_of_nonneg_left h3 (mul_nonneg hr (by positivity))
    _ = Real.sqrt (∑ j ∈ Finset.range L, (lam ^ j) ^ 2) * (defaultRcond m L * |ev i| ^ (L - 1) * norm2 h) := by ring
    _ ≤ _ := by
        refine mul_le_mul_of_nonneg_left (le_trans ?_ h1) (Real.sqrt_nonneg _)
        exact mul_le_mul_of_nonneg_right (mul_le_mul_of_nonneg_left h2 hr) (norm2_nonneg h)

private theorem edges_pos {w : Fin sc.E → ℝ} {U : Matrix (Fin sc.E) (Fin sc.E) ℝ}
    (hU : getEigendecomposition lib (.ndarray sc.L1) = .ok (U, w)) : 0 < sc.E := by
  by_contra h0
  have h0' : sc.E = 0 := by omega
  simp only [getEigendecomposition, h0', if_true] at hU
  cases hU

private theorem vals_eq {w : Fin sc.E → ℝ} {U : Matrix (Fin sc.E) (Fin sc.E) ℝ} (hgap : NoSmallEigenvalue sc.L1 (1 / 1000))
    (hU : getEigendecomposition lib (.ndarray sc.L1) = .ok (U, w)) : w = (lib.eigh sc.E sc.L1).1 := by
  rw [getEigendecomposition_dense lib (edges_pos hU), snap_eq lib (symmPSD_L1 sc) machineEps_le hgap] at hU
  exact (congrArg Prod.snd (Except.ok.inj hU)).symm

/-- the largest Hodge eigenvalue is at least 2 as soon as there is an edge -/
theorem hodge_two_le (hw : sc.WellFormed) {U : Matrix (Fin sc.E) (Fin sc.E) ℝ} {w : Fin sc.E → ℝ} (h : IsEig sc.L1 U w)
    (hE : 0 < sc.E) : ∃ i, 2 ≤ w i := by
  by_contra hne
  push Not at hne
  let e : Fin sc.E := ⟨0, hE⟩
  have hl : sc.L1l e e = 2 := by
    have h1 := (C119_lower sc hw.built hw.inRange hw.noLoops).2 e e
    have h2 : sc.edges[(e : ℕ)].1 ≠ sc.edges[(e : ℕ)].2 := hw.noLoops _ (List.getElem_mem _)
    rw [h1]
    simp only [endSign, Fin.getElem_fin]
    simp [h2, Ne.symm h2]
  have hu : 0 ≤ sc.L1u e e := by
    show 0 ≤ ∑ t, sc.B2 e t * sc.B2.transpose t e
    exact Finset.sum_nonneg fun t _ => mul_self_nonneg _
  have hd : 2 ≤ sc.L1 e e := by
    have : sc.L1 e e = sc.L1l e e + sc.L1u e e := rfl
    linarith
  have h1 : sc.L1 e e = ∑ i, w i * U e i ^ 2 := by
    conv_lhs => rw [h.recon]
    rw [Matrix.mul_apply]
    refine Finset.sum_congr rfl fun i _ => ?_
    rw [mul_diagonal, transpose_apply]
    ring
  have h2 : ∑ i, U e i ^ 2 = 1 := by
    have := congrFun (congrFun h.orth' e) e
    rw [Matrix.mul_apply, one_apply_eq] at this
    rw [← this]
    exact Finset.sum_congr rfl fun i _ => by rw [transpose_apply, sq]
  have h3 : ∑ i, (2 - w i) * U e i ^ 2 ≤ 0 := by
    simp only [sub_mul, Finset.sum_sub_distrib]
    rw [← Finset.mul_sum, h2, ← h1]
    linarith
  have h4 := (Finset.sum_eq_zero_iff_of_nonneg (fun i _ => mul_nonneg (by linarith [hne i]) (sq_nonneg _))).1
    (le_antisymm h3 (Finset.sum_nonneg fun i _ => mul_nonneg (by linarith [hne i]) (sq_nonneg (U e i))))
  have h5 : ∑ i, U e i ^ 2 = 0 :=
    Finset.sum_eq_zero fun i hi => (mul_eq_zero.1 (h4 i hi)).resolve_left (by linarith [hne i])
  rw [h5] at h2
  norm_num at h2

/-- C164, harmonic: the estimate which the harmonic filter of size `L` makes of a flow without divergence and curl - which
it should return unchanged - is at most `2^52 / (sqrt E Lam^(L-1))` times the flow, for every Hodge eigenvalue `Lam`. -/
theorem C164_harmonic_lost (hw : sc.WellFormed) (hgap : NoSmallEigenvalue sc.L1 (1 / 1000)) {f fEst : Fin sc.E → ℝ}
    {H : Matrix (Fin sc.E) (Fin sc.E) ℝ} (hdiv : sc.getDivergence f = 0) (hcurl : sc.getCurl f = 0) (hL : 0 < L)
    (h : LSFilter.TypeOneRcond lib sc f "harmonic" L H fEst) {lam : ℝ} (hlam : IsEigenvalue sc.L1 lam) :
    Real.sqrt sc.E * lam ^ (L - 1) * norm2 fEst ≤ 2 ^ 52 * norm2 f := by
  obtain ⟨U, w, al, hU, hal, hlen, hp⟩ := h
  have hps := symmPSD_L1 sc
  have hI := lib.isEig hps
  obtain ⟨mh, mc, mg, m1, -, -, l1, -, -, hm, -⟩ := C49_masks hw hgap U w hU
  obtain rfl : mh = al := by rw [m1] at hal; exact Except.ok.inj hal
  obtain ⟨v, hv, hv0⟩ := hlam
  obtain ⟨i, hi⟩ := hI.mem_of_eigen hv hv0
  rw [← vals_eq hgap hU] at hi
  have hf : sc.L1.mulVec f = (0 : ℝ) • f := by
    have h1 : sc.L1.mulVec f = sc.B1.transpose.mulVec (sc.getDivergence f) + sc.B2.mulVec (sc.getCurl f) := by
      show (sc.B1.transpose * sc.B1 + sc.B2 * sc.B2.transpose).mulVec f = _
      rw [add_mulVec, ← mulVec_mulVec, ← mulVec_mulVec]
      rfl
    rw [h1, hdiv, hcurl, mulVec_zero, mulVec_zero, add_zero, zero_smul]
  obtain ⟨r, hr, hb⟩ := C164_gain hL hp hf
  have hest : fEst = H.mulVec f := by
    obtain ⟨h, -, rfl, rfl⟩ := hp
    rfl
  have hb := hb i
  have hn : 0 ≤ w i := by
    rw [vals_eq hgap hU]
    exact hI.nonneg hps i
  rw [hi] at hb hn
  have h1 : ∑ j ∈ Finset.range L, ((0 : ℝ) ^ j) ^ 2 = 1 := by
    rw [Finset.sum_eq_single_of_mem 0 (Finset.mem_range.2 hL)]
    · norm_num
    · intro j _ hj
      rw [zero_pow hj]; norm_num
  rw [h1, Real.sqrt_one, one_mul, abs_of_nonneg hn] at hb
  have h2 : norm2 (fun i : Fin sc.E => mh[(i : ℕ)]?.getD 0) ≤ Real.sqrt sc.E := by
    refine Real.sqrt_le_sqrt ?_
    rw [dotProduct]
    calc ∑ i : Fin sc.E, (mh[(i : ℕ)]?.getD 0) * (mh[(i : ℕ)]?.getD 0) ≤ ∑ i : Fin sc.E, (1 : ℝ) := by
          refine Finset.sum_le_sum fun i _ => ?_
          rcases hm i with ⟨h1, -⟩ | ⟨h1, -⟩ | ⟨h1, -⟩ <;> rw [h1] <;> norm_num
      _ = sc.E := by simp
  have hEpos : (0 : ℝ) < Real.sqrt sc.E := Real.sqrt_pos.2 (by exact_mod_cast edges_pos hU)
  have hEs : Real.sqrt sc.E * Real.sqrt sc.E = sc.E := Real.mul_self_sqrt (by positivity)
  have h3 : (sc.E : ℝ) ≤ ((max sc.E L : ℕ) : ℝ) := by exact_mod_cast le_max_left _ _
  have h4 : Real.sqrt sc.E * lam ^ (L - 1) * |r| ≤ 2 ^ 52 := by
    have h5 : machineEps * (Real.sqrt sc.E * Real.sqrt sc.E) * lam ^ (L - 1) * |r| ≤ Real.sqrt sc.E := by
      rw [hEs]
      refine le_trans ?_ (hb.trans h2)
      have : (0 : ℝ) ≤ lam ^ (L - 1) := pow_nonneg hn _
      have he : (0 : ℝ) ≤ machineEps := by unfold machineEps; positivity
      exact mul_le_mul_of_nonneg_right (mul_le_mul_of_nonneg_right (mul_le_mul_of_nonneg_left h3 he) this) (abs_nonneg r)
    have h6 : Real.sqrt sc.E * (machineEps * (Real.sqrt sc.E * lam ^ (L - 1) * |r|)) ≤ Real.sqrt sc.E * 1 := by
      rw [mul_one]; refine le_trans (le_of_eq ?_) h5; ring
    have h7 := le_of_mul_le_mul_left h6 hEpos
    unfold machineEps at h7
    linarith
  rw [hest, hr, norm2_smul]
  calc Real.sqrt sc.E * lam ^ (L - 1) * (|r| * norm2 f) = (Real.sqrt sc.E * lam ^ (L - 1) * |r|) * norm2 f := by ring
    _ ≤ _ := mul_le_mul_of_nonneg_right h4 (norm2_nonneg f)

/-- C164 is false on every complex: from size 64 on the harmonic filter keeps less than a thousandth of a harmonic flow. -/
theorem C164_counterexample (hw : sc.WellFormed) (hgap : NoSmallEigenvalue sc.L1 (1 / 1000)) {f fEst : Fin sc.E → ℝ}
    {H : Matrix (Fin sc.E) (Fin sc.E) ℝ} (hdiv : sc.getDivergence f = 0) (hcurl : sc.getCurl f = 0) (hL : 64 ≤ L)
    (h : LSFilter.TypeOneRcond lib sc f "harmonic" L H fEst) : norm2 fEst ≤ 1 / 1000 * norm2 f := by
  have hE : 0 < sc.E := by
    obtain ⟨U, w, al, hU, -⟩ := h
    exact edges_pos hU
  have hI := lib.isEig (symmPSD_L1 sc)
  obtain ⟨i, hi⟩ := hodge_two_le hw hI hE
  have h1 := C164_harmonic_lost hw hgap hdiv hcurl (by omega) h ⟨_, hI.col_ne_zero i, hI.col_eig i⟩
  have h2 : (2 : ℝ) ^ 63 ≤ (lib.eigh sc.E sc.L1).1 i ^ (L - 1) :=
    (pow_le_pow_right₀ (by norm_num) (by omega : 63 ≤ L - 1)).trans (pow_le_pow_left₀ (by norm_num) hi _)
  have h3 : (1 : ℝ) ≤ Real.sqrt sc.E := by
    rw [Real.one_le_sqrt]
    exact_mod_cast hE
  have h4 : (2 : ℝ) ^ 63 * norm2 fEst ≤ 2 ^ 52 * norm2 f := by
    refine le_trans (mul_le_mul_of_nonneg_right ?_ (norm2_nonneg fEst)) h1
    calc (2 : ℝ) ^ 63 = 1 * 2 ^ 63 := (one_mul _).symm
      _ ≤ _ := mul_le_mul h3 h2 (by positivity) (by positivity)
  have h5 := norm2_nonneg f
  linarith

/-- C164, partial: at the sizes where the powers of the eigenvalues are moderate the cut-off does no harm.  The harmonic
estimate is off by at most the machine precision times the size of the fitted system and the size of the coefficients of
any ideal filter of that size. -/
theorem C164_moderate_partial (hw : sc.WellFormed) (hgap : NoSmallEigenvalue sc.L1 (1 / 1000)) {f fEst hf : Fin sc.E → ℝ}
    {H : Matrix (Fin sc.E) (Fin sc.E) ℝ} (hh : sc.getComponentFlow lib f "harmonic" false = .ok hf) (hL : 0 < L)
    (h : LSFilter.TypeOneRcond lib sc f "harmonic" L H fEst) (q : ℝ[X]) (hq : q.natDegree < L) (hq0 : q.eval 0 = 1)
    (hq1 : ∀ lam, IsEigenvalue sc.L1 lam → lam ≠ 0 → q.eval lam = 0) {Lam : ℝ} (hLam : 1 ≤ Lam)
    (hmax : ∀ lam, IsEigenvalue sc.L1 lam → lam ≤ Lam) :
    norm2 (fEst - hf) ≤ machineEps * (max sc.E L : ℕ) * (Real.sqrt (sc.E * L) * Lam ^ (L - 1)) *
      Real.sqrt (∑ j ∈ Finset.range L, q.coeff j ^ 2) * norm2 f := by
  obtain ⟨U, w, al, hU, hal, hlen, hp⟩ := h
  have hps := symmPSD_L1 sc
  have hI := lib.isEig hps
  obtain ⟨mh, mc, mg, m1, -, -, l1, -, -, hm, -⟩ := C49_masks hw hgap U w hU
  obtain rfl : mh = al := by rw [m1] at hal; exact Except.ok.inj hal
  obtain rfl := vals_eq hgap hU
  have hal : ∀ i : Fin sc.E, mh[(i : ℕ)]?.getD 0 = q.eval ((lib.eigh sc.E sc.L1).1 i) := by
    intro i
    have he : IsEigenvalue sc.L1 ((lib.eigh sc.E sc.L1).1 i) := ⟨_, hI.col_ne_zero i, hI.col_eig i⟩
    rcases hm i with ⟨h1, -, -, h2⟩ | ⟨h1, -, -, h2, -⟩ | ⟨h1, -, -, h2, -⟩
    · rw [h1, h2, hq0]; rfl
    · rw [h1, hq1 _ he h2.ne']; rfl
    · rw [h1, hq1 _ he h2.ne']; rfl
  obtain ⟨p, -, rfl, rfl, hfit⟩ := C139_fit (by omega) hp
  have hb := hfit q (by omega)
  simp only [hal, sub_self] at hb
  rw [show L - 1 + 1 = L by omega] at hb
  have hz : Real.sqrt (∑ _i : Fin sc.E, (0 : ℝ) ^ 2) = 0 := by simp
  rw [hz, zero_add] at hb
  have hqf : (aeval sc.L1 q).mulVec f = hf := by
    refine harmonic_of_eig hw hI ?_ hh
    rw [hI.aeval_mul]
    congr 2
    funext i
    by_cases h0 : (lib.eigh sc.E sc.L1).1 i = 0
    · rw [if_pos h0, h0, hq0]
    · rw [if_neg h0, hq1 _ ⟨_, hI.col_ne_zero i, hI.col_eig i⟩ h0]
  have hd : (aeval sc.L1 p).mulVec f - hf = (aeval sc.L1 (p - q)).mulVec f := by
    rw [← hqf, map_sub, sub_mulVec]
  rw [hd]
  refine hI.norm2_le (hI.aeval_mul (p - q)) (fun i => ?_) f
  rw [eval_sub]
  have h1 : |p.eval ((lib.eigh sc.E sc.L1).1 i) - q.eval ((lib.eigh sc.E sc.L1).1 i)| ≤
      Real.sqrt (∑ i, (p.eval ((lib.eigh sc.E sc.L1).1 i) - q.eval ((lib.eigh sc.E sc.L1).1 i)) ^ 2) := by
    refine Real.le_sqrt_of_sq_le ?_
    rw [sq_abs]
    exact Finset.single_le_sum (f := fun i => (p.eval ((lib.eigh sc.E sc.L1).1 i) -
      q.eval ((lib.eigh sc.E sc.L1).1 i)) ^ 2) (fun i _ => sq_nonneg _) (Finset.mem_univ i)
  refine h1.trans (hb.trans ?_)
  have he : (0 : ℝ) ≤ machineEps := by unfold machineEps; positivity
  refine mul_le_mul_of_nonneg_right (mul_le_mul_of_nonneg_left ?_ (mul_nonneg he (Nat.cast_nonneg _)))
    (Real.sqrt_nonneg _)
  refine Real.sqrt_le_iff.2 ⟨by positivity, ?_⟩
  rw [mul_pow, Real.sq_sqrt (by positivity)]
  calc ∑ i, ∑ j ∈ Finset.range L, ((lib.eigh sc.E sc.L1).1 i ^ j) ^ 2
      ≤ ∑ i : Fin sc.E, ∑ j ∈ Finset.range L, (Lam ^ (L - 1)) ^ 2 := by
        refine Finset.sum_le_sum fun i _ => Finset.sum_le_sum fun j hj => ?_
        have h0 := hI.nonneg hps i
        refine pow_le_pow_left₀ (pow_nonneg h0 j) ?_ 2
        refine (pow_le_pow_left₀ h0 (hmax _ ⟨_, hI.col_ne_zero i, hI.col_eig i⟩) j).trans ?_
        have := Finset.mem_range.1 hj
        exact pow_le_pow_right₀ hLam (by omega)
    _ = sc.E * L * (Lam ^ (L - 1)) ^ 2 := by
        simp
        ring

theorem LSFilter.TypeOneRcond.exists (hw : sc.WellFormed) (hE : 0 < sc.E) (hgap : NoSmallEigenvalue sc.L1 (1 / 1000))
    (f : Fin sc.E → ℝ) (L : ℕ) : ∃ H fEst, LSFilter.TypeOneRcond lib sc f "harmonic" L H fEst := by
  have hU := getEigendecomposition_dense lib hE sc.L1 machineEps
  obtain ⟨mh, mc, mg, m1, -, -, l1, -⟩ := C49_masks hw hgap _ _ hU
  obtain ⟨H, fEst, hp⟩ := FilterPassRcond.exists sc.L1 f
    (fun i => if |(lib.eigh sc.E sc.L1).1 i| < machineEps then 0 else (lib.eigh sc.E sc.L1).1 i)
    (fun i => mh[(i : ℕ)]?.getD 0) L (L - 1)
  exact ⟨H, fEst, _, _, mh, hU, m1, l1, hp⟩

private theorem harmonic_self (lib : NumLib) {f : Fin sc.E → ℝ} (hdiv : sc.getDivergence f = 0) (hcurl : sc.getCurl f = 0) :
    sc.getComponentFlow lib f "harmonic" false = .ok f := by
  have h1 : IsProj sc.B1.transpose f 0 := ⟨⟨0, mulVec_zero _⟩, by
    rw [transpose_transpose, mulVec_zero]; exact hdiv.symm⟩
  have h2 : IsProj sc.B2 f 0 := ⟨⟨0, mulVec_zero _⟩, by rw [mulVec_zero]; exact hcurl.symm⟩
  have h3 := (HodgeParts.of_proj lib h1 h2).harm
  rwa [sub_zero, sub_zero] at h3

private theorem sample_gap : NoSmallEigenvalue twoTri.L1 (1 / 1000) := by
  intro lam v hv h
  rcases twoTri_eigen hv h with h | h <;> rw [h] <;> norm_num

/-- the unit flow around the hollow triangle of the sample complex -/
private def around : Fin 6 → ℝ := ![0, 0, 0, 1, -1, 1]

private theorem around_div : twoTri.getDivergence around = 0 := by
  show (twoTriB1.map (Int.cast : ℤ → ℝ)).mulVec around = 0
  funext i
  fin_cases i <;> simp [twoTriB1, around, mulVec, dotProduct, Fin.sum_univ_succ]

private theorem around_curl : twoTri.getCurl around = 0 := by
  show (twoTriB2.map (Int.cast : ℤ → ℝ)).transpose.mulVec around = 0
  funext i
  fin_cases i
  simp [twoTriB2, around, mulVec, dotProduct, Fin.sum_univ_succ]

/-- On a filled triangle beside a hollow one, with the unit flow around the hollow triangle: the harmonic filter of size 2
returns the flow up to `100` machine precisions, and the filter of size 64 less than a thousandth of it. -/
example (lib : NumLib) : ∃ f h2 h64 : Fin twoTri.E → ℝ, ∃ H2 H64, f ≠ 0 ∧
    twoTri.getComponentFlow lib f "harmonic" false = .ok f ∧
    LSFilter.TypeOneRcond lib twoTri f "harmonic" 2 H2 h2 ∧ norm2 (h2 - f) ≤ 100 * machineEps * norm2 f ∧
    LSFilter.TypeOneRcond lib twoTri f "harmonic" 64 H64 h64 ∧ norm2 h64 ≤ 1 / 1000 * norm2 f := by
  have hE : 0 < twoTri.E := by decide
  obtain ⟨H2, h2, t2⟩ := LSFilter.TypeOneRcond.exists (lib := lib) twoTri_wellFormed hE sample_gap around 2
  obtain ⟨H64, h64, t64⟩ := LSFilter.TypeOneRcond.exists (lib := lib) twoTri_wellFormed hE sample_gap around 64
  have hharm : twoTri.getComponentFlow lib around "harmonic" false = .ok around :=
    harmonic_self lib around_div around_curl
  refine ⟨around, h2, h64, H2, H64, ?_, hharm, t2, ?_, t64,
    C164_counterexample twoTri_wellFormed sample_gap around_div around_curl le_rfl t64⟩
  · intro h
    have h3 : around 3 = 0 := congrFun h (3 : Fin 6)
    simp [around] at h3
  · refine (C164_moderate_partial twoTri_wellFormed sample_gap hharm (by norm_num) t2 (1 - C (1 / 3) * X) ?_ (by simp)
      (fun lam hl hne => ?_) (Lam := 3) (by norm_num) (fun lam hl => ?_)).trans ?_
    · refine lt_of_le_of_lt (natDegree_sub_le _ _) ?_
      rw [natDegree_one]
      refine max_lt (by norm_num) ((natDegree_C_mul_le _ _).trans_lt (by rw [natDegree_X]; norm_num))
    · obtain ⟨v, hv, hv0⟩ := hl
      rcases twoTri_eigen hv hv0 with h | h
      · exact absurd h hne
      · rw [h]; simp
    · obtain ⟨v, hv, hv0⟩ := hl
      rcases twoTri_eigen hv hv0 with h | h <;> rw [h] <;> norm_num
    · refine mul_le_mul_of_nonneg_right ?_ (norm2_nonneg _)
      have e : twoTri.E = 6 := rfl
      have h1 : Real.sqrt ((twoTri.E : ℝ) * (2 : ℕ)) ≤ 4 := by
        rw [e]
        exact Real.sqrt_le_iff.2 ⟨by norm_num, by norm_num⟩
      have h2 : Real.sqrt (∑ j ∈ Finset.range 2, (1 - C (1 / 3) * X : ℝ[X]).coeff j ^ 2) ≤ 10 / 9 := by
        refine Real.sqrt_le_iff.2 ⟨by norm_num, ?_⟩
        rw [Finset.sum_range_succ, Finset.sum_range_one]
        simp [coeff_one, coeff_X]
        norm_num
      have he : (0 : ℝ) ≤ machineEps := by unfold machineEps; positivity
      have h3 : max twoTri.E 2 = 6 := by decide
      rw [h3]
      calc machineEps * ((6 : ℕ) : ℝ) * (Real.sqrt ((twoTri.E : ℝ) * (2 : ℕ)) * 3 ^ (2 - 1)) *
            Real.sqrt (∑ j ∈ Finset.range 2, (1 - C (1 / 3) * X : ℝ[X]).coeff j ^ 2)
          ≤ machineEps * ((6 : ℕ) : ℝ) * (4 * 3 ^ (2 - 1)) * (10 / 9) := by gcongr
        _ = 80 * machineEps := by norm_num; ring
        _ ≤ 100 * machineEps := by linarith

end Pytspl
