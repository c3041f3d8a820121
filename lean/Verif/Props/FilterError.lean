import Verif.Props.Chebyshev
import Mathlib.Topology.Order.Compact
import Mathlib.Topology.MetricSpace.ProperSpace.Real
import Mathlib.Topology.Instances.Matrix
import Mathlib.Analysis.Normed.Group.Constructions

/-!
# Property C90: what the recorded filter error of the Chebyshev design measures
-/

namespace Pytspl

open Matrix

variable {lib : NumLib} {series : ChebSeries} {sc : SC ℝ} {E : ℕ}

private theorem continuous_dot : Continuous fun x : Fin E → ℝ => x ⬝ᵥ x := by
  unfold dotProduct
  exact continuous_finsetSum _ fun i _ => (continuous_apply i).mul (continuous_apply i)

private theorem specNorm_attained (hE : 0 < E) (M : Matrix (Fin E) (Fin E) ℝ) :
    (∃ x : Fin E → ℝ, norm2 x = 1 ∧ Cheb.specNorm M = norm2 (M.mulVec x)) ∧
    ∀ x : Fin E → ℝ, norm2 (M.mulVec x) ≤ Cheb.specNorm M * norm2 x := by
  have hK : IsCompact {x : Fin E → ℝ | x ⬝ᵥ x = 1} := by
    apply Metric.isCompact_of_isClosed_isBounded
    · exact isClosed_eq continuous_dot continuous_const
    · refine (Metric.isBounded_closedBall (x := (0 : Fin E → ℝ)) (r := 1)).subset fun x hx => ?_
      rw [mem_closedBall_zero_iff, pi_norm_le_iff_of_nonneg zero_le_one]
      intro i
      have h1 : x i * x i ≤ x ⬝ᵥ x :=
        Finset.single_le_sum (f := fun i => x i * x i) (fun i _ => mul_self_nonneg _) (Finset.mem_univ i)
      have hx' : x ⬝ᵥ x = 1 := hx
      rw [hx'] at h1
      rw [Real.norm_eq_abs]
      exact abs_le_one_iff_mul_self_le_one.mpr h1
  have hne : ({x : Fin E → ℝ | x ⬝ᵥ x = 1}).Nonempty := by
    refine ⟨Pi.single ⟨0, hE⟩ 1, ?_⟩
    simp
  have hc : Continuous fun x : Fin E → ℝ => norm2 (M.mulVec x) := by
    unfold norm2
    exact Real.continuous_sqrt.comp (continuous_dot.comp (Continuous.matrix_mulVec continuous_const continuous_id))
  obtain ⟨x0, hx0, hmax⟩ := hK.exists_isMaxOn hne hc.continuousOn
  have hgr : IsGreatest {y | ∃ x : Fin E → ℝ, x ⬝ᵥ x = 1 ∧ y = norm2 (M.mulVec x)} (norm2 (M.mulVec x0)) := by
    refine ⟨⟨x0, hx0, rfl⟩, ?_⟩
    rintro y ⟨x, hx, rfl⟩
    exact hmax hx
  have heq : Cheb.specNorm M = norm2 (M.mulVec x0) := hgr.csSup_eq
  refine ⟨⟨x0, ?_, heq⟩, fun x => ?_⟩
  · have : x0 ⬝ᵥ x0 = 1 := hx0
    rw [norm2, this, Real.sqrt_one]
  · by_cases h0 : x = 0
    · rw [h0, mulVec_zero, norm2_eq_zero.mpr rfl, mul_zero]
    · have hpos : 0 < norm2 x := lt_of_le_of_ne (norm2_nonneg x) fun h => h0 (norm2_eq_zero.mp h.symm)
      have hu : ((norm2 x)⁻¹ • x) ⬝ᵥ ((norm2 x)⁻¹ • x) = 1 := by
        rw [smul_dotProduct, dotProduct_smul, ← norm2_sq, smul_eq_mul, smul_eq_mul]
        field_simp
      have h1 := hgr.2 ⟨_, hu, rfl⟩
      rw [mulVec_smul, norm2_smul, abs_of_pos (inv_pos.mpr hpos), ← heq] at h1
      rw [inv_mul_le_iff₀ hpos] at h1
      linarith

/-- C90: every entry of the stored filter errors is the largest factor by which the stored filter can differ from the
ideal filter on a flow: it bounds the difference for all flows, and one flow attains it. -/
theorem C90_filter_error {st st' : FilterSt sc.E} (hst : st.Valid) {f : Fin sc.E → ℝ}
    {pChoice component : String} {L : ℕ} {n : Option ℕ} {cutOff steep : ℝ}
    (h : Cheb.apply lib series sc st f pChoice component L n cutOff steep = (.ok (), st')) :
    ∃ (H : List (Matrix (Fin sc.E) (Fin sc.E) ℝ)) (errs : List (Option ℝ)) (mask : List ℝ)
      (HIdeal : Matrix (Fin sc.E) (Fin sc.E) ℝ),
      st'.history.get? "filter" = some (.mats H) ∧ st'.history.get? "filter_error" = some (.errs errs) ∧
      sc.getComponentCoefficients lib component = .ok mask ∧ Cheb.getIdealFrequency lib sc mask = .ok HIdeal ∧
      errs.length = L ∧ H.length = L ∧
      ∀ (k : ℕ) (M : Matrix (Fin sc.E) (Fin sc.E) ℝ), H[k]? = some M → ∃ e, errs[k]? = some (some e) ∧
        (∀ x, norm2 (M.mulVec x - HIdeal.mulVec x) ≤ e * norm2 x) ∧
        ∃ x, norm2 x = 1 ∧ norm2 (M.mulVec x - HIdeal.mulVec x) = e := by
  obtain ⟨H, U, w, fTrue, mask, HI, h1, h2, -, -, h5, h6, h7, -, -, -, h11⟩ := C90_history hst h
  have hE : 0 < sc.E := by
    by_contra h0
    have h0' : sc.E = 0 := by omega
    simp only [getEigendecomposition, h0', if_true] at h2
    cases h2
  refine ⟨H, _, mask, HI, h7, h11, h5, h6, by simp [h1], h1, fun k M hk => ?_⟩
  obtain ⟨⟨x, hx, hx'⟩, hall⟩ := specNorm_attained hE (M - HI)
  refine ⟨Cheb.specNorm (M - HI), by rw [List.getElem?_map, hk]; rfl, fun x => ?_, x, hx, ?_⟩
  · rw [← sub_mulVec]; exact hall x
  · rw [← sub_mulVec, hx']

/-- such a call exists: the filled triangle, with any routine that returns enough coefficients -/
example (lib : NumLib) (series : ChebSeries) (f : Fin tri.E → ℝ) (L : ℕ)
    (hs : ∀ lam, ∃ coeffs, series L 0 lam (1 / 100) 100 = .ok coeffs ∧ coeffs.length = L) :
    ∃ st', (initFilter tri.E).Valid ∧
      Cheb.apply lib series tri (initFilter _) f "L1L" "gradient" L = (.ok (), st') := by
  obtain ⟨lam, hl⟩ := tri_lambdaMax_lower
  obtain ⟨coeffs, h1, h2⟩ := hs lam
  obtain ⟨st', h⟩ := chebApply_tri lib series (initFilter _) f L lam hl (tri_lambdaMax_pos hl).ne' coeffs h1 h2.ge
  exact ⟨st', by simp [FilterSt.Valid, initFilter], h⟩

end Pytspl
