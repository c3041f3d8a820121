import Verif.Props.EdgeFlow
import Verif.Props.Hodge

/-!
# C105: the strength of the denoising
-/

namespace Pytspl

open Matrix

variable {lib : NumLib} {sc : SC ℝ} {E : ℕ}

/-- how far the estimate is from the observed flow -/
def misfit (f x : Fin E → ℝ) : ℝ := (x - f) ⬝ᵥ (x - f)

/-- the energy `x.T P x` the filter penalises -/
def roughness (P : Matrix (Fin E) (Fin E) ℝ) (x : Fin E → ℝ) : ℝ := x ⬝ᵥ P.mulVec x

/-- C105: a larger parameter smooths more: the estimate's energy does not grow, its distance from the
observed flow does not shrink. -/
theorem C105_monotone (hE : 0 < sc.E) {pChoice : String} {P : Matrix (Fin sc.E) (Fin sc.E) ℝ}
    (hP : sc.getPMatrix pChoice = .ok P) (st st' : FilterSt sc.E) (hst : st.Valid) (hst' : st'.Valid)
    (f fTrue fTrue' : Fin sc.E → ℝ) (muVals muVals' : List ℝ) (hmu : ∀ m ∈ muVals, 0 ≤ m)
    (hmu' : ∀ m ∈ muVals', 0 ≤ m) (mu mu' : ℝ) (hl : muVals.getLast? = some mu)
    (hl' : muVals'.getLast? = some mu') (hlt : mu < mu') :
    ∃ s s' x x', edgeFlowDenoise lib sc st f fTrue pChoice muVals = (.ok (), s) ∧
      edgeFlowDenoise lib sc st' f fTrue' pChoice muVals' = (.ok (), s') ∧
      s.history.get? "f_estimated" = some (.vec x) ∧ s'.history.get? "f_estimated" = some (.vec x') ∧
      roughness P x' ≤ roughness P x ∧ misfit f x ≤ misfit f x' ∧
      (x ≠ x' → roughness P x' < roughness P x) := by
  obtain ⟨s, x, h1, h2, h3⟩ := C60_minimiser (lib := lib) hE hP st hst f fTrue muVals hmu mu hl
  obtain ⟨s', x', h1', h2', h3'⟩ := C60_minimiser (lib := lib) hE hP st' hst' f fTrue' muVals' hmu' mu' hl'
  refine ⟨s, s', x, x', h1, h1', h2, h2', ?_⟩
  have hmu0 := hmu mu (List.mem_of_getLast? hl)
  by_cases hxx : x = x'
  · subst hxx
    exact ⟨le_rfl, le_rfl, fun h => absurd rfl h⟩
  have a := h3 x' (Ne.symm hxx)
  have b := h3' x hxx
  unfold denoiseObjective at a b
  unfold roughness misfit
  have hr : x' ⬝ᵥ P.mulVec x' < x ⬝ᵥ P.mulVec x := by
    by_contra hn
    push Not at hn
    nlinarith
  refine ⟨hr.le, ?_, fun _ => hr⟩
  nlinarith

theorem residual_norm_le {P H : Matrix (Fin E) (Fin E) ℝ} (hP : SymmPSD P) {mu : ℝ} (hmu : 0 ≤ mu)
    (hH : (1 + mu • P) * H = 1) (z : Fin E → ℝ) : norm2 (z - H.mulVec z) ≤ norm2 z := by
  apply Real.sqrt_le_sqrt
  set y := H.mulVec z with hy
  have hz : z = y + mu • P.mulVec y := by
    have := congrArg (fun M => M.mulVec z) hH
    simp only [one_mulVec] at this
    rw [← mulVec_mulVec, add_mulVec, one_mulVec, smul_mulVec] at this
    exact this.symm
  have e : z ⬝ᵥ z = y ⬝ᵥ y + 2 * (mu * (y ⬝ᵥ P.mulVec y)) + (mu • P.mulVec y) ⬝ᵥ (mu • P.mulVec y) := by
    conv_lhs => rw [hz]
    rw [dot_add_sq]
    simp only [dotProduct_smul, smul_eq_mul]
  have e2 : z - y = mu • P.mulVec y := by
    conv_lhs => rw [hz]
    abel
  rw [e2, e]
  have := mul_nonneg hmu (hP.2 y)
  have := dot_self_nonneg y
  linarith

/-- filtering `k + P z` with `k` in the kernel of `P` -/
theorem denoiser_limit {P H : Matrix (Fin E) (Fin E) ℝ} (hP : SymmPSD P) {mu : ℝ} (hmu : 0 < mu)
    (hH : IsDenoiser P H mu) (k z : Fin E → ℝ) (hk : P.mulVec k = 0) :
    norm2 (H.mulVec (k + P.mulVec z) - k) ≤ norm2 z / mu := by
  have h2 : H * (1 + mu • P) = 1 := mul_eq_one_comm.1 hH.1
  have e : H.mulVec (k + P.mulVec z) - k = (1 / mu) • (z - H.mulVec z) := by
    have := congrArg (fun M => M.mulVec z) h2
    simp only [one_mulVec] at this
    rw [← mulVec_mulVec, add_mulVec, one_mulVec, smul_mulVec, mulVec_add, mulVec_smul] at this
    rw [mulVec_add, hH.2.2.2 k hk, add_sub_cancel_left]
    have h3 : z - H.mulVec z = mu • H.mulVec (P.mulVec z) := by
      rw [sub_eq_iff_eq_add']
      exact this.symm
    rw [h3, smul_smul, one_div, inv_mul_cancel₀ hmu.ne', one_smul]
  rw [e]
  have h4 := residual_norm_le hP hmu.le hH.1 z
  have h5 : norm2 ((1 / mu) • (z - H.mulVec z)) = norm2 (z - H.mulVec z) / mu := by
    unfold norm2
    rw [smul_dotProduct, dotProduct_smul, smul_eq_mul, smul_eq_mul, ← mul_assoc,
      Real.sqrt_mul (by positivity), Real.sqrt_mul_self (by positivity)]
    ring
  rw [h5]
  exact div_le_div_of_nonneg_right h4 hmu.le

/-- The flow that survives ever stronger denoising with the given choice of `P`: what `P` does not see. -/
def IsLimitFlow (lib : NumLib) (sc : SC ℝ) (pChoice : String) (f k : Fin sc.E → ℝ) : Prop :=
  (pChoice = "L1L" ∧ ∃ g, sc.getComponentFlow lib f "gradient" false = .ok g ∧ k = f - g) ∨
  (pChoice = "L1U" ∧ ∃ c, sc.getComponentFlow lib f "curl" false = .ok c ∧ k = f - c) ∨
  (pChoice = "L1" ∧ sc.WellFormed ∧ sc.getComponentFlow lib f "harmonic" false = .ok k)

/-- Everything in the range of `A` is `A A.T` applied to something in the range of `A`. -/
theorem range_gram (lib : NumLib) {m n : ℕ} (A : Matrix (Fin m) (Fin n) ℝ) (p : Fin n → ℝ) :
    ∃ q, (A * A.transpose).mulVec (A.mulVec q) = A.mulVec p := by
  obtain ⟨⟨y, hy⟩, h⟩ := lib.isProj A.transpose p
  obtain ⟨⟨q, hq⟩, h'⟩ := lib.isProj A y
  refine ⟨q, ?_⟩
  rw [← mulVec_mulVec, hq, h', hy]
  rw [transpose_transpose] at h
  exact h

/-- C105: as the parameter of the last pass grows, the estimate tends to the part of the observed flow that the chosen
Laplacian does not penalise, with an error of order `1/mu`: without its gradient part for `L1L`, without its curl part
for `L1U`, and to the harmonic part for `L1` on a consistently oriented complex. -/
theorem C105_limit (lib' : NumLib) (hE : 0 < sc.E) (pChoice : String) (f k : Fin sc.E → ℝ)
    (hk : IsLimitFlow lib' sc pChoice f k) :
    ∃ C : ℝ, ∀ (st : FilterSt sc.E) (fTrue : Fin sc.E → ℝ) (muVals : List ℝ) (mu : ℝ), st.Valid →
      (∀ m ∈ muVals, 0 ≤ m) → muVals.getLast? = some mu → 0 < mu →
      ∃ st' x, edgeFlowDenoise lib sc st f fTrue pChoice muVals = (.ok (), st') ∧
        st'.history.get? "f_estimated" = some (.vec x) ∧ norm2 (x - k) ≤ C / mu := by
  have main : ∃ P z, sc.getPMatrix pChoice = .ok P ∧ P.mulVec k = 0 ∧ f = k + P.mulVec z := by
    rcases hk with ⟨rfl, g, hg, rfl⟩ | ⟨rfl, c, hc, rfl⟩ | ⟨rfl, hw, hh⟩
    · obtain ⟨g', c', h', hp⟩ := HodgeParts.exists lib' sc f
      obtain rfl : g' = g := Except.ok.inj (hp.1.symm.trans hg)
      obtain ⟨⟨⟨p, hp1⟩, hp2⟩, -, -⟩ := hp.proj
      obtain ⟨q, hq⟩ := range_gram lib' sc.B1.transpose p
      rw [transpose_transpose] at hq hp2
      refine ⟨sc.L1l, sc.B1.transpose.mulVec q, rfl, ?_, ?_⟩
      · unfold SC.L1l
        rw [← mulVec_mulVec, mulVec_sub, hp2, sub_self, mulVec_zero]
      · change f = f - g' + (sc.B1.transpose * sc.B1).mulVec (sc.B1.transpose.mulVec q)
        rw [hq, hp1, sub_add_cancel]
    · obtain ⟨g', c', h', hp⟩ := HodgeParts.exists lib' sc f
      obtain rfl : c' = c := Except.ok.inj (hp.curl.symm.trans hc)
      obtain ⟨-, ⟨⟨p, hp1⟩, hp2⟩, -⟩ := hp.proj
      obtain ⟨q, hq⟩ := range_gram lib' sc.B2 p
      refine ⟨sc.L1u, sc.B2.mulVec q, rfl, ?_, ?_⟩
      · unfold SC.L1u
        rw [← mulVec_mulVec, mulVec_sub, hp2, sub_self, mulVec_zero]
      · change f = f - c' + (sc.B2 * sc.B2.transpose).mulVec (sc.B2.mulVec q)
        rw [hq, hp1, sub_add_cancel]
    · obtain ⟨g, c, h', hp⟩ := HodgeParts.exists lib' sc f
      obtain rfl : h' = k := Except.ok.inj (hp.harm.symm.trans hh)
      obtain ⟨-, -, -, -, hL⟩ := C20_component_behaviour hw f g c h' hp
      have hs := C18_components_sum f g c h' hp
      obtain ⟨⟨⟨p, hp1⟩, -⟩, ⟨⟨w, hw1⟩, -⟩, -⟩ := hp.proj
      obtain ⟨q, hq⟩ := range_gram lib' sc.B1.transpose p
      obtain ⟨v, hv⟩ := range_gram lib' sc.B2 w
      rw [transpose_transpose] at hq
      refine ⟨sc.L1, sc.B1.transpose.mulVec q + sc.B2.mulVec v, rfl, hL, ?_⟩
      have e1 : sc.B1.mulVec (sc.B2.mulVec v) = 0 := by rw [mulVec_mulVec, hw.b1_mul_b2, zero_mulVec]
      have e2 : sc.B2.transpose.mulVec (sc.B1.transpose.mulVec q) = 0 := by
        rw [mulVec_mulVec, ← transpose_mul, hw.b1_mul_b2, transpose_zero, zero_mulVec]
      have e3 : (sc.B1.transpose * sc.B1).mulVec (sc.B2.mulVec v) = 0 := by rw [← mulVec_mulVec, e1, mulVec_zero]
      have e4 : (sc.B2 * sc.B2.transpose).mulVec (sc.B1.transpose.mulVec q) = 0 := by
        rw [← mulVec_mulVec, e2, mulVec_zero]
      unfold SC.L1 SC.L1l SC.L1u
      rw [add_mulVec, mulVec_add, mulVec_add, hq, hv, e3, e4, hp1, hw1, add_zero, zero_add, ← hs]
      abel
  obtain ⟨P, z, hP, hk0, hf⟩ := main
  refine ⟨norm2 z, fun st fTrue muVals mu hst hm hl hmu => ?_⟩
  obtain ⟨st', H, h1, -, h3, h4⟩ := C59_denoise (lib := lib) hE hP st hst f fTrue muVals hm mu hl
  refine ⟨st', _, h1, h3, ?_⟩
  conv_lhs => rw [hf]
  exact denoiser_limit (getPMatrix_psd hP) hmu h4 k z hk0

/-- The two triangles of `twoTri` are consistently oriented, so every flow on them has all three limits. -/
example (lib : NumLib) (f : Fin twoTri.E → ℝ) : ∀ pChoice ∈ ["L1", "L1L", "L1U"], ∃ k, IsLimitFlow lib twoTri pChoice f k := by
  obtain ⟨g, c, h, hp⟩ := HodgeParts.exists lib twoTri f
  intro p hmem
  simp only [List.mem_cons, List.not_mem_nil, or_false] at hmem
  rcases hmem with rfl | rfl | rfl
  · exact ⟨h, Or.inr (Or.inr ⟨rfl, twoTri_wellFormed, hp.harm⟩)⟩
  · exact ⟨f - g, Or.inl ⟨rfl, g, hp.1, rfl⟩⟩
  · exact ⟨f - c, Or.inr (Or.inl ⟨rfl, c, hp.curl, rfl⟩)⟩

end Pytspl
