import Verif.Props.NoiseAverage
import Verif.Props.ExactFilters
import Verif.Props.NoiseHodge
import Verif.Props.Units

/-!
# C177: how much random noise the designed filters let through
-/

namespace Pytspl

open Matrix Polynomial MeasureTheory

variable {lib : NumLib} {sc : SC ℝ} {Ω : Type*} [MeasurableSpace Ω]

/-! ## Specification -/

/-- The call `run` was made on the flow `f` without noise and left the history `d`.  With the noise `x` added it succeeds
as well.  The error expected of the estimate, against any flow `t`, is the error of the estimate without noise plus `v`
times the sum of the squares of the frequency responses recorded last, which are the same with and without noise. -/
def NoisePasses {E : ℕ} (Pr : Measure Ω) (x : Ω → Fin E → ℝ) (v : ℝ) (f : Fin E → ℝ)
    (run : (Fin E → ℝ) → Py Unit × FilterSt E) (d : HDict E) : Prop :=
  ∃ (e0 : Fin E → ℝ) (rows : List (Fin E → ℝ)) (r : Fin E → ℝ) (est : Ω → Fin E → ℝ),
    d.get? "f_estimated" = some (.vec e0) ∧
    d.get? "frequency_responses" = some (.rows rows) ∧ rows.getLast? = some r ∧
    (∀ ω, ∃ s, run (f + x ω) = (.ok (), s) ∧ s.history.get? "f_estimated" = some (.vec (est ω)) ∧
      s.history.get? "frequency_responses" = some (.rows rows)) ∧
    ∀ t : Fin E → ℝ, Integrable (fun ω => misfit t (est ω)) Pr ∧
      ∫ ω, misfit t (est ω) ∂Pr = misfit t e0 + v * ∑ k, r k ^ 2

/-! ## Proof -/

section
variable {E : ℕ} {Pr : Measure Ω} {x : Ω → Fin E → ℝ} {v : ℝ}

/-- bias plus variance, against any flow -/
theorem WhiteNoise.filter_to (h : WhiteNoise Pr x v) (H : Matrix (Fin E) (Fin E) ℝ) (f t : Fin E → ℝ) :
    Integrable (fun ω => misfit t (H.mulVec (f + x ω))) Pr ∧
    ∫ ω, misfit t (H.mulVec (f + x ω)) ∂Pr = misfit t (H.mulVec f) + v * ∑ i, ∑ j, H i j ^ 2 := by
  have e : (fun ω => misfit t (H.mulVec (f + x ω))) =
      fun ω => ∑ i, ((H.mulVec f i - t i) + (fun j => H i j) ⬝ᵥ x ω) ^ 2 := by
    funext ω
    unfold misfit
    rw [dotProduct]
    refine Finset.sum_congr rfl fun i _ => ?_
    rw [mulVec_add]
    simp only [Pi.sub_apply, Pi.add_apply]
    have : H.mulVec (x ω) i = (fun j => H i j) ⬝ᵥ x ω := rfl
    rw [← this]
    ring
  rw [e]
  refine ⟨integrable_finsetSum _ fun i _ => (h.linear _ _).1, ?_⟩
  rw [integral_finsetSum _ fun i _ => (h.linear _ _).1]
  simp only [(h.linear _ _).2, Finset.sum_add_distrib, Finset.mul_sum]
  congr 1
  unfold misfit
  rw [dotProduct]
  exact Finset.sum_congr rfl fun i _ => by rw [Pi.sub_apply, sq]

/-- the sum of the squared entries is the sum of the squared gains -/
theorem IsEig.sum_sq {P U H : Matrix (Fin E) (Fin E) ℝ} {w d : Fin E → ℝ} (h : IsEig P U w)
    (hH : H * U = U * diagonal d) : ∑ i, ∑ j, H i j ^ 2 = ∑ k, d k ^ 2 := by
  have h0 : ∀ A : Matrix (Fin E) (Fin E) ℝ, ∑ i, ∑ j, A i j ^ 2 = trace (A * A.transpose) := by
    intro A
    rw [trace]
    refine Finset.sum_congr rfl fun i _ => ?_
    rw [diag_apply, mul_apply]
    exact Finset.sum_congr rfl fun j _ => by rw [transpose_apply, sq]
  have hU : U * U.transpose = 1 := h.orth'
  have hU' : U.transpose * U = 1 := h.orth
  have e : H = U * diagonal d * U.transpose := by rw [← hH, Matrix.mul_assoc, hU, Matrix.mul_one]
  have e2 : H * H.transpose = U * (diagonal (fun k => d k ^ 2) * U.transpose) := by
    rw [e, transpose_mul, transpose_mul, transpose_transpose, diagonal_transpose]
    have : U * diagonal d * U.transpose * (U * (diagonal d * U.transpose)) =
        U * (diagonal d * ((U.transpose * U) * (diagonal d * U.transpose))) := by
      simp only [Matrix.mul_assoc]
    rw [this, hU', Matrix.one_mul, ← Matrix.mul_assoc (diagonal d), diagonal_mul_diagonal]
    simp only [sq]
  rw [h0, e2, trace_mul_comm, Matrix.mul_assoc, hU', Matrix.mul_one, trace_diagonal]

private theorem passes_of {P : Matrix (Fin E) (Fin E) ℝ} (hP : SymmPSD P) (lib : NumLib) (hx : WhiteNoise Pr x v)
    {f fTrue : Fin E → ℝ} {pts : List (ℝ × ℝ)} {L : ℕ} {st' : FilterSt E} (h : RecordsFit P f fTrue pts L st'.history)
    (run : (Fin E → ℝ) → Py Unit × FilterSt E) (hf : run f = (.ok (), st'))
    (hsame : ∀ g, (run g).1 = (run f).1 ∧
      (run g).2.history.get? "filter" = (run f).2.history.get? "filter" ∧
      (run g).2.history.get? "frequency_responses" = (run f).2.history.get? "frequency_responses")
    (hall : ∀ g s, run g = (.ok (), s) →
      ∃ H, s.history.get? "filter" = some (.mat H) ∧ s.history.get? "f_estimated" = some (.vec (H.mulVec g))) :
    NoisePasses Pr x v f run st'.history := by
  obtain ⟨hL, p, -, h1, h2, ⟨rows, h3, h4, h5⟩, -⟩ := h
  set H := aeval P (p (L - 1)) with hH
  have hr := h5 (L - 1) (by omega) _ (eigh_isSpectrum lib hP)
  refine ⟨_, rows, fun k => (p (L - 1)).eval ((lib.eigh E P).1 k), fun ω => H.mulVec (f + x ω), h2, h3, ?_, fun ω => ?_, fun t => ?_⟩
  · rw [List.getLast?_eq_getElem?, h4]; exact hr
  · obtain ⟨k1, k2, k3⟩ := hsame (f + x ω)
    rw [hf] at k1 k2 k3
    obtain ⟨H', g1, g2⟩ := hall (f + x ω) (run (f + x ω)).2 (Prod.ext k1 rfl)
    refine ⟨(run (f + x ω)).2, Prod.ext k1 rfl, ?_, k3.trans h3⟩
    have e : H' = H := by
      have := g1.symm.trans (k2.trans h1)
      simpa using this
    rw [g2, e]
  · have := hx.filter_to H f t
    rw [(lib.isEig hP).sum_sq ((lib.isEig hP).aeval_mul _)] at this
    exact this

private theorem fit_filter {P : Matrix (Fin E) (Fin E) ℝ} {f fTrue : Fin E → ℝ} {pts : List (ℝ × ℝ)} {L : ℕ} {d : HDict E}
    (h : RecordsFit P f fTrue pts L d) :
    ∃ H, d.get? "filter" = some (.mat H) ∧ d.get? "f_estimated" = some (.vec (H.mulVec f)) := by
  obtain ⟨H, -, h1, h2, -⟩ := C51_consequences _ _ _ _ _ _ h
  exact ⟨H, h1, h2⟩

private theorem same_of {a b : Py Unit × FilterSt E}
    (h : a.1 = b.1 ∧ a.2.forgetFlows estimateKeys = b.2.forgetFlows estimateKeys) :
    a.1 = b.1 ∧ a.2.history.get? "filter" = b.2.history.get? "filter" ∧
      a.2.history.get? "frequency_responses" = b.2.history.get? "frequency_responses" :=
  ⟨h.1, C155_entries _ h.2 _ (by decide) (by decide), C155_entries _ h.2 _ (by decide) (by decide)⟩

end

section
variable {Pr : Measure Ω} {x : Ω → Fin sc.E → ℝ} {v : ℝ}

/-- C177 for the least-squares designs. -/
theorem C177_least_squares (hx : WhiteNoise Pr x v) (st : FilterSt sc.E) (f : Fin sc.E → ℝ) (component : String) (L : Int)
    (tol : ℝ) :
    (∀ st', LSFilter.typeOne lib sc st f component L = (.ok (), st') →
      NoisePasses Pr x v f (fun g => LSFilter.typeOne lib sc st g component L) st'.history) ∧
    (∀ st', LSFilter.typeTwo lib sc st f component L tol = (.ok (), st') →
      NoisePasses Pr x v f (fun g => LSFilter.typeTwo lib sc st g component L tol) st'.history) := by
  refine ⟨fun st' h => ?_, fun st' h => ?_⟩
  · obtain ⟨_, _, _, _, -, -, -, hr⟩ := C51_type_one _ _ _ _ _ h
    refine passes_of (symmPSD_L1 sc) lib hx hr (fun g => LSFilter.typeOne lib sc st g component L) h (fun g => ?_)
      fun g s hs => ?_
    · exact same_of (C155_ls (lib := lib) (st := st) rfl g f component L 0 0 tol).1
    · obtain ⟨_, _, _, _, -, -, -, hr⟩ := C51_type_one _ _ _ _ _ hs
      exact fit_filter hr
  · obtain ⟨P, _, _, _, hP, -, -, -, -, -, hr⟩ := C51_type_two _ _ _ _ _ _ h
    have hp : SymmPSD P := by
      rcases hP with ⟨-, rfl⟩ | ⟨-, rfl⟩
      · exact symmPSD_L1l sc
      · exact symmPSD_L1u sc
    refine passes_of hp lib hx hr (fun g => LSFilter.typeTwo lib sc st g component L tol) h (fun g => ?_)
      fun g s hs => ?_
    · exact same_of (C155_ls (lib := lib) (st := st) rfl g f component L 0 0 tol).2.1
    · obtain ⟨_, _, _, _, -, -, -, -, -, -, hr⟩ := C51_type_two _ _ _ _ _ _ hs
      exact fit_filter hr

/-- C177 for the grid-based designs. -/
theorem C177_grid (hx : WhiteNoise Pr x v) (st : FilterSt sc.E) (hst : st.Valid) (f fTrue : Fin sc.E → ℝ)
    (component pChoice : String) (L num : Int) (mu cutOff steep : ℝ) :
    (∀ st', GridFilter.denoise lib sc st f fTrue pChoice L mu = (.ok (), st') →
      NoisePasses Pr x v f (fun g => GridFilter.denoise lib sc st g fTrue pChoice L mu) st'.history) ∧
    (∀ st', GridFilter.subcomponentExtraction lib sc st f component pChoice L num mu cutOff steep = (.ok (), st') →
      NoisePasses Pr x v f
        (fun g => GridFilter.subcomponentExtraction lib sc st g component pChoice L num mu cutOff steep)
        st'.history) := by
  refine ⟨fun st' h => ?_, fun st' h => ?_⟩
  · obtain ⟨P, _, _, hP, -, hr⟩ := C51_grid_denoise _ _ hst _ _ _ _ _ h
    refine passes_of (getPMatrix_psd hP) lib hx hr (fun g => GridFilter.denoise lib sc st g fTrue pChoice L mu) h
      (fun g => ?_) fun g s hs => ?_
    · exact same_of (C155_grid (lib := lib) (st := st) rfl g f fTrue fTrue component pChoice L 0 0 num mu cutOff steep).1
    · obtain ⟨_, _, _, -, -, hr⟩ := C51_grid_denoise _ _ hst _ _ _ _ _ hs
      exact fit_filter hr
  · obtain ⟨P, _, _, _, hP, -, -, hr⟩ := C51_grid_extraction _ _ hst _ _ _ _ _ _ _ _ h
    refine passes_of (getPMatrix_psd hP) lib hx hr
      (fun g => GridFilter.subcomponentExtraction lib sc st g component pChoice L num mu cutOff steep) h
      (fun g => ?_) fun g s hs => ?_
    · exact same_of
        (C155_grid (lib := lib) (st := st) rfl g f fTrue fTrue component pChoice L 0 0 num mu cutOff steep).2.1
    · obtain ⟨_, _, _, _, -, -, -, hr⟩ := C51_grid_extraction _ _ hst _ _ _ _ _ _ _ _ hs
      exact fit_filter hr

end

/-- C177: an exact gradient extraction passes as much noise as gradient flows have dimensions: the squares of the recorded
responses add up to the number of nodes minus the number of connected components. -/
theorem C177_exact_gradient (hw : sc.WellFormed) (st : FilterSt sc.E) (f : Fin sc.E → ℝ) (tol : ℝ)
    (ht : machineEps ≤ tol) (h0 : IsEigenvalue sc.L1l 0)
    (hgap : ∀ lam, IsEigenvalue sc.L1l lam → ¬ (0 < lam ∧ lam < tol))
    (L : Int) (hL : (sc.L1l.charpoly.roots.toFinset.card : Int) ≤ L) :
    ∃ st' rows r, LSFilter.typeTwo lib sc st f "gradient" L tol = (.ok (), st') ∧
      st'.history.get? "frequency_responses" = some (.rows rows) ∧ rows.getLast? = some r ∧
      ∑ k, r k ^ 2 = (sc.nodes.length : ℝ) - sc.numComponents := by
  have hE : 0 < sc.E := by
    obtain ⟨u, hu, -⟩ := h0
    by_contra h
    apply hu; funext i; exact absurd i.isLt (by omega)
  obtain ⟨g, c, h, hp⟩ := HodgeParts.exists lib sc f
  obtain ⟨Pr, x, hx⟩ := WhiteNoise.exists sc.E hE (by norm_num : (0 : ℝ) ≤ 1)
  obtain ⟨G, C, H, hG, hs, -⟩ := C173_split lib hw f g c h hp hx
  obtain ⟨st', r1, r2⟩ := C53_gradient st f g hp.grad tol ht h0 hgap L hL
  obtain ⟨e0, rows, r, est, k1, k2, k3, k4, k5⟩ := (C177_least_squares (lib := lib) hx st f "gradient" L tol).2 st' r1
  refine ⟨st', rows, r, r1, k2, k3, ?_⟩
  have he : e0 = g := by
    have := k1.symm.trans r2.1
    simpa using this
  have hest : est = G := by
    funext ω
    obtain ⟨s, s1, s2, -⟩ := k4 ω
    obtain ⟨s', t1, t2⟩ := C53_gradient st (f + x ω) (G ω) (hG ω).grad tol ht h0 hgap L hL
    have e : s = s' := (Prod.ext_iff.1 (s1.symm.trans t1)).2
    rw [e] at s2
    have := s2.symm.trans t2.1
    simpa using this
  have k6 := (k5 g).2
  have hm : misfit g g = 0 := by rw [misfit, sub_self, dotProduct_zero]
  rw [he, hm, zero_add, one_mul, hest] at k6
  rw [← k6]
  have k7 := hs.spread
  rw [one_mul] at k7
  rw [← k7]
  congr 1
  funext ω
  rw [misfit, dotProduct]
  exact Finset.sum_congr rfl fun e _ => by rw [Pi.sub_apply, sq]

/-- the hypotheses are met on two triangles, where the filter lets 4 of 6 parts of the noise pass -/
example (lib : NumLib) (st : FilterSt twoTri.E) (f : Fin twoTri.E → ℝ) : ∃ (Pr : Measure (Fin twoTri.E × Bool))
    (x : Fin twoTri.E × Bool → Fin twoTri.E → ℝ) (L : Int) (st' : FilterSt twoTri.E), WhiteNoise Pr x 4 ∧
    LSFilter.typeTwo lib twoTri st f "gradient" L = (.ok (), st') ∧
    NoisePasses Pr x 4 f (fun g => LSFilter.typeTwo lib twoTri st g "gradient" L) st'.history := by
  obtain ⟨Pr, x, hx⟩ := WhiteNoise.exists twoTri.E (by decide) (by norm_num : (0 : ℝ) ≤ 4)
  obtain ⟨g, c, h, hp⟩ := HodgeParts.exists lib twoTri f
  obtain ⟨st', r1, r2⟩ := C53_gradient st f g hp.grad (1 / 10 ^ 6) (by unfold machineEps; norm_num) twoTri_lower_zero
    (fun lam hl hh => by
      rcases twoTri_lower hl with rfl | rfl
      · linarith [hh.1]
      · linarith [hh.2])
    _ le_rfl
  exact ⟨Pr, x, _, st', hx, r1, (C177_least_squares (lib := lib) hx st f "gradient" _ _).2 st' r1⟩

end Pytspl
