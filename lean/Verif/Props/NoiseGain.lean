import Verif.Props.EdgeFlow
import Verif.Props.ExactFilters

/-!
# C130: what filters and component extraction do to noise
-/

namespace Pytspl

open Matrix

variable {lib : NumLib} {sc : SC ℝ} {E : ℕ}

/-! ## The recorded response is the gain -/

/-- The filter in the history is `H`, the estimate is `H f`, and the last recorded frequency response `g`
is what the filter does to flows: each of its values is attained by a flow, and none is amplified more. -/
def RecordsGain (h : HDict E) (f : Fin E → ℝ) (H : Matrix (Fin E) (Fin E) ℝ) (g : Fin E → ℝ) : Prop :=
  h.get? "filter" = some (.mat H) ∧ h.get? "f_estimated" = some (.vec (H.mulVec f)) ∧
  (∃ r, h.get? "frequency_responses" = some (.rows r) ∧ r.getLast? = some g) ∧
  (∀ k, ∃ x, norm2 x = 1 ∧ H.mulVec x = g k • x) ∧
  ∀ G, (∀ k, |g k| ≤ G) → ∀ x, norm2 (H.mulVec x) ≤ G * norm2 x

/-- the sum of squares of the coefficients in an orthonormal eigenbasis -/
private theorem IsEig.gain {P U H : Matrix (Fin E) (Fin E) ℝ} {w g : Fin E → ℝ} (h : IsEig P U w)
    (hH : H * U = U * diagonal g) :
    (∀ k, ∃ x, norm2 x = 1 ∧ H.mulVec x = g k • x) ∧
      ∀ G, (∀ k, |g k| ≤ G) → ∀ x, norm2 (H.mulVec x) ≤ G * norm2 x := by
  have hg : IsEig H U g := ⟨h.orth, hH⟩
  refine ⟨fun k => ⟨fun i => U i k, ?_, hg.col_eig k⟩, fun G hG x => ?_⟩
  · rw [norm2, h.col_dot]; simp
  · have dot : ∀ y : Fin E → ℝ, y ⬝ᵥ y = ∑ k, U.transpose.mulVec y k ^ 2 := by
      intro y
      have h1 : U.mulVec (U.transpose.mulVec y) = y := by rw [mulVec_mulVec, h.orth', one_mulVec]
      have h2 : y ⬝ᵥ y = y ⬝ᵥ U.mulVec (U.transpose.mulVec y) := by rw [h1]
      have h3 : y ⬝ᵥ U.mulVec (U.transpose.mulVec y) = U.transpose.mulVec y ⬝ᵥ U.transpose.mulVec y := by
        rw [dotProduct_mulVec, ← mulVec_transpose]
      rw [h2, h3]
      exact Finset.sum_congr rfl fun k _ => (sq _).symm
    have coef : ∀ k, U.transpose.mulVec (H.mulVec x) k = g k * U.transpose.mulVec x k := by
      intro k
      have e : U.transpose * H = diagonal g * U.transpose := by
        have := congrArg (fun M => U.transpose * M * U.transpose) hH
        simp only [Matrix.mul_assoc] at this
        rw [h.orth', Matrix.mul_one, ← Matrix.mul_assoc, h.orth, Matrix.one_mul] at this
        exact this
      rw [mulVec_mulVec, e, ← mulVec_mulVec, mulVec_diagonal]
    rcases Nat.eq_zero_or_pos E with h0 | h0
    · subst h0
      simp [norm2]
    · have hG0 : 0 ≤ G := (abs_nonneg _).trans (hG ⟨0, h0⟩)
      unfold norm2
      rw [show G = Real.sqrt (G ^ 2) from (Real.sqrt_sq hG0).symm, ← Real.sqrt_mul (sq_nonneg G)]
      apply Real.sqrt_le_sqrt
      rw [dot, dot, Finset.mul_sum]
      refine Finset.sum_le_sum fun k _ => ?_
      rw [coef, mul_pow]
      refine mul_le_mul_of_nonneg_right ?_ (sq_nonneg _)
      rw [← sq_abs]
      exact pow_le_pow_left₀ (abs_nonneg _) (hG k) 2

private theorem applied_gain {P : Matrix (Fin E) (Fin E) ℝ} (hP : SymmPSD P) (ev al : List ℝ) (L : Int) :
    ∃ H g, ∀ (f fTrue : Fin E → ℝ) (a : Applied E) (st : FilterSt E), st.Valid →
      applyFilter lib f fTrue P (lib.eigh E P).2 ev al L = .ok a →
      RecordsGain (setHistory st a.design).history f H g := by
  refine ⟨Polynomial.aeval P (polyAt lib (fun i : Fin ev.length => ev[i])
      (fun i => al[(i : ℕ)]?.getD 0) L.toNat (L.toNat - 1)),
    fun k => (polyAt lib (fun i : Fin ev.length => ev[i])
      (fun i => al[(i : ℕ)]?.getD 0) L.toNat (L.toNat - 1)).eval ((lib.eigh E P).1 k), ?_⟩
  intro f fTrue a st hst h
  obtain ⟨hL, hlen⟩ := applyFilter_pos lib h
  rw [applyFilter_eq lib f fTrue P _ ev al L hL hlen] at h
  have ha := (Except.ok.inj h).symm
  obtain ⟨g1, g2, g3, -⟩ := setHistory_get st hst a.design
  refine ⟨?_, ?_, ⟨a.resp, g3, ?_⟩, (lib.isEig hP).gain ((lib.isEig hP).aeval_mul _)⟩
  · rw [FilterSt.history, setHistory_cur, g1, ha]; rfl
  · rw [FilterSt.history, setHistory_cur, g2, ha]; rfl
  · rw [ha]
    simp only [List.getLast?_map]
    obtain ⟨l, hl⟩ : ∃ l, L.toNat = l + 1 := ⟨L.toNat - 1, by omega⟩
    rw [hl, List.range_succ, List.getLast?_concat]
    simp only [Option.map_some, Option.some.injEq, Nat.add_sub_cancel]
    funext k
    exact (lib.isEig hP).aeval_diag _ k

/-- C130: the two least-squares filters and the two grid-based filters.  Which filter `H` is recorded, and
which response `g`, does not depend on the flow; the recorded response is the gain of the filter. -/
theorem C130_gain (component pChoice : String) (L num : Int) (tol mu cutOff steep : ℝ) :
    (∃ H g, ∀ f st s, LSFilter.typeOne lib sc st f component L = (.ok (), s) → RecordsGain s.history f H g) ∧
    (∃ H g, ∀ f st s, LSFilter.typeTwo lib sc st f component L tol = (.ok (), s) →
      RecordsGain s.history f H g) ∧
    (∃ H g, ∀ f fTrue st s, st.Valid → GridFilter.denoise lib sc st f fTrue pChoice L mu = (.ok (), s) →
      RecordsGain s.history f H g) ∧
    ∃ H g, ∀ f st s, st.Valid →
      GridFilter.subcomponentExtraction lib sc st f component pChoice L num mu cutOff steep = (.ok (), s) →
      RecordsGain s.history f H g := by
  refine ⟨?_, ?_, ?_, ?_⟩
  · by_cases hex : ∃ f st s, LSFilter.typeOne lib sc st f component L = (.ok (), s)
    swap
    · exact ⟨0, 0, fun f st s h => absurd ⟨f, st, s, h⟩ hex⟩
    obtain ⟨f0, st0, s0, h0⟩ := hex
    obtain ⟨a0, ha0, -⟩ := record_ok h0
    obtain ⟨w, t0, al, h1, -, h3, -⟩ := typeOne_inv ha0
    obtain ⟨H, g, hHg⟩ := applied_gain (lib := lib) (symmPSD_L1 sc) (List.ofFn w) al L
    refine ⟨H, g, fun f st s h => ?_⟩
    obtain ⟨a, ha, rfl⟩ := record_ok h
    obtain ⟨w', t, al', h1', -, h3', h4⟩ := typeOne_inv ha
    obtain rfl : w' = w := congrArg Prod.snd (Except.ok.inj (h1'.symm.trans h1))
    obtain rfl : al' = al := Except.ok.inj (h3'.symm.trans h3)
    exact hHg f t a _ (resetHistory_valid st) h4
  · by_cases hex : ∃ f st s, LSFilter.typeTwo lib sc st f component L tol = (.ok (), s)
    swap
    · exact ⟨0, 0, fun f st s h => absurd ⟨f, st, s, h⟩ hex⟩
    obtain ⟨f0, st0, s0, h0⟩ := hex
    obtain ⟨a0, ha0, -⟩ := record_ok h0
    obtain ⟨P, w, t0, hc, h1, -⟩ := typeTwo_inv ha0
    have hP : SymmPSD P := by
      rcases hc with ⟨-, rfl⟩ | ⟨-, rfl⟩
      · exact symmPSD_L1l sc
      · exact symmPSD_L1u sc
    obtain ⟨H, g, hHg⟩ := applied_gain (lib := lib) hP
      (npUnique ((List.ofFn w).map fun x => if |x| < tol then 0 else x))
      ([0] ++ List.replicate ((npUnique ((List.ofFn w).map fun x => if |x| < tol then 0 else x)).length - 1) 1) L
    refine ⟨H, g, fun f st s h => ?_⟩
    obtain ⟨a, ha, rfl⟩ := record_ok h
    obtain ⟨P', w', t, hc', h1', -, h4⟩ := typeTwo_inv ha
    obtain rfl : P' = P := by
      rcases hc with ⟨e, rfl⟩ | ⟨e, rfl⟩ <;> rcases hc' with ⟨e', rfl⟩ | ⟨e', rfl⟩
      · rfl
      · rw [e] at e'; exact absurd e' (by decide)
      · rw [e] at e'; exact absurd e' (by decide)
      · rfl
    obtain rfl : w' = w := congrArg Prod.snd (Except.ok.inj (h1'.symm.trans h1))
    exact hHg f t a _ (resetHistory_valid st) h4
  · by_cases hex : ∃ f fTrue st s, GridFilter.denoise lib sc st f fTrue pChoice L mu = (.ok (), s)
    swap
    · exact ⟨0, 0, fun f t st s _ h => absurd ⟨f, t, st, s, h⟩ hex⟩
    obtain ⟨f0, t0, st0, s0, h0⟩ := hex
    obtain ⟨a0, ha0, -⟩ := record_ok h0
    obtain ⟨P, resp, pts, y, h1, h2, h3, -⟩ := denoise_inv ha0
    obtain ⟨H, g, hHg⟩ := applied_gain (lib := lib) (getPMatrix_psd h1) pts y L
    refine ⟨H, g, fun f t st s hst h => ?_⟩
    obtain ⟨a, ha, rfl⟩ := record_ok h
    obtain ⟨P', resp', pts', y', h1', h2', h3', h4⟩ := denoise_inv ha
    obtain rfl : P' = P := Except.ok.inj (h1'.symm.trans h1)
    have e := Option.some.inj (Except.ok.inj (h2'.symm.trans h2))
    simp only [Prod.mk.injEq] at e
    obtain ⟨e1, rfl⟩ := e
    rw [h3, h3'] at e1
    obtain rfl : y' = y := List.map_injective_iff.2 (Option.some_injective ℝ) e1
    exact hHg f t a _ hst h4
  · by_cases hex : ∃ f st s, GridFilter.subcomponentExtraction lib sc st f component pChoice L num mu cutOff
        steep = (.ok (), s)
    swap
    · exact ⟨0, 0, fun f st s _ h => absurd ⟨f, st, s, h⟩ hex⟩
    obtain ⟨f0, st0, s0, h0⟩ := hex
    obtain ⟨a0, ha0, -⟩ := record_ok h0
    obtain ⟨P, t0, resp, pts, h1, h2, -⟩ := extraction_inv ha0
    obtain ⟨H, g, hHg⟩ := applied_gain (lib := lib) (getPMatrix_psd h1) pts
      (pts.map (logisticFunction cutOff steep)) L
    refine ⟨H, g, fun f st s hst h => ?_⟩
    obtain ⟨a, ha, rfl⟩ := record_ok h
    obtain ⟨P', t, resp', pts', h1', h2', -, h4⟩ := extraction_inv ha
    obtain rfl : P' = P := Except.ok.inj (h1'.symm.trans h1)
    have e := Option.some.inj (Except.ok.inj (h2'.symm.trans h2))
    simp only [Prod.mk.injEq] at e
    obtain ⟨-, rfl⟩ := e
    exact hHg f t a _ hst h4

/-- C130: edge-flow denoising with parameters `mu >= 0`. -/
theorem C130_gain_edge_flow (hE : 0 < sc.E) (pChoice : String) (muVals : List ℝ) (hmu : ∀ m ∈ muVals, 0 ≤ m) :
    ∃ H g, ∀ f fTrue st s, st.Valid → edgeFlowDenoise lib sc st f fTrue pChoice muVals = (.ok (), s) →
      RecordsGain s.history f H g := by
  by_cases hex : (∃ P, sc.getPMatrix pChoice = .ok P) ∧ muVals ≠ []
  swap
  · refine ⟨0, 0, fun f t st s _ h => absurd ?_ hex⟩
    unfold edgeFlowDenoise edgeFlowDesign at h
    cases hP : sc.getPMatrix pChoice with
    | error e => rw [hP] at h; simp [bind, Except.bind] at h
    | ok P =>
      refine ⟨⟨P, rfl⟩, ?_⟩
      rintro rfl
      simp [hP, getEigendecomposition_dense lib hE, bind, Except.bind, pure, Except.pure] at h
  obtain ⟨⟨P, hP⟩, hne⟩ := hex
  have hps := getPMatrix_psd hP
  have hl := List.getLast?_eq_some_getLast hne
  set mu := muVals.getLast hne with hmudef
  have hmu0 : 0 ≤ mu := hmu mu (List.mem_of_getLast? hl)
  have hd := det_ne_zero_of_psd hps hmu0
  have hu : IsUnit (1 + mu • P).det := isUnit_iff_ne_zero.2 hd
  have hpos : ∀ k, 0 < 1 + mu * (lib.eigh sc.E P).1 k := fun k => by
    have := mul_nonneg hmu0 ((lib.isEig hps).nonneg hps k); linarith
  refine ⟨(1 + mu • P)⁻¹, fun k => 1 / (1 + mu * (lib.eigh sc.E P).1 k), fun f t st s hst h => ?_⟩
  obtain ⟨s1, H, q1, q2, q3, q4⟩ := C59_denoise (lib := lib) hE hP st hst f t muVals hmu mu hl
  obtain ⟨s2, r, errs, p1, p2, p3, -⟩ := C61_response (lib := lib) hE hP st hst f t muVals hmu hne _
    (eigh_isSpectrum lib hps)
  obtain rfl : s1 = s := congrArg Prod.snd (q1.symm.trans h)
  obtain rfl : s2 = s1 := congrArg Prod.snd (p1.symm.trans h)
  have hH : H = (1 + mu • P)⁻¹ := (Matrix.inv_eq_right_inv q4.1).symm
  subst hH
  refine ⟨q2, q3, ⟨r, p2, ?_⟩, (lib.isEig hps).gain ?_⟩
  · rw [p3, List.getLast?_map, hl]; rfl
  · have h1 : (1 + mu • P) * (lib.eigh sc.E P).2 =
        (lib.eigh sc.E P).2 * diagonal (fun i => 1 + mu * (lib.eigh sc.E P).1 i) := by
      rw [add_mul, one_mul, smul_mul_assoc, (lib.isEig hps).eig]
      refine Matrix.ext fun i j => ?_
      simp [Matrix.mul_diagonal]; ring
    have h2 : (lib.eigh sc.E P).2 = (1 + mu • P) * ((lib.eigh sc.E P).2 *
        diagonal fun k => 1 / (1 + mu * (lib.eigh sc.E P).1 k)) := by
      rw [← mul_assoc, h1, mul_assoc, diagonal_mul_diagonal]
      have : (fun i => (1 + mu * (lib.eigh sc.E P).1 i) * (1 / (1 + mu * (lib.eigh sc.E P).1 i))) =
          fun _ => (1 : ℝ) := by
        funext i; exact mul_one_div_cancel (hpos i).ne'
      rw [this, show (diagonal fun _ : Fin sc.E => (1 : ℝ)) = 1 from diagonal_one, mul_one]
    conv_lhs => rw [h2]
    rw [← mul_assoc, nonsing_inv_mul _ hu, one_mul]

/-- C130: so two runs of the same filter on flows that differ by noise give estimates that differ by at
most the gain times the noise. -/
theorem C130_noise (h h' : HDict E) (f f' : Fin E → ℝ) (H : Matrix (Fin E) (Fin E) ℝ) (g : Fin E → ℝ)
    (hr : RecordsGain h f H g) (hr' : RecordsGain h' f' H g) (G : ℝ) (hG : ∀ k, |g k| ≤ G) :
    ∃ x x', h.get? "f_estimated" = some (.vec x) ∧ h'.get? "f_estimated" = some (.vec x') ∧
      norm2 (x' - x) ≤ G * norm2 (f' - f) := by
  refine ⟨_, _, hr.2.1, hr'.2.1, ?_⟩
  rw [← mulVec_sub]
  exact hr.2.2.2.2 G hG _

/-! ## Component extraction -/

/-- C130: extracting a component never amplifies noise: the components of two flows are at most as far
apart as the flows. -/
theorem C130_components (hw : sc.WellFormed) (f f' : Fin sc.E → ℝ) (component : String) (a a' : Fin sc.E → ℝ)
    (h : sc.getComponentFlow lib f component false = .ok a)
    (h' : sc.getComponentFlow lib f' component false = .ok a') : norm2 (a' - a) ≤ norm2 (f' - f) := by
  obtain ⟨x, y, z, hp⟩ := HodgeParts.exists lib sc f
  obtain ⟨x', y', z', hp'⟩ := HodgeParts.exists lib sc f'
  have hd := C22_linear f' f x' x y' y z' z 1 (-1) hp' hp
  obtain ⟨-, -, -, he⟩ := C19_orthogonal hw _ _ _ _ hd
  have e : ∀ u v : Fin sc.E → ℝ, (1 : ℝ) • u + (-1 : ℝ) • v = u - v := by
    intro u v; rw [one_smul, neg_smul, one_smul, sub_eq_add_neg]
  simp only [e] at he
  have p1 := dot_self_nonneg (x' - x)
  have p2 := dot_self_nonneg (y' - y)
  have p3 := dot_self_nonneg (z' - z)
  apply Real.sqrt_le_sqrt
  have hc : component = "harmonic" ∨ component = "curl" ∨ component = "gradient" := by
    unfold SC.getComponentFlow at h
    split_ifs at h with h1 h2 h3
    · exact .inl h1
    · exact .inr (.inl h2)
    · exact .inr (.inr h3)
  rcases hc with rfl | rfl | rfl
  · rw [Except.ok.inj (h.symm.trans hp.harm), Except.ok.inj (h'.symm.trans hp'.harm)]; linarith
  · rw [Except.ok.inj (h.symm.trans hp.curl), Except.ok.inj (h'.symm.trans hp'.curl)]; linarith
  · rw [Except.ok.inj (h.symm.trans hp.grad), Except.ok.inj (h'.symm.trans hp'.grad)]; linarith

/-- C130: extraction removes the part of the noise that is of another kind.  If a flow consists of the
component alone, what is left of the noise after extraction is the component of the noise, and the parts
of the noise that were removed account for the rest of its energy. -/
theorem C130_removed (hw : sc.WellFormed) (f noise : Fin sc.E → ℝ) (component : String) (a r : Fin sc.E → ℝ)
    (hf : sc.getComponentFlow lib f component false = .ok f)
    (h : sc.getComponentFlow lib (f + noise) component false = .ok a)
    (hr : sc.getComponentFlow lib noise component false = .ok r) :
    a - f = r ∧ noise ⬝ᵥ noise = (a - f) ⬝ᵥ (a - f) + (noise - r) ⬝ᵥ (noise - r) := by
  obtain ⟨x, y, z, hp⟩ := HodgeParts.exists lib sc f
  obtain ⟨x', y', z', hp'⟩ := HodgeParts.exists lib sc noise
  have hd := C22_linear f noise x x' y y' z z' 1 1 hp hp'
  simp only [one_smul] at hd
  obtain ⟨o1, o2, o3, he⟩ := C19_orthogonal hw _ _ _ _ hp'
  have hs := C18_components_sum _ _ _ _ hp'
  have hc : component = "harmonic" ∨ component = "curl" ∨ component = "gradient" := by
    unfold SC.getComponentFlow at h
    split_ifs at h with h1 h2 h3
    · exact .inl h1
    · exact .inr (.inl h2)
    · exact .inr (.inr h3)
  rcases hc with rfl | rfl | rfl
  · have e1 := Except.ok.inj (h.symm.trans hd.harm)
    have e2 := Except.ok.inj (hf.symm.trans hp.harm)
    have e3 := Except.ok.inj (hr.symm.trans hp'.harm)
    have e4 : a - f = r := by rw [e1, e3]; nth_rw 1 [e2]; abel
    refine ⟨e4, ?_⟩
    rw [e4, e3, he, show noise - z' = x' + y' by rw [← hs]; abel, dot_add_sq, o1]; ring
  · have e1 := Except.ok.inj (h.symm.trans hd.curl)
    have e2 := Except.ok.inj (hf.symm.trans hp.curl)
    have e3 := Except.ok.inj (hr.symm.trans hp'.curl)
    have e4 : a - f = r := by rw [e1, e3]; nth_rw 1 [e2]; abel
    refine ⟨e4, ?_⟩
    rw [e4, e3, he, show noise - y' = x' + z' by rw [← hs]; abel, dot_add_sq, o2]; ring
  · have e1 := Except.ok.inj (h.symm.trans hd.grad)
    have e2 := Except.ok.inj (hf.symm.trans hp.grad)
    have e3 := Except.ok.inj (hr.symm.trans hp'.grad)
    have e4 : a - f = r := by rw [e1, e3]; nth_rw 1 [e2]; abel
    refine ⟨e4, ?_⟩
    rw [e4, e3, he, show noise - x' = y' + z' by rw [← hs]; abel, dot_add_sq, o3]; ring

/-! ## The hypotheses can be met -/

/-- the calls in C130 do return, e.g. the first least-squares filter and edge-flow denoising on a filled
triangle beside a hollow one, and the response they record is bounded -/
example (lib : NumLib) (f f' : Fin twoTri.E → ℝ) : ∃ L s s' H g,
    LSFilter.typeOne lib twoTri (initFilter _) f "harmonic" L = (.ok (), s) ∧
    LSFilter.typeOne lib twoTri (initFilter _) f' "harmonic" L = (.ok (), s') ∧
    RecordsGain s.history f H g ∧ RecordsGain s'.history f' H g ∧
    ∃ u, edgeFlowDenoise lib twoTri (initFilter _) f f "L1" [1 / 2] = (.ok (), u) := by
  have hg : NoSmallEigenvalue twoTri.L1 (1 / 1000) := by
    intro lam v hv h hl
    rcases twoTri_eigen hv h with rfl | rfl
    · linarith [hl.1]
    · linarith [hl.2]
  obtain ⟨x, y, z, hp⟩ := HodgeParts.exists lib twoTri f
  obtain ⟨x', y', z', hp'⟩ := HodgeParts.exists lib twoTri f'
  obtain ⟨s, r, -⟩ := C54_harmonic twoTri_wellFormed (by decide) hg (initFilter _) f z hp.harm _ le_rfl
  obtain ⟨s', r', -⟩ := C54_harmonic twoTri_wellFormed (by decide) hg (initFilter _) f' z' hp'.harm _ le_rfl
  obtain ⟨⟨H, g, k⟩, -⟩ := C130_gain (lib := lib) (sc := twoTri) "harmonic" "L1" _ 0 0 0 0 0
  obtain ⟨u, -, hu, -⟩ := C59_denoise (lib := lib) (sc := twoTri) (pChoice := "L1") (P := twoTri.L1) (by decide)
    (by simp [SC.getPMatrix]) (initFilter _) (by simp [FilterSt.Valid, initFilter]) f f [1 / 2]
    (by simp) (1 / 2) (by simp)
  exact ⟨_, s, s', H, g, r, r', k f _ s r, k f' _ s' r', u, hu⟩

end Pytspl
