import Verif.Props.FilterAccuracy

/-!
# C107: what the Chebyshev plots show
-/

namespace Pytspl

open Matrix Polynomial

variable {lib : NumLib} {series : ChebSeries} {sc : SC ℝ} {E : ℕ}

theorem evalSeries_T (lam x : ℝ) (hl : lam ≠ 0) (k : ℕ) :
    Cheb.evalSeries.T (2 * x / lam - 1) k = (Chebyshev.T ℝ k).eval ((x - lam / 2) / (lam / 2)) := by
  have e : (x - lam / 2) / (lam / 2) = 2 * x / lam - 1 := by field_simp
  rw [e]
  set t := 2 * x / lam - 1
  induction k using Nat.strong_induction_on with
  | _ k ih =>
    match k with
    | 0 => simp [Cheb.evalSeries.T]
    | 1 => simp [Cheb.evalSeries.T]
    | k + 2 =>
      rw [Cheb.evalSeries.T, ih (k + 1) (by omega), ih k (by omega)]
      have := Chebyshev.T_add_two ℝ (k : ℤ)
      push_cast
      rw [this]
      simp

theorem evalSeries_eq (coeffs : List ℝ) (lam x : ℝ) (hl : lam ≠ 0) :
    Cheb.evalSeries coeffs lam x = chebResponse coeffs lam coeffs.length x := by
  unfold Cheb.evalSeries chebResponse
  simp only [evalSeries_T lam x hl]
  rw [Finset.sum_range, ← List.sum_ofFn, List.ofFn_eq_map, ← List.map_coe_finRange_eq_range, List.map_map]
  rfl

/-- The horizontal coordinates of the plots: the eigenvalues in ascending order, those below machine precision shown as 0. -/
def ShownSpectrum (P : Matrix (Fin E) (Fin E) ℝ) (w : Fin E → ℝ) : Prop :=
  ∃ mu, IsSpectrum P mu ∧ ∀ k, w k = if |mu k| < machineEps then 0 else mu k

/-- C107: `plot_chebyshev_series_approx` draws, at every eigenvalue of the chosen Laplacian, the logistic function and the
sum of the Chebyshev series. -/
theorem C107_series (pChoice : String) (n : Option ℕ) (cutOff steep : ℝ) (a b : List (ℝ × ℝ))
    (h : Cheb.seriesPlotData lib series sc pChoice n cutOff steep = .ok (a, b)) :
    ∃ P lam coeffs w, sc.getPMatrix pChoice = .ok P ∧ lambdaMax P = some lam ∧ ShownSpectrum P w ∧
      series (if n.getD 0 = 0 then sc.E else n.getD 0) 0 lam cutOff steep = .ok coeffs ∧
      a = List.ofFn (fun k => (w k, logisticFunction cutOff steep (w k))) ∧
      (lam ≠ 0 → b = List.ofFn fun k => (w k, chebResponse coeffs lam coeffs.length (w k))) := by
  unfold Cheb.seriesPlotData at h
  cases hP : sc.getPMatrix pChoice with
  | error e => rw [hP] at h; cases h
  | ok P =>
    rcases Nat.eq_zero_or_pos sc.E with hE | hE
    · rw [hP] at h
      simp [bind, Except.bind, getEigendecomposition, hE] at h
    · simp only [hP, bind, Except.bind, getEigendecomposition_dense lib hE, Cheb.getAlpha] at h
      cases hl : lambdaMax P with
      | none => rw [hl] at h; cases h
      | some lam =>
        rw [hl] at h
        simp only [pure, Except.pure] at h
        cases hc : series (if n.getD 0 = 0 then sc.E else n.getD 0) 0 lam cutOff steep with
        | error e => rw [hc] at h; cases h
        | ok coeffs =>
          rw [hc] at h
          have h := Except.ok.inj h
          refine ⟨P, lam, coeffs, fun i => if |(lib.eigh sc.E P).1 i| < machineEps then 0 else (lib.eigh sc.E P).1 i,
            rfl, hl, ⟨_, eigh_isSpectrum lib (getPMatrix_psd hP), fun k => rfl⟩, hc, ?_, fun hl0 => ?_⟩
          · exact (congrArg Prod.fst h).symm
          · refine (congrArg Prod.snd h).symm.trans ?_
            change (List.ofFn _) = _
            simp only [evalSeries_eq _ _ _ hl0]

/-- C107: with a series of exactly `L` coefficients, the heights drawn for the series are the factors by which the last
filter stored by `apply` with the same parameters multiplies the eigenvectors. -/
theorem C107_series_is_filter {st st' : FilterSt sc.E} (hst : st.Valid) {f : Fin sc.E → ℝ} {pChoice component : String}
    {L : ℕ} (hL : 1 ≤ L) {cutOff steep : ℝ} (a b : List (ℝ × ℝ))
    (h : Cheb.seriesPlotData lib series sc pChoice (some L) cutOff steep = .ok (a, b))
    (h' : Cheb.apply lib series sc st f pChoice component L none cutOff steep = (.ok (), st'))
    (hlen : ∀ lam coeffs, series L 0 lam cutOff steep = .ok coeffs → coeffs.length = L)
    (P : Matrix (Fin sc.E) (Fin sc.E) ℝ) (hP : sc.getPMatrix pChoice = .ok P) (hl0 : lambdaMax P ≠ some 0) :
    ∃ H M, st'.history.get? "filter" = some (.mats H) ∧ H[L - 1]? = some M ∧
      ∀ x y v, (x, y) ∈ b → P.mulVec v = x • v → M.mulVec v = y • v := by
  obtain ⟨P', lam, coeffs, w, h1, h2, h3, h4, -, h6⟩ := C107_series pChoice (some L) cutOff steep a b h
  obtain rfl : P = P' := Except.ok.inj (hP.symm.trans h1)
  obtain ⟨P'', lam', coeffs', H, g1, g2, g3, g4, g5⟩ := C63_last_partial hst hL h'
  obtain rfl : P = P'' := Except.ok.inj (hP.symm.trans g1)
  obtain rfl : lam = lam' := Option.some.inj (h2.symm.trans g2)
  have hLe : (if (some L).getD 0 = 0 then sc.E else (some L).getD 0) = L := by
    simp; omega
  have hLe' : (if (none : Option ℕ).getD 0 = 0 then L else (none : Option ℕ).getD 0) = L := by simp
  rw [hLe] at h4
  rw [hLe'] at g3
  obtain rfl : coeffs = coeffs' := Except.ok.inj (h4.symm.trans g3)
  have hlc := hlen lam coeffs h4
  have hl : lam ≠ 0 := by rintro rfl; exact hl0 h2
  refine ⟨H, _, g4, g5 hlc.ge hl, fun x y v hxy hv => ?_⟩
  rw [h6 hl, hlc] at hxy
  obtain ⟨k, hk⟩ := (List.mem_ofFn' _ _).1 hxy
  have hx : w k = x := congrArg Prod.fst hk
  have hy : chebResponse coeffs lam L (w k) = y := congrArg Prod.snd hk
  have hs := C62_series P coeffs (lam / 2) (by positivity) L hlc.ge
  rw [← hy, hx]
  exact C62_response P coeffs (lam / 2) (by positivity) L hlc.ge _ hs x v hv

/-- C107: `plot_frequency_response_approx` after `apply` draws, over the Hodge eigenvalues, the coefficients of the true
component and of the last estimate; the squared distance between the two series is that between component and
estimate, so they coincide exactly if the estimate is the component. -/
theorem C107_response {st st' : FilterSt sc.E} (hst : st.Valid) {f flow : Fin sc.E → ℝ} {pChoice component component' : String}
    {L : ℕ} (hL : 1 ≤ L) {n : Option ℕ} {cutOff steep : ℝ}
    (h : Cheb.apply lib series sc st f pChoice component L n cutOff steep = (.ok (), st'))
    (hc : component' ∈ ["gradient", "curl", "harmonic"]) :
    ∃ (w s t fTrue : Fin sc.E → ℝ) (rows : List (Fin sc.E → ℝ)) (x : Fin sc.E → ℝ), Cheb.responsePlotData lib sc st' flow component' =
        .ok (List.ofFn fun k => (w k, s k), List.ofFn fun k => (w k, t k)) ∧
      ShownSpectrum sc.L1 w ∧ sc.getComponentFlow lib flow component' false = .ok fTrue ∧
      st'.history.get? "f_estimated" = some (.rows rows) ∧ rows.getLast? = some x ∧
      (∑ k, (s k - t k) ^ 2) = (fTrue - x) ⬝ᵥ (fTrue - x) ∧ (s = t ↔ x = fTrue) := by
  obtain ⟨H, U, w, fT, mask, HI, hlen, hE, hU, -, -, -, -, g2, g3, -, -⟩ := C90_history hst h
  obtain ⟨fTrue, hf⟩ := (C25_component_flow_names (lib := lib) (sc := sc) flow component' false 2).2 (by simpa using hc)
  have hH : H ≠ [] := by rintro rfl; simp at hlen; omega
  obtain ⟨M, hM⟩ : ∃ M, H.getLast? = some M := ⟨_, List.getLast?_eq_some_getLast hH⟩
  have hE0 : 0 < sc.E := by
    rcases Nat.eq_zero_or_pos sc.E with h0 | h0
    · simp [getEigendecomposition, h0] at hE
    · exact h0
  have hUU : U * U.transpose = 1 := mul_eq_one_comm.1 hU
  have hdist : ∀ y : Fin sc.E → ℝ, U.transpose.mulVec y ⬝ᵥ U.transpose.mulVec y = y ⬝ᵥ y := fun y => by
    rw [dot_mulVec_transpose, transpose_transpose, mulVec_mulVec, hUU, one_mulVec]
  have hsum : ∑ k, (U.transpose.mulVec fTrue k - U.transpose.mulVec (M.mulVec f) k) ^ 2 =
      (fTrue - M.mulVec f) ⬝ᵥ (fTrue - M.mulVec f) := by
    rw [← hdist, mulVec_sub]
    unfold dotProduct
    exact Finset.sum_congr rfl fun k _ => by rw [sq]; rfl
  refine ⟨w, U.transpose.mulVec fTrue, U.transpose.mulVec (M.mulVec f), fTrue, _, M.mulVec f, ?_, ?_, hf, g2,
    by rw [List.getLast?_map, hM]; rfl, hsum, ?_, ?_⟩
  · unfold Cheb.responsePlotData
    rw [g3]
    simp only [hE, bind, Except.bind, SC.getTrueSignal, hf, List.getLast?_map, hM, Option.map_some]
    rfl
  · rw [getEigendecomposition_dense lib hE0] at hE
    have := congrArg Prod.snd (Except.ok.inj hE)
    exact ⟨_, eigh_isSpectrum lib (symmPSD_L1 sc), fun k => (congrFun this k).symm⟩
  · intro hst
    rw [hst] at hsum
    simp only [sub_self] at hsum
    have h0 : (fTrue - M.mulVec f) ⬝ᵥ (fTrue - M.mulVec f) = 0 := by rw [← hsum]; simp
    exact (sub_eq_zero.1 (dotProduct_self_eq_zero.1 h0)).symm
  · intro hx
    rw [hx]

/-- C107: before any call of `apply` the plot raises `ValueError`. -/
theorem C107_before (lib : NumLib) (sc : SC ℝ) (flow : Fin sc.E → ℝ) (component : String) :
    Cheb.responsePlotData lib sc (initFilter _) flow component = .error .valueError := rfl

/-- C107: with `L = 0` nothing is stored and the plot raises `IndexError`. -/
theorem C107_empty {st st' : FilterSt sc.E} (hst : st.Valid) {f flow : Fin sc.E → ℝ} {pChoice component component' : String}
    {n : Option ℕ} {cutOff steep : ℝ} (h : Cheb.apply lib series sc st f pChoice component 0 n cutOff steep = (.ok (), st'))
    (hc : component' ∈ ["gradient", "curl", "harmonic"]) :
    Cheb.responsePlotData lib sc st' flow component' = .error .indexError := by
  obtain ⟨H, U, w, fT, mask, HI, hlen, hE, hU, -, -, -, -, g2, g3, -, -⟩ := C90_history hst h
  obtain ⟨fTrue, hf⟩ := (C25_component_flow_names (lib := lib) (sc := sc) flow component' false 2).2 (by simpa using hc)
  obtain rfl : H = [] := List.length_eq_zero_iff.1 hlen
  unfold Cheb.responsePlotData
  rw [g3]
  simp only [hE, bind, Except.bind, SC.getTrueSignal, hf]
  rfl

/-- C107: after `denoise`, the edge-flow denoising plot draws the ideal low-pass response `1/(1 + mu lambda)` of the last
parameter over the eigenvalues; before, it raises `ValueError`. -/
theorem C107_denoising (hE : 0 < sc.E) {pChoice : String} {P : Matrix (Fin sc.E) (Fin sc.E) ℝ}
    (hP : sc.getPMatrix pChoice = .ok P) (st : FilterSt sc.E) (hst : st.Valid) (f fTrue : Fin sc.E → ℝ) (muVals : List ℝ)
    (hmu : ∀ m ∈ muVals, 0 ≤ m) (mu : ℝ) (hl : muVals.getLast? = some mu) (spec : Fin sc.E → ℝ) (hs : IsSpectrum P spec) :
    edgeFlowPlotData lib sc (initFilter _) pChoice = .error .valueError ∧
    ∃ st' w, edgeFlowDenoise lib sc st f fTrue pChoice muVals = (.ok (), st') ∧ ShownSpectrum P w ∧
      edgeFlowPlotData lib sc st' pChoice = .ok (List.ofFn fun k => (w k, 1 / (1 + mu * spec k))) := by
  refine ⟨rfl, ?_⟩
  have hne : muVals ≠ [] := by rintro rfl; simp at hl
  obtain ⟨st', resp, errs, h1, h2, h3, -⟩ := C61_response (lib := lib) hE hP st hst f fTrue muVals hmu hne spec hs
  refine ⟨st', _, h1, ⟨_, eigh_isSpectrum lib (getPMatrix_psd hP), fun k => rfl⟩, ?_⟩
  unfold edgeFlowPlotData
  rw [h2]
  simp only [hP, bind, Except.bind, getEigendecomposition_dense lib hE, h3, List.getLast?_map, hl, Option.map_some]
  rfl

/-- On a filled triangle both plots can be drawn. -/
example (lib : NumLib) (series : ChebSeries) (f : Fin tri.E → ℝ)
    (hs : ∀ L lam, ∃ coeffs, series L 0 lam (1 / 100) 100 = .ok coeffs ∧ coeffs.length = L) :
    (∃ a b, Cheb.seriesPlotData lib series tri "L1L" (some 5) = .ok (a, b)) ∧
    ∃ st' a b, Cheb.apply lib series tri (initFilter _) f "L1L" "gradient" 5 = (.ok (), st') ∧
      Cheb.responsePlotData lib tri st' f "gradient" = .ok (a, b) := by
  obtain ⟨lam, hl⟩ := tri_lambdaMax_lower
  have hlam := tri_lambdaMax_pos hl
  obtain ⟨coeffs, h1, h2⟩ := hs 5 lam
  constructor
  · have hP : tri.getPMatrix "L1L" = .ok tri.L1l := by simp [SC.getPMatrix]
    unfold Cheb.seriesPlotData
    simp only [hP, bind, Except.bind, getEigendecomposition_dense lib (show 0 < tri.E by decide), Cheb.getAlpha, hl, pure,
      Except.pure, Option.getD_some, show (5 : ℕ) ≠ 0 by decide, if_false, h1]
    exact ⟨_, _, rfl⟩
  · obtain ⟨st', h⟩ := chebApply_tri lib series (initFilter _) f 5 lam hl hlam.ne' coeffs h1 h2.ge
    obtain ⟨w, s, t, _, _, _, h3, -⟩ := C107_response (component' := "gradient") (flow := f)
      (by simp [FilterSt.Valid, initFilter]) (by norm_num) h (by simp)
    exact ⟨st', _, _, h, h3⟩

end Pytspl
