import Verif.Props.Chebyshev
import Verif.Props.EdgeFlowLimit
import Mathlib.Analysis.Complex.ExponentialBounds

/-!
# C106: how well a filter with a given response extracts a component
-/

namespace Pytspl

open Matrix Polynomial

variable {lib : NumLib} {series : ChebSeries} {sc : SC ℝ} {E : ℕ}

/-! ## Specification -/

/-- The flow a high-pass filter on the given Laplacian is meant to extract: the gradient part for `L1L`, the curl part
for `L1U`, everything but the harmonic part for `L1` (on a consistently oriented complex). -/
def IsPassFlow (lib : NumLib) (sc : SC ℝ) (pChoice : String) (f y : Fin sc.E → ℝ) : Prop :=
  (pChoice = "L1L" ∧ sc.getComponentFlow lib f "gradient" false = .ok y) ∨
  (pChoice = "L1U" ∧ sc.getComponentFlow lib f "curl" false = .ok y) ∨
  (pChoice = "L1" ∧ sc.WellFormed ∧ ∃ h, sc.getComponentFlow lib f "harmonic" false = .ok h ∧ y = f - h)

/-- Value at `x` of the Chebyshev series with the first `K` coefficients, shifted from `[0, lam]` to `[-1, 1]`. -/
noncomputable def chebResponse (coeffs : List ℝ) (lam : ℝ) (K : ℕ) (x : ℝ) : ℝ :=
  ∑ k ∈ Finset.range K, coeffs[k]?.getD 0 * (Chebyshev.T ℝ k).eval ((x - lam / 2) / (lam / 2))

/-! ## Auxiliary facts -/

theorem IsEig.norm2_le {P U M : Matrix (Fin E) (Fin E) ℝ} {w d : Fin E → ℝ} (h : IsEig P U w)
    (hM : M * U = U * diagonal d) {delta : ℝ} (hd : ∀ i, |d i| ≤ delta) (f : Fin E → ℝ) :
    norm2 (M.mulVec f) ≤ delta * norm2 f := by
  rcases Nat.eq_zero_or_pos E with rfl | hE
  · have : ∀ v : Fin 0 → ℝ, norm2 v = 0 := fun v => by simp [norm2]
    rw [this, this, mul_zero]
  have hdel : 0 ≤ delta := (abs_nonneg _).trans (hd ⟨0, hE⟩)
  set a := U.transpose.mulVec f with ha
  have hf : f = U.mulVec a := by rw [ha, mulVec_mulVec, h.orth', one_mulVec]
  have hiso : ∀ x : Fin E → ℝ, U.mulVec x ⬝ᵥ U.mulVec x = x ⬝ᵥ x := fun x => by
    rw [dot_mulVec_transpose, mulVec_mulVec, h.orth, one_mulVec]
  have hMf : M.mulVec f = U.mulVec ((diagonal d).mulVec a) := by
    conv_lhs => rw [hf]
    rw [mulVec_mulVec, hM, ← mulVec_mulVec]
  unfold norm2
  rw [hMf, hiso]
  have hff : f ⬝ᵥ f = a ⬝ᵥ a := by
    conv_lhs => rw [hf]
    exact hiso a
  rw [hff]
  have hle : (diagonal d).mulVec a ⬝ᵥ (diagonal d).mulVec a ≤ delta ^ 2 * (a ⬝ᵥ a) := by
    unfold dotProduct
    rw [Finset.mul_sum]
    refine Finset.sum_le_sum fun i _ => ?_
    rw [mulVec_diagonal]
    have h1 := sq_le_sq' (abs_le.1 (hd i)).1 (abs_le.1 (hd i)).2
    nlinarith [mul_self_nonneg (a i)]
  calc Real.sqrt _ ≤ Real.sqrt (delta ^ 2 * (a ⬝ᵥ a)) := Real.sqrt_le_sqrt hle
    _ = delta * Real.sqrt (a ⬝ᵥ a) := by rw [Real.sqrt_mul (sq_nonneg _), Real.sqrt_sq hdel]

/-- A filter with response `r` on the eigenvectors of `P` misses the flow it should pass by at most the largest deviation
of `r` from the ideal response. -/
theorem response_error {pChoice : String} {P M : Matrix (Fin sc.E) (Fin sc.E) ℝ} (hP : sc.getPMatrix pChoice = .ok P)
    {r : ℝ → ℝ} (hM : ∀ lam v, P.mulVec v = lam • v → M.mulVec v = r lam • v) {f y : Fin sc.E → ℝ}
    (hy : IsPassFlow lib sc pChoice f y) {delta : ℝ}
    (hd : ∀ lam, IsEigenvalue P lam → |r lam - if lam = 0 then 0 else 1| ≤ delta) :
    norm2 (M.mulVec f - y) ≤ delta * norm2 f := by
  have h := lib.isEig (getPMatrix_psd hP)
  set U := (lib.eigh sc.E P).2 with hU
  set w := (lib.eigh sc.E P).1 with hw
  set Q : Matrix (Fin sc.E) (Fin sc.E) ℝ := U * diagonal (fun i => if w i = 0 then (0 : ℝ) else 1) * U.transpose with hQ
  have hQU : Q * U = U * diagonal fun i => if w i = 0 then (0 : ℝ) else 1 := by
    rw [hQ, Matrix.mul_assoc, h.orth, Matrix.mul_one]
  have hQf : Q.mulVec f = y := by
    rcases hy with ⟨rfl, hy⟩ | ⟨rfl, hy⟩ | ⟨rfl, hwf, h', hh, rfl⟩
    · obtain rfl : sc.L1l = P := Except.ok.inj hP
      exact gradient_of_eig h hQU hy
    · obtain rfl : sc.L1u = P := Except.ok.inj hP
      exact curl_of_eig h hQU hy
    · obtain rfl : sc.L1 = P := Except.ok.inj hP
      have h1 : (1 - Q) * U = U * diagonal fun i => if w i = 0 then (1 : ℝ) else 0 := by
        rw [sub_mul, hQU, one_mul]
        ext i j
        simp only [Matrix.sub_apply, mul_diagonal]
        split_ifs <;> simp
      have := harmonic_of_eig hwf h h1 hh
      rw [sub_mulVec, one_mulVec] at this
      rw [← this]; abel
  have hMU : M * U = U * diagonal fun i => r (w i) := by
    ext i j
    rw [mul_diagonal]
    have := congrFun (hM (w j) _ (h.col_eig j)) i
    rw [Pi.smul_apply, smul_eq_mul, mul_comm] at this
    exact this
  have hD : (M - Q) * U = U * diagonal fun i => (r (w i) - if w i = 0 then 0 else 1) := by
    rw [sub_mul, hMU, hQU]
    ext i j
    simp only [Matrix.sub_apply, mul_diagonal]
    ring
  rw [← hQf, ← sub_mulVec]
  exact h.norm2_le hD (fun i => hd _ ⟨_, h.col_ne_zero i, h.col_eig i⟩) f

/-- The last stored estimate of a successful call. -/
theorem cheb_last {st st' : FilterSt sc.E} (hst : st.Valid) {f : Fin sc.E → ℝ} {pChoice component : String} {L : ℕ}
    {n : Option ℕ} {cutOff steep : ℝ} (hL : 1 ≤ L)
    (h : Cheb.apply lib series sc st f pChoice component L n cutOff steep = (.ok (), st')) :
    ∃ P lam coeffs rows, sc.getPMatrix pChoice = .ok P ∧ lambdaMax P = some lam ∧
      series (if n.getD 0 = 0 then L else n.getD 0) 0 lam cutOff steep = .ok coeffs ∧
      st'.history.get? "f_estimated" = some (.rows rows) ∧
      (L ≤ coeffs.length → lam ≠ 0 → ∃ M : Matrix (Fin sc.E) (Fin sc.E) ℝ, rows[L - 1]? = some (M.mulVec f) ∧
        ∀ x v, P.mulVec v = x • v → M.mulVec v = chebResponse coeffs lam L x • v) := by
  obtain ⟨P, lam, coeffs, H, h1, h2, h3, h4, h5⟩ := C63_last_partial hst hL h
  obtain ⟨H', U, w, fTrue, mask, HI, -, -, -, -, -, -, g1, g2, -, -, -⟩ := C90_history hst h
  rw [h4] at g1
  obtain rfl : H = H' := by
    have := Option.some.inj g1
    injection this
  refine ⟨P, lam, coeffs, _, h1, h2, h3, g2, fun hc hl => ?_⟩
  have h6 := h5 hc hl
  refine ⟨chebSum P coeffs (lam / 2) L, by rw [List.getElem?_map, h6]; rfl, fun x v hv => ?_⟩
  have hs := C62_series P coeffs (lam / 2) (by positivity) L hc
  exact C62_response P coeffs (lam / 2) (by positivity) L hc _ hs x v hv

/-! ## C106 -/

/-- C106: if the Chebyshev series is within `delta` of the ideal response (0 at the eigenvalue 0, 1 at the others) on the
spectrum of the chosen Laplacian, the final estimate is within `delta |f|` of the part of the flow that Laplacian sees. -/
theorem C106_accuracy {st st' : FilterSt sc.E} (hst : st.Valid) {f y : Fin sc.E → ℝ} {pChoice component : String} {L : ℕ}
    {n : Option ℕ} {cutOff steep : ℝ} (hL : 1 ≤ L)
    (h : Cheb.apply lib series sc st f pChoice component L n cutOff steep = (.ok (), st'))
    (hy : IsPassFlow lib sc pChoice f y) :
    ∃ P lam coeffs rows, sc.getPMatrix pChoice = .ok P ∧ lambdaMax P = some lam ∧
      series (if n.getD 0 = 0 then L else n.getD 0) 0 lam cutOff steep = .ok coeffs ∧
      st'.history.get? "f_estimated" = some (.rows rows) ∧
      (L ≤ coeffs.length → lam ≠ 0 → ∃ x, rows[L - 1]? = some x ∧
        ∀ delta, (∀ mu, IsEigenvalue P mu → |chebResponse coeffs lam L mu - if mu = 0 then 0 else 1| ≤ delta) →
          norm2 (x - y) ≤ delta * norm2 f) := by
  obtain ⟨P, lam, coeffs, rows, h1, h2, h3, h4, h5⟩ := cheb_last hst hL h
  refine ⟨P, lam, coeffs, rows, h1, h2, h3, h4, fun hc hl => ?_⟩
  obtain ⟨M, h6, h7⟩ := h5 hc hl
  exact ⟨_, h6, fun delta hd => response_error h1 h7 hy hd⟩

/-- The ideal response is within `eps + max (1/(1+e^(s c))) (1/(1+e^(s (gap-c))))` of any function that is within `eps` of
the logistic function at 0 and beyond the spectral gap. -/
theorem C106_logistic {cutOff steep gap eps x v : ℝ} (hs : 0 < steep) (hx : x = 0 ∨ gap ≤ x)
    (hv : |v - logisticFunction cutOff steep x| ≤ eps) :
    |v - if x = 0 then 0 else 1| ≤
      eps + max (1 / (1 + Real.exp (steep * cutOff))) (1 / (1 + Real.exp (steep * (gap - cutOff)))) := by
  have hb := abs_le.1 hv
  have hm1 := le_max_left (1 / (1 + Real.exp (steep * cutOff))) (1 / (1 + Real.exp (steep * (gap - cutOff))))
  have hm2 := le_max_right (1 / (1 + Real.exp (steep * cutOff))) (1 / (1 + Real.exp (steep * (gap - cutOff))))
  have hp0 : 0 < 1 / (1 + Real.exp (steep * cutOff)) := by positivity
  split_ifs with h0
  · subst h0
    have e : logisticFunction cutOff steep 0 = 1 / (1 + Real.exp (steep * cutOff)) := by
      unfold logisticFunction
      congr 3; ring
    rw [e] at hb
    rw [abs_le]
    constructor <;> linarith
  · have hx := hx.resolve_left h0
    have e : 1 - logisticFunction cutOff steep x = 1 / (1 + Real.exp (steep * (x - cutOff))) := by
      unfold logisticFunction
      have e1 : -steep * (x - cutOff) = -(steep * (x - cutOff)) := by ring
      rw [e1, Real.exp_neg]
      have := Real.exp_pos (steep * (x - cutOff))
      field_simp
      ring
    have hle : 1 / (1 + Real.exp (steep * (x - cutOff))) ≤ 1 / (1 + Real.exp (steep * (gap - cutOff))) := by
      apply one_div_le_one_div_of_le (by positivity)
      have : Real.exp (steep * (gap - cutOff)) ≤ Real.exp (steep * (x - cutOff)) := by
        apply Real.exp_le_exp.2
        apply mul_le_mul_of_nonneg_left _ hs.le
        linarith
      linarith
    have hp : 0 < 1 / (1 + Real.exp (steep * (x - cutOff))) := by positivity
    rw [abs_le]
    constructor <;> linarith

/-- C106: the stored filters and estimates do not depend on the component asked for (only the recorded errors do). -/
theorem C106_component_ignored {st st' st'' : FilterSt sc.E} (hst : st.Valid) {f : Fin sc.E → ℝ}
    {pChoice component component' : String} {L : ℕ} {n : Option ℕ} {cutOff steep : ℝ}
    (h : Cheb.apply lib series sc st f pChoice component L n cutOff steep = (.ok (), st'))
    (h' : Cheb.apply lib series sc st f pChoice component' L n cutOff steep = (.ok (), st'')) :
    st'.history.get? "filter" = st''.history.get? "filter" ∧
    st'.history.get? "f_estimated" = st''.history.get? "f_estimated" := by
  obtain ⟨P, lam, coeffs, H, h1, h2, h3, h4, h5, h6⟩ := apply_history hst h
  obtain ⟨P', lam', coeffs', H', g1, g2, g3, g4, g5, g6⟩ := apply_history hst h'
  obtain rfl : P = P' := Except.ok.inj (h1.symm.trans g1)
  obtain rfl : lam = lam' := Option.some.inj (h2.symm.trans g2)
  obtain rfl : coeffs = coeffs' := Except.ok.inj (h3.symm.trans g3)
  obtain rfl : H = H' := Except.ok.inj (h4.symm.trans g4)
  exact ⟨h5.trans g5.symm, h6.trans g6.symm⟩

/-- C106: what a flow the chosen Laplacian does not see is multiplied by. -/
theorem C106_leak {st st' : FilterSt sc.E} (hst : st.Valid) {f : Fin sc.E → ℝ} {pChoice component : String} {L : ℕ}
    {n : Option ℕ} {cutOff steep : ℝ} (hL : 1 ≤ L) {P : Matrix (Fin sc.E) (Fin sc.E) ℝ}
    (hP : sc.getPMatrix pChoice = .ok P) (hf : P.mulVec f = 0)
    (h : Cheb.apply lib series sc st f pChoice component L n cutOff steep = (.ok (), st')) :
    ∃ lam coeffs rows, lambdaMax P = some lam ∧
      series (if n.getD 0 = 0 then L else n.getD 0) 0 lam cutOff steep = .ok coeffs ∧
      st'.history.get? "f_estimated" = some (.rows rows) ∧
      (L ≤ coeffs.length → lam ≠ 0 → rows[L - 1]? = some (chebResponse coeffs lam L 0 • f)) := by
  obtain ⟨P', lam, coeffs, rows, h1, h2, h3, h4, h5⟩ := cheb_last hst hL h
  obtain rfl : P = P' := Except.ok.inj (hP.symm.trans h1)
  refine ⟨lam, coeffs, rows, h2, h3, h4, fun hc hl => ?_⟩
  obtain ⟨M, h6, h7⟩ := h5 hc hl
  rw [h6, h7 0 f (by rw [hf, zero_smul])]

theorem default_leak {eps r : ℝ} (hr : |r - logisticFunction (1 / 100) 100 0| ≤ eps) (f : Fin E → ℝ) :
    (1 / 4 - eps) * norm2 f ≤ norm2 (r • f) := by
  have e : logisticFunction (1 / 100) 100 0 = 1 / (1 + Real.exp 1) := by
    unfold logisticFunction
    congr 3; norm_num
  have h1 : (1 : ℝ) / 4 ≤ 1 / (1 + Real.exp 1) := by
    apply one_div_le_one_div_of_le (by positivity)
    have := Real.exp_one_lt_three
    linarith
  rw [norm2_smul]
  refine mul_le_mul_of_nonneg_right ?_ (Real.sqrt_nonneg _)
  have := abs_le.1 hr
  have := le_abs_self r
  rw [e] at *
  linarith

/-- C106: with the default cut-off and steepness a flow that should be removed entirely is kept to more than a quarter,
up to the error `eps` of the series at 0: the logistic function is not small there. -/
theorem C106_default_leak {st st' : FilterSt sc.E} (hst : st.Valid) {f : Fin sc.E → ℝ} {pChoice component : String} {L : ℕ}
    {n : Option ℕ} (hL : 1 ≤ L) {P : Matrix (Fin sc.E) (Fin sc.E) ℝ}
    (hP : sc.getPMatrix pChoice = .ok P) (hf : P.mulVec f = 0)
    (h : Cheb.apply lib series sc st f pChoice component L n = (.ok (), st')) :
    ∃ lam coeffs rows, lambdaMax P = some lam ∧
      series (if n.getD 0 = 0 then L else n.getD 0) 0 lam (1 / 100) 100 = .ok coeffs ∧
      st'.history.get? "f_estimated" = some (.rows rows) ∧
      (L ≤ coeffs.length → lam ≠ 0 → ∃ x, rows[L - 1]? = some x ∧
        ∀ eps, |chebResponse coeffs lam L 0 - logisticFunction (1 / 100) 100 0| ≤ eps →
          (1 / 4 - eps) * norm2 f ≤ norm2 x) := by
  obtain ⟨lam, coeffs, rows, h1, h2, h3, h4⟩ := C106_leak hst hL hP hf h
  exact ⟨lam, coeffs, rows, h1, h2, h3, fun hc hl => ⟨_, h4 hc hl, fun eps he => default_leak he f⟩⟩

/-- The hypotheses are met on a filled triangle: `apply` succeeds for every flow, e.g. one without gradient part, and
every routine returning enough coefficients. -/
example (lib : NumLib) (series : ChebSeries) (f : Fin tri.E → ℝ) (L : ℕ) (_hL : 1 ≤ L)
    (hs : ∀ lam, ∃ coeffs, series L 0 lam (1 / 100) 100 = .ok coeffs ∧ coeffs.length = L) :
    (∃ st', Cheb.apply lib series tri (initFilter _) f "L1L" "gradient" L = (.ok (), st')) ∧
    (∃ lam, lambdaMax tri.L1l = some lam ∧ lam ≠ 0) ∧ ∃ y, IsPassFlow lib tri "L1L" f y := by
  obtain ⟨lam, hl⟩ := tri_lambdaMax_lower
  have hlam := tri_lambdaMax_pos hl
  obtain ⟨coeffs, h1, h2⟩ := hs lam
  obtain ⟨g, c, h, hp⟩ := HodgeParts.exists lib tri f
  exact ⟨chebApply_tri lib series _ f L lam hl hlam.ne' coeffs h1 h2.ge, ⟨lam, hl, hlam.ne'⟩, g, Or.inl ⟨rfl, hp.grad⟩⟩

end Pytspl
