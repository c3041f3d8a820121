import Verif.Model.Chebyshev
import Verif.Props.PolyFilters
import Verif.Props.ExactFilters
import Verif.Props.FilterHistory
import Verif.Lemmas.ConcreteEig
import Mathlib.RingTheory.Polynomial.Chebyshev

/-!
# C62-C65, C89, C90: Chebyshev filter design
-/

namespace Pytspl

open Matrix Polynomial

variable {lib : NumLib} {series : ChebSeries} {sc : SC ℝ} {E : ℕ}

/-- the Chebyshev series with the first `K` coefficients of the matrix `P` shifted and scaled by
`alpha` -/
noncomputable def chebSum (P : Matrix (Fin E) (Fin E) ℝ) (c : List ℝ) (alpha : ℝ) (K : ℕ) :
    Matrix (Fin E) (Fin E) ℝ :=
  ∑ k ∈ Finset.range K, c[k]?.getD 0 • aeval ((1 / alpha) • (P - alpha • (1 : Matrix (Fin E) (Fin E) ℝ)))
    (Chebyshev.T ℝ k)

/-! ## C62 -/

private theorem slot_eq (P : Matrix (Fin E) (Fin E) ℝ) (alpha : ℝ) (k : ℕ) :
    Cheb.slot P alpha k = aeval ((1 / alpha) • (P - alpha • (1 : Matrix (Fin E) (Fin E) ℝ)))
      (Chebyshev.T ℝ k) := by
  induction k using Nat.strong_induction_on with
  | _ k ih =>
    match k, ih with
    | 0, _ => simp [Cheb.slot]
    | 1, _ => simp [Cheb.slot]
    | k + 2, ih =>
      rw [Cheb.slot, ih (k + 1) (by omega), ih k (by omega)]
      have : ((k + 2 : ℕ) : ℤ) = (k : ℤ) + 2 := by push_cast; ring
      rw [this, Chebyshev.T_add_two, map_sub, map_mul, map_mul, aeval_X]
      push_cast
      congr 2
      have h2 : (2 : ℝ[X]) = 1 + 1 := by norm_num
      rw [div_eq_mul_one_div, mul_smul, two_smul, h2, map_add, map_one, Matrix.add_mul, Matrix.one_mul]

private theorem approximate_eq (P : Matrix (Fin E) (Fin E) ℝ) (c : List ℝ) (alpha : ℝ) (order : ℕ)
    (h : order ≤ c.length) (ha : alpha ≠ 0 ∨ order ≤ 1) :
    Cheb.approximate P c alpha order = .ok (chebSum P c alpha order) := by
  unfold Cheb.approximate
  have hK : (c.take order).length = order := by simp [h]
  simp only [hK, if_true]
  rw [if_neg]
  · congr 1
    unfold chebSum
    rw [Finset.sum_range]
    rw [← List.sum_ofFn]
    congr 1
    apply List.ext_getElem
    · simp
    · intro i h1 h2
      have hi : i < order := by simpa using h1
      simp [hi, slot_eq, List.getElem?_take]
  · rintro ⟨h1, h2⟩
    rcases ha with h3 | h3
    · exact h3 h2
    · omega

/-- C62: with enough coefficients the approximation of order `K` is
`sum_{k<K} c_k T_k((P - alpha I)/alpha)` with `T_k` the Chebyshev polynomials of the first kind. -/
theorem C62_series (P : Matrix (Fin E) (Fin E) ℝ) (c : List ℝ) (alpha : ℝ) (ha : alpha ≠ 0) (K : ℕ)
    (h : K ≤ c.length) :
    Cheb.approximate P c alpha K = .ok (∑ k ∈ Finset.range K,
      c[k]?.getD 0 • aeval ((1 / alpha) • (P - alpha • (1 : Matrix (Fin E) (Fin E) ℝ)))
        (Chebyshev.T ℝ k)) :=
  approximate_eq P c alpha K h (.inl ha)

private theorem chebSum_eig (P : Matrix (Fin E) (Fin E) ℝ) (c : List ℝ) (alpha : ℝ) (ha : alpha ≠ 0)
    (K : ℕ) {lam : ℝ} {v : Fin E → ℝ} (hv : P.mulVec v = lam • v) :
    (chebSum P c alpha K).mulVec v =
      (∑ k ∈ Finset.range K, c[k]?.getD 0 * (Chebyshev.T ℝ k).eval ((lam - alpha) / alpha)) • v := by
  have hs : ((1 / alpha) • (P - alpha • (1 : Matrix (Fin E) (Fin E) ℝ))).mulVec v =
      ((lam - alpha) / alpha) • v := by
    rw [smul_mulVec, sub_mulVec, smul_mulVec, one_mulVec, hv, ← sub_smul, smul_smul]
    congr 1; field_simp
  unfold chebSum
  rw [Matrix.sum_mulVec, Finset.sum_smul]
  refine Finset.sum_congr rfl fun k _ => ?_
  rw [smul_mulVec, aeval_eig _ _ hs, smul_smul]

/-- C62: so the filter multiplies every eigenvector for `lambda` by
`sum_{k<K} c_k T_k((lambda - alpha)/alpha)`. -/
theorem C62_response (P : Matrix (Fin E) (Fin E) ℝ) (c : List ℝ) (alpha : ℝ) (ha : alpha ≠ 0) (K : ℕ)
    (h : K ≤ c.length) (M : Matrix (Fin E) (Fin E) ℝ) (hM : Cheb.approximate P c alpha K = .ok M)
    (lam : ℝ) (v : Fin E → ℝ) (hv : P.mulVec v = lam • v) :
    M.mulVec v =
      (∑ k ∈ Finset.range K, c[k]?.getD 0 * (Chebyshev.T ℝ k).eval ((lam - alpha) / alpha)) • v := by
  rw [approximate_eq P c alpha K h (.inl ha)] at hM
  rw [← Except.ok.inj hM]
  exact chebSum_eig P c alpha ha K hv

/-- non-trivial instance: order 3 with coefficients 1, 2, 3 at the eigenvalue 3 of a filled triangle
beside a hollow one, `alpha = 3/2`: the response is `1 + 2 T_1(1) + 3 T_2(1) = 6` -/
example : ∃ M v, Cheb.approximate twoTri.L1l [1, 2, 3] (3 / 2) 3 = .ok M ∧ v ≠ 0 ∧
    M.mulVec v = (6 : ℝ) • v := by
  obtain ⟨v, hv, h⟩ := twoTri_lower_three
  have hM := C62_series twoTri.L1l [1, 2, 3] (3 / 2) (by norm_num) 3 (by simp)
  refine ⟨_, v, hM, hv, ?_⟩
  rw [C62_response _ _ _ (by norm_num) 3 (by simp) _ hM 3 v h]
  congr 1
  norm_num [Finset.sum_range_succ, Chebyshev.T_two]

/-! ## C63 -/

private theorem foldlM_ok {α β : Type} (l : List α) (b : β) (f : β → α → Py β) (g : β → α → β)
    (h : ∀ a ∈ l, ∀ b, f b a = .ok (g b a)) : l.foldlM f b = .ok (l.foldl g b) := by
  induction l generalizing b with
  | nil => rfl
  | cons a l ih =>
    rw [List.foldlM_cons, h a (by simp)]
    exact ih _ fun a' ha' => h a' (by simp [ha'])

private theorem assignFrom_fold (order : ℕ) (F : ℕ → Matrix (Fin E) (Fin E) ℝ)
    (H0 : List (Matrix (Fin E) (Fin E) ℝ)) (h0 : H0.length = order) (m : ℕ) :
    (List.range (m + 2)).foldl (fun H k => Cheb.assignFrom H k (F k)) H0 =
      (List.range order).map fun i => F (min (i + 1) (m + 1)) := by
  induction m with
  | zero =>
    simp only [List.range_succ, List.range_zero, List.nil_append, List.foldl_append, List.foldl_cons,
      List.foldl_nil, zero_add]
    apply List.ext_getElem
    · simp [Cheb.assignFrom, h0]
    · intro i h1 h2
      simp [Cheb.assignFrom]
  | succ m ih =>
    rw [List.range_succ, List.foldl_append, ih]
    apply List.ext_getElem
    · simp [Cheb.assignFrom]
    · intro i h1 h2
      simp only [Cheb.assignFrom, List.foldl_cons, List.foldl_nil, List.getElem_mapIdx,
        List.getElem_map, List.getElem_range]
      rw [if_neg (show ¬ (m + 2 = 0) by omega)]
      split_ifs with hi
      · congr 1; omega
      · congr 1; omega

private theorem frequencyApprox_ok {pChoice : String} {P : Matrix (Fin sc.E) (Fin sc.E) ℝ}
    (hP : sc.getPMatrix pChoice = .ok P) (coeffs : List ℝ) (alpha : ℝ) (order : ℕ)
    (F : ℕ → Matrix (Fin sc.E) (Fin sc.E) ℝ)
    (hF : ∀ k < order, Cheb.approximate P coeffs alpha (k + 1) = .ok (F k)) :
    Cheb.frequencyApprox sc pChoice coeffs alpha order =
      .ok ((List.range order).map fun i => F (min (i + 1) (order - 1))) := by
  unfold Cheb.frequencyApprox
  simp only [hP, bind, Except.bind]
  have h1 := foldlM_ok (List.range order) (List.replicate order 0)
    (fun H k => do
      let M ← Cheb.approximate P coeffs alpha (k + 1)
      pure (Cheb.assignFrom H k M)) (fun H k => Cheb.assignFrom H k (F k)) (by
      intro k hk b
      rw [hF k (List.mem_range.1 hk)]; rfl)
  refine h1.trans ?_
  congr 1
  match order with
  | 0 => rfl
  | 1 => simp [Cheb.assignFrom]
  | m + 2 => exact assignFrom_fold (m + 2) F _ (by simp) m

/-- inversion of `apply` -/
theorem chebApply_inv {st st' : FilterSt sc.E} {f : Fin sc.E → ℝ} {pChoice component : String} {L : ℕ}
    {n : Option ℕ} {cutOff steep : ℝ}
    (h : Cheb.apply lib series sc st f pChoice component L n cutOff steep = (.ok (), st')) :
    ∃ P fTrue mask lam coeffs HIdeal H,
      0 < sc.E ∧ sc.getPMatrix pChoice = .ok P ∧
      sc.getTrueSignal lib f component = .ok fTrue ∧
      sc.getComponentCoefficients lib component = .ok mask ∧
      lambdaMax P = some lam ∧
      series (if n.getD 0 = 0 then L else n.getD 0) 0 lam cutOff steep = .ok coeffs ∧
      Cheb.getIdealFrequency lib sc mask = .ok HIdeal ∧
      Cheb.frequencyApprox sc pChoice coeffs (lam / 2) L = .ok H ∧
      ¬ (sc.E = 1 ∧ 1 ≤ L) ∧
      st' = setHistory st
        { filter := .mats H
          fEstimated := .rows (H.map fun M => M.mulVec f)
          frequencyResponses := .rows (H.map fun M => (lib.eigh sc.E sc.L1).2.transpose.mulVec (M.mulVec f))
          extractedComponentError := .errs (H.map fun M => calculateErrorNRMSE (M.mulVec f) fTrue)
          filterError := .errs (H.map fun M => some (Cheb.specNorm (M - HIdeal))) } := by
  unfold Cheb.apply Cheb.applyDesign at h
  cases hU : getEigendecomposition lib (.ndarray sc.L1) with
  | error e => rw [hU] at h; cases h
  | ok Uw =>
  obtain ⟨U, w⟩ := Uw
  rw [hU] at h
  obtain ⟨hE, rfl, -⟩ := eig_ok hU
  cases hP : sc.getPMatrix pChoice with
  | error e => rw [hP] at h; cases h
  | ok P =>
  rw [hP] at h
  simp only [bind, Except.bind, getEigendecomposition_dense lib hE] at h
  cases hT : sc.getTrueSignal lib f component with
  | error e => rw [hT] at h; cases h
  | ok fTrue =>
  rw [hT] at h
  cases hm : sc.getComponentCoefficients lib component with
  | error e => rw [hm] at h; cases h
  | ok mask =>
  rw [hm] at h
  simp only [Cheb.getAlpha, hP, bind, Except.bind] at h
  cases hl : lambdaMax P with
  | none => rw [hl] at h; cases h
  | some lam =>
  rw [hl] at h
  simp only [pure, Except.pure] at h
  cases hs : series (if n.getD 0 = 0 then L else n.getD 0) 0 lam cutOff steep with
  | error e => rw [hs] at h; cases h
  | ok coeffs =>
  rw [hs] at h
  simp only at h
  cases hi : Cheb.getIdealFrequency lib sc mask with
  | error e => rw [hi] at h; cases h
  | ok HIdeal =>
  rw [hi] at h
  simp only at h
  cases hH : Cheb.frequencyApprox sc pChoice coeffs (lam / 2) L with
  | error e => rw [hH] at h; cases h
  | ok H =>
  rw [hH] at h
  simp only at h
  by_cases h1 : sc.E = 1 ∧ 1 ≤ L
  · rw [if_pos h1] at h; cases h
  · rw [if_neg h1] at h
    simp only at h
    exact ⟨P, fTrue, mask, lam, coeffs, HIdeal, H, hE, rfl, rfl, rfl, hl, hs, hi, hH, h1,
      (congrArg Prod.snd h).symm⟩

/-- what a successful call leaves: filters, estimates, their spectral coefficients, errors -/
theorem apply_history {st st' : FilterSt sc.E} (hst : st.Valid) {f : Fin sc.E → ℝ}
    {pChoice component : String} {L : ℕ} {n : Option ℕ} {cutOff steep : ℝ}
    (h : Cheb.apply lib series sc st f pChoice component L n cutOff steep = (.ok (), st')) :
    ∃ P lam coeffs H, sc.getPMatrix pChoice = .ok P ∧ lambdaMax P = some lam ∧
      series (if n.getD 0 = 0 then L else n.getD 0) 0 lam cutOff steep = .ok coeffs ∧
      Cheb.frequencyApprox sc pChoice coeffs (lam / 2) L = .ok H ∧
      st'.history.get? "filter" = some (.mats H) ∧
      st'.history.get? "f_estimated" = some (.rows (H.map fun M => M.mulVec f)) := by
  obtain ⟨P, fTrue, mask, lam, coeffs, HI, H, -, h1, -, -, h2, h3, -, h4, -, rfl⟩ := chebApply_inv h
  refine ⟨P, lam, coeffs, H, h1, h2, h3, h4, ?_, ?_⟩
  · rw [FilterSt.history, setHistory_cur, (setHistory_get st hst _).1]
  · rw [FilterSt.history, setHistory_cur, (setHistory_get st hst _).2.1]

/-- C63, the indexing as it is: after a successful `apply` for which the series has at least `L`
coefficients (and the estimate of the largest eigenvalue is not 0), there are `L` stored filters and
the `i`-th (from 0) is the Chebyshev series with `min (i+2) L` coefficients. -/
theorem C63_index {st st' : FilterSt sc.E} (hst : st.Valid) {f : Fin sc.E → ℝ}
    {pChoice component : String} {L : ℕ} {n : Option ℕ} {cutOff steep : ℝ}
    (h : Cheb.apply lib series sc st f pChoice component L n cutOff steep = (.ok (), st')) :
    ∃ P lam coeffs, sc.getPMatrix pChoice = .ok P ∧ lambdaMax P = some lam ∧
      series (if n.getD 0 = 0 then L else n.getD 0) 0 lam cutOff steep = .ok coeffs ∧
      (L ≤ coeffs.length → lam ≠ 0 →
        st'.history.get? "filter" = some (.mats ((List.range L).map fun i =>
          chebSum P coeffs (lam / 2) (min (i + 2) L)))) := by
  obtain ⟨P, lam, coeffs, H, h1, h2, h3, h4, h5, -⟩ := apply_history hst h
  refine ⟨P, lam, coeffs, h1, h2, h3, fun hL hlam => ?_⟩
  rw [frequencyApprox_ok h1 coeffs (lam / 2) L (fun k => chebSum P coeffs (lam / 2) (k + 1))
    fun k hk => approximate_eq _ _ _ _ (by omega) (.inl (by positivity))] at h4
  rw [h5, ← Except.ok.inj h4]
  congr 2
  apply List.map_congr_left
  intro i hi
  rw [List.mem_range] at hi
  congr 1
  omega

/-- C63 holds for the last stored filter only: it is the series with all `L` coefficients.  Missing: the
entries before it, which are shifted by one (`C63_index`, `C63_shifted`). -/
theorem C63_last_partial {st st' : FilterSt sc.E} (hst : st.Valid) {f : Fin sc.E → ℝ}
    {pChoice component : String} {L : ℕ} {n : Option ℕ} {cutOff steep : ℝ} (hL1 : 1 ≤ L)
    (h : Cheb.apply lib series sc st f pChoice component L n cutOff steep = (.ok (), st')) :
    ∃ P lam coeffs H, sc.getPMatrix pChoice = .ok P ∧ lambdaMax P = some lam ∧
      series (if n.getD 0 = 0 then L else n.getD 0) 0 lam cutOff steep = .ok coeffs ∧
      st'.history.get? "filter" = some (.mats H) ∧
      (L ≤ coeffs.length → lam ≠ 0 → H[L - 1]? = some (chebSum P coeffs (lam / 2) L)) := by
  obtain ⟨P, lam, coeffs, H, h1, h2, h3, h4, h5, -⟩ := apply_history hst h
  refine ⟨P, lam, coeffs, H, h1, h2, h3, h5, fun hL hlam => ?_⟩
  rw [frequencyApprox_ok h1 coeffs (lam / 2) L (fun k => chebSum P coeffs (lam / 2) (k + 1))
    fun k hk => approximate_eq _ _ _ _ (by omega) (.inl (by positivity))] at h4
  rw [← Except.ok.inj h4, List.getElem?_map, List.getElem?_range (by omega)]
  simp only [Option.map_some]
  congr 2
  omega

/-- C63 is false as stated: for `L >= 2` the first stored filter is the series with two coefficients, so
it differs from the one with a single coefficient whenever the second coefficient is not zero and `P` is
not `alpha I`. -/
theorem C63_shifted {st st' : FilterSt sc.E} (hst : st.Valid) {f : Fin sc.E → ℝ}
    {pChoice component : String} {L : ℕ} {n : Option ℕ} {cutOff steep : ℝ} (hL2 : 2 ≤ L)
    (h : Cheb.apply lib series sc st f pChoice component L n cutOff steep = (.ok (), st')) :
    ∃ P lam coeffs H, sc.getPMatrix pChoice = .ok P ∧ lambdaMax P = some lam ∧
      series (if n.getD 0 = 0 then L else n.getD 0) 0 lam cutOff steep = .ok coeffs ∧
      st'.history.get? "filter" = some (.mats H) ∧
      (L ≤ coeffs.length → lam ≠ 0 → coeffs[1]? ≠ some 0 →
        P ≠ (lam / 2) • (1 : Matrix (Fin sc.E) (Fin sc.E) ℝ) →
        H[0]? ≠ some (chebSum P coeffs (lam / 2) 1)) := by
  obtain ⟨P, lam, coeffs, H, h1, h2, h3, h4, h5, -⟩ := apply_history hst h
  refine ⟨P, lam, coeffs, H, h1, h2, h3, h5, fun hL hlam hc hP => ?_⟩
  rw [frequencyApprox_ok h1 coeffs (lam / 2) L (fun k => chebSum P coeffs (lam / 2) (k + 1))
    fun k hk => approximate_eq _ _ _ _ (by omega) (.inl (by positivity))] at h4
  rw [← Except.ok.inj h4, List.getElem?_map, List.getElem?_range (by omega)]
  simp only [Option.map_some, zero_add]
  rw [show min 1 (L - 1) + 1 = 2 by omega, chebSum, chebSum, Finset.sum_range_succ]
  intro he
  replace he := Option.some.inj he
  rw [add_eq_left] at he
  have h1' : 1 < coeffs.length := by omega
  rw [List.getElem?_eq_getElem h1'] at hc he
  simp only [Option.getD_some, Nat.cast_one, Chebyshev.T_one, aeval_X] at he
  rcases smul_eq_zero.1 he with h0 | h0
  · exact hc (by rw [h0])
  · rcases smul_eq_zero.1 h0 with h0 | h0
    · have : lam / 2 ≠ 0 := by positivity
      exact one_div_ne_zero this h0
    · exact hP (sub_eq_zero.1 h0)

/-! ## C64 -/

/-- C64: what happens when fewer coefficients are available than requested.  Two or more: `ValueError`.
Exactly one: it is broadcast, the result is `c_0 I`.  None: `ValueError`, except that order 1 gives the
zero matrix. -/
theorem C64_shortage (P : Matrix (Fin E) (Fin E) ℝ) (c : List ℝ) (alpha : ℝ) (order : ℕ)
    (h : c.length < order) :
    (2 ≤ c.length → Cheb.approximate P c alpha order = .error .valueError) ∧
    (∀ c0, c = [c0] → Cheb.approximate P c alpha order = .ok (c0 • 1)) ∧
    (c = [] → 2 ≤ order → Cheb.approximate P c alpha order = .error .valueError) ∧
    (c = [] → order = 1 → Cheb.approximate P c alpha order = .ok 0) := by
  have hK : c.take order = c := List.take_of_length_le (by omega)
  refine ⟨fun h2 => ?_, ?_, ?_, ?_⟩
  · unfold Cheb.approximate
    simp only [hK]
    rw [if_neg (by omega), if_neg (by omega), if_neg (by omega)]
  · rintro c0 rfl
    unfold Cheb.approximate
    simp only [hK]
    rw [if_neg (by omega), if_pos (by simp)]
    congr 1
    obtain ⟨m, rfl⟩ : ∃ m, order = m + 1 := ⟨order - 1, by omega⟩
    rw [List.range_succ_eq_map, List.map_cons, List.sum_cons, List.map_map]
    have : ((List.range m).map ((fun k => ([c0] : List ℝ)[0]?.getD 0 •
        (if k < ([c0] : List ℝ).length then Cheb.slot P alpha k else 0)) ∘ Nat.succ)).sum = 0 := by
      apply List.sum_eq_zero
      intro x hx
      rw [List.mem_map] at hx
      obtain ⟨k, -, rfl⟩ := hx
      simp
    rw [this]
    simp [Cheb.slot]
  · rintro rfl h2
    unfold Cheb.approximate
    simp only [hK]
    rw [if_neg (by simp; omega), if_neg (by simp), if_neg (by omega)]
  · rintro rfl rfl
    simp [Cheb.approximate]

private theorem foldlM_error {α β : Type} (l : List α) (b : β) (f : β → α → Py β) (e : PyErr)
    (h1 : ∀ a ∈ l, ∀ b, (∃ b', f b a = .ok b') ∨ f b a = .error e)
    (h2 : ∃ a ∈ l, ∀ b, f b a = .error e) : l.foldlM f b = .error e := by
  induction l generalizing b with
  | nil => obtain ⟨a, ha, -⟩ := h2; simp at ha
  | cons a l ih =>
    rw [List.foldlM_cons]
    rcases h1 a (by simp) b with ⟨b', hb⟩ | hb
    · rw [hb]
      refine ih _ (fun a' ha' => h1 a' (by simp [ha'])) ?_
      obtain ⟨a', ha', h⟩ := h2
      rcases List.mem_cons.1 ha' with rfl | h'
      · rw [h b] at hb; cases hb
      · exact ⟨a', h', h⟩
    · rw [hb]; rfl

/-- C64 for the whole stack: with a series of at least two but fewer than `L` coefficients
`get_chebyshev_frequency_approx` (hence `apply`) raises `ValueError`; with a single coefficient every
stored filter is `c_0 I`. -/
theorem C64_stack {pChoice : String} {P : Matrix (Fin sc.E) (Fin sc.E) ℝ}
    (hP : sc.getPMatrix pChoice = .ok P) (c : List ℝ) (alpha : ℝ) (ha : alpha ≠ 0) (L : ℕ) :
    (2 ≤ c.length → c.length < L →
      Cheb.frequencyApprox sc pChoice c alpha L = .error .valueError) ∧
    (∀ c0, c = [c0] → Cheb.frequencyApprox sc pChoice c alpha L = .ok (List.replicate L (c0 • 1))) := by
  constructor
  · intro h2 hL
    unfold Cheb.frequencyApprox
    simp only [hP, bind, Except.bind]
    refine foldlM_error _ _ _ _ ?_ ⟨c.length, List.mem_range.2 hL, fun b => ?_⟩
    · intro k _ b
      rcases le_or_gt (k + 1) c.length with h | h
      · left; rw [approximate_eq P c alpha (k + 1) h (.inl ha)]; exact ⟨_, rfl⟩
      · right; rw [(C64_shortage P c alpha (k + 1) h).1 h2]
    · rw [(C64_shortage P c alpha (c.length + 1) (by omega)).1 h2]
  · rintro c0 rfl
    rw [frequencyApprox_ok hP [c0] alpha L (fun _ => c0 • 1)]
    · congr 1
      rw [List.map_const', List.length_range]
    · intro k hk
      rcases Nat.eq_zero_or_pos k with rfl | hpos
      · rw [approximate_eq P [c0] alpha 1 (by simp) (.inl ha)]
        simp [chebSum]
      · exact (C64_shortage P [c0] alpha (k + 1) (by simpa using hpos)).2.1 c0 rfl

/-! ## C65 -/

private theorem ideal_eq (hE : 0 < sc.E) {mask : List ℝ} (hm : mask.length = sc.E) :
    Cheb.getIdealFrequency lib sc mask = .ok ((lib.eigh sc.E sc.L1).2 *
      diagonal (fun i : Fin sc.E => mask[(i : ℕ)]?.getD 0) * (lib.eigh sc.E sc.L1).2.transpose) := by
  unfold Cheb.getIdealFrequency
  have hP : sc.getPMatrix "L1" = .ok sc.L1 := by simp [SC.getPMatrix]
  simp only [hP, bind, Except.bind, getEigendecomposition_dense lib hE]
  rw [if_neg (by omega)]
  rfl

/-- the three ideal filters, obtained as `apply` does -/
structure IdealFilters (lib : NumLib) (sc : SC ℝ) (Hh Hc Hg : Matrix (Fin sc.E) (Fin sc.E) ℝ) : Prop where
  harm : ∃ m, sc.getComponentCoefficients lib "harmonic" = .ok m ∧ Cheb.getIdealFrequency lib sc m = .ok Hh
  curl : ∃ m, sc.getComponentCoefficients lib "curl" = .ok m ∧ Cheb.getIdealFrequency lib sc m = .ok Hc
  grad : ∃ m, sc.getComponentCoefficients lib "gradient" = .ok m ∧ Cheb.getIdealFrequency lib sc m = .ok Hg

/-- C65: with no Hodge eigenvalue in `(0, 1e-3]` the three ideal filters exist, are orthogonal
projectors (symmetric, idempotent, with product zero) that add up to the identity, and the harmonic one
returns the harmonic component of every flow. -/
theorem C65_harmonic (lib : NumLib) (hw : sc.WellFormed) (hE : 0 < sc.E)
    (hgap : NoSmallEigenvalue sc.L1 (1 / 1000)) :
    ∃ Hh Hc Hg, IdealFilters lib sc Hh Hc Hg ∧ Hh + Hc + Hg = 1 ∧
      (∀ H ∈ [Hh, Hc, Hg], H.transpose = H ∧ H * H = H) ∧ Hh * Hc = 0 ∧ Hh * Hg = 0 ∧ Hc * Hg = 0 ∧
      ∀ f h, sc.getComponentFlow lib f "harmonic" false = .ok h → Hh.mulVec f = h := by
  have hps := symmPSD_L1 sc
  have hU := getEigendecomposition_dense lib hE sc.L1 machineEps
  rw [snap_eq lib hps machineEps_le hgap] at hU
  obtain ⟨mh, mc, mg, m1, m2, m3, l1, l2, l3, hm, -⟩ := C49_masks hw hgap _ _ hU
  have h := lib.isEig hps
  set U := (lib.eigh sc.E sc.L1).2
  have hmul : ∀ a b : Fin sc.E → ℝ, U * diagonal a * U.transpose * (U * diagonal b * U.transpose) =
      U * diagonal (fun i => a i * b i) * U.transpose := by
    intro a b
    rw [← diagonal_mul_diagonal]
    calc U * diagonal a * U.transpose * (U * diagonal b * U.transpose)
        = U * diagonal a * (U.transpose * U) * diagonal b * U.transpose := by
          simp only [Matrix.mul_assoc]
      _ = _ := by rw [h.orth, Matrix.mul_one]; simp only [Matrix.mul_assoc]
  have hsymm : ∀ a : Fin sc.E → ℝ, (U * diagonal a * U.transpose).transpose = U * diagonal a * U.transpose := by
    intro a
    rw [transpose_mul, transpose_mul, transpose_transpose, diagonal_transpose, Matrix.mul_assoc]
  refine ⟨_, _, _, ⟨⟨mh, m1, ideal_eq hE l1⟩, ⟨mc, m2, ideal_eq hE l2⟩, ⟨mg, m3, ideal_eq hE l3⟩⟩,
    ?_, ?_, ?_, ?_, ?_, ?_⟩
  · rw [← Matrix.add_mul, ← Matrix.add_mul, ← Matrix.mul_add, ← Matrix.mul_add, diagonal_add, diagonal_add]
    have : (fun i : Fin sc.E => mh[(i : ℕ)]?.getD 0 + mc[(i : ℕ)]?.getD 0 + mg[(i : ℕ)]?.getD 0) =
        fun _ => 1 := by
      funext i
      rcases hm i with ⟨a, b, c, -⟩ | ⟨a, b, c, -⟩ | ⟨a, b, c, -⟩ <;> rw [a, b, c] <;> simp
    rw [this]
    have h1 : (diagonal fun _ : Fin sc.E => (1 : ℝ)) = 1 := diagonal_one
    rw [h1, Matrix.mul_one, h.orth']
  · intro H hH
    simp only [List.mem_cons, List.not_mem_nil, or_false] at hH
    rcases hH with rfl | rfl | rfl
    all_goals
      refine ⟨hsymm _, ?_⟩
      rw [hmul]
      congr 3
      funext i
      rcases hm i with ⟨a, b, c, -⟩ | ⟨a, b, c, -⟩ | ⟨a, b, c, -⟩ <;> simp [a, b, c]
  · rw [hmul]
    have : (fun i : Fin sc.E => mh[(i : ℕ)]?.getD 0 * mc[(i : ℕ)]?.getD 0) = fun _ => 0 := by
      funext i
      rcases hm i with ⟨a, b, c, -⟩ | ⟨a, b, c, -⟩ | ⟨a, b, c, -⟩ <;> simp [a, b]
    rw [this]; simp
  · rw [hmul]
    have : (fun i : Fin sc.E => mh[(i : ℕ)]?.getD 0 * mg[(i : ℕ)]?.getD 0) = fun _ => 0 := by
      funext i
      rcases hm i with ⟨a, b, c, -⟩ | ⟨a, b, c, -⟩ | ⟨a, b, c, -⟩ <;> simp [a, c]
    rw [this]; simp
  · rw [hmul]
    have : (fun i : Fin sc.E => mc[(i : ℕ)]?.getD 0 * mg[(i : ℕ)]?.getD 0) = fun _ => 0 := by
      funext i
      rcases hm i with ⟨a, b, c, -⟩ | ⟨a, b, c, -⟩ | ⟨a, b, c, -⟩ <;> simp [b, c]
    rw [this]; simp
  · intro f hf hh
    refine harmonic_of_eig hw h ?_ hh
    rw [Matrix.mul_assoc, h.orth, Matrix.mul_one]
    congr 2
    funext i
    rcases hm i with ⟨a, b, c, d⟩ | ⟨a, b, c, d, -⟩ | ⟨a, b, c, d, -⟩
    · simp [a, d]
    · simp [a, d.ne']
    · simp [a, d.ne']

/-- C65: if moreover the lower and the upper Laplacian share no non-zero eigenvalue, the curl and gradient
filters return the curl and gradient component of every flow. -/
theorem C65_gradient_curl (lib : NumLib) (hw : sc.WellFormed) (hE : 0 < sc.E)
    (hgap : NoSmallEigenvalue sc.L1 (1 / 1000)) (hns : NoSharedEigenvalue sc)
    (Hh Hc Hg : Matrix (Fin sc.E) (Fin sc.E) ℝ) (hI : IdealFilters lib sc Hh Hc Hg)
    (f : Fin sc.E → ℝ) :
    sc.getComponentFlow lib f "curl" false = .ok (Hc.mulVec f) ∧
    sc.getComponentFlow lib f "gradient" false = .ok (Hg.mulVec f) := by
  have hps := symmPSD_L1 sc
  have hU := getEigendecomposition_dense lib hE sc.L1 machineEps
  rw [snap_eq lib hps machineEps_le hgap] at hU
  obtain ⟨mh, mc, mg, m1, m2, m3, l1, l2, l3, hm, -⟩ := C49_masks hw hgap _ _ hU
  have h := lib.isEig hps
  obtain ⟨g, c, hf, hp⟩ := HodgeParts.exists lib sc f
  obtain ⟨-, ⟨mc', c1, c2⟩, ⟨mg', g1, g2⟩⟩ := hI
  rw [m2] at c1
  rw [m3] at g1
  rw [← Except.ok.inj c1, ideal_eq hE l2] at c2
  rw [← Except.ok.inj g1, ideal_eq hE l3] at g2
  rw [hp.curl, hp.grad, ← Except.ok.inj c2, ← Except.ok.inj g2]
  constructor
  · obtain ⟨e1, e2⟩ := upper_eig hw hns h (m := fun i => mc[(i : ℕ)]?.getD 0) (by
      intro i
      rcases hm i with ⟨a, b, c, d⟩ | ⟨a, b, c, d, e⟩ | ⟨a, b, c, d, e⟩
      · left; simp [b, d]
      · right; left; exact ⟨by simp [b], d.ne', e⟩
      · right; right; exact ⟨by simp [b], d.ne', e⟩)
    rw [curl_of_eig e1 _ hp.curl]
    rw [Matrix.mul_assoc, h.orth, Matrix.mul_one]
    conv_lhs => rw [e2]
  · obtain ⟨e1, e2⟩ := lower_eig hw hns h (m := fun i => mg[(i : ℕ)]?.getD 0) (by
      intro i
      rcases hm i with ⟨a, b, c, d⟩ | ⟨a, b, c, d, e⟩ | ⟨a, b, c, d, e⟩
      · left; simp [c, d]
      · right; left; exact ⟨by simp [c], d.ne', e⟩
      · right; right; exact ⟨by simp [c], d.ne', e⟩)
    rw [gradient_of_eig e1 _ hp.grad]
    rw [Matrix.mul_assoc, h.orth, Matrix.mul_one]
    conv_lhs => rw [e2]

/-- the hypotheses hold for the complete graph on four nodes with one filled triangle -/
example (lib : NumLib) (f : Fin k4Tri.E → ℝ) : ∃ Hh Hc Hg, IdealFilters lib k4Tri Hh Hc Hg ∧
    Hh + Hc + Hg = 1 ∧ k4Tri.getComponentFlow lib f "gradient" false = .ok (Hg.mulVec f) := by
  obtain ⟨Hh, Hc, Hg, h1, h2, -⟩ := C65_harmonic lib k4Tri_wellFormed (by decide) k4Tri_gap
  exact ⟨Hh, Hc, Hg, h1, h2, (C65_gradient_curl lib k4Tri_wellFormed (by decide) k4Tri_gap k4Tri_noShared
    _ _ _ h1 f).2⟩

/-! ## C89 -/

/-- C89: on a complex with a single edge `apply` never returns for a size of at least 1: the singleton
axes are squeezed away and the next matrix product raises.  The history is unchanged. -/
theorem C89_one_edge (hE : sc.E = 1) (st st' : FilterSt sc.E) (r : Py Unit) (f : Fin sc.E → ℝ)
    (pChoice component : String) (L : ℕ) (hL : 1 ≤ L) (n : Option ℕ) (cutOff steep : ℝ)
    (h : Cheb.apply lib series sc st f pChoice component L n cutOff steep = (r, st')) :
    (∃ e, r = .error e) ∧ st' = st := by
  cases r with
  | ok u =>
    obtain ⟨P, fTrue, mask, lam, coeffs, HI, H, -, -, -, -, -, -, -, -, h1, -⟩ := chebApply_inv h
    exact absurd ⟨hE, hL⟩ h1
  | error e =>
    refine ⟨⟨e, rfl⟩, ?_⟩
    unfold Cheb.apply at h
    cases hd : Cheb.applyDesign lib series sc f pChoice component L n cutOff steep with
    | error e' => rw [hd] at h; exact (congrArg Prod.snd h).symm
    | ok d => rw [hd] at h; cases h

/-! ## C90 -/

/-- C90: after a successful `apply` the stored lists all have `L` entries and belong together: the
estimates are the stored filters applied to the flow, the entries called frequency responses are the
coefficients of these estimates in the Hodge eigenbasis (of the same norm as the estimates), the errors
compare the estimates with the component, the filter errors the filters with the ideal filter. -/
theorem C90_history {st st' : FilterSt sc.E} (hst : st.Valid) {f : Fin sc.E → ℝ}
    {pChoice component : String} {L : ℕ} {n : Option ℕ} {cutOff steep : ℝ}
    (h : Cheb.apply lib series sc st f pChoice component L n cutOff steep = (.ok (), st')) :
    ∃ (H : List (Matrix (Fin sc.E) (Fin sc.E) ℝ)) (U : Matrix (Fin sc.E) (Fin sc.E) ℝ)
      (w fTrue : Fin sc.E → ℝ) (mask : List ℝ) (HIdeal : Matrix (Fin sc.E) (Fin sc.E) ℝ),
      H.length = L ∧ getEigendecomposition lib (.ndarray sc.L1) = .ok (U, w) ∧
      U.transpose * U = 1 ∧
      sc.getComponentFlow lib f component false = .ok fTrue ∧
      sc.getComponentCoefficients lib component = .ok mask ∧
      Cheb.getIdealFrequency lib sc mask = .ok HIdeal ∧
      st'.history.get? "filter" = some (.mats H) ∧
      st'.history.get? "f_estimated" = some (.rows (H.map fun M => M.mulVec f)) ∧
      st'.history.get? "frequency_responses" =
        some (.rows (H.map fun M => U.transpose.mulVec (M.mulVec f))) ∧
      st'.history.get? "extracted_component_error" =
        some (.errs (H.map fun M => calculateErrorNRMSE (M.mulVec f) fTrue)) ∧
      st'.history.get? "filter_error" =
        some (.errs (H.map fun M => some (Cheb.specNorm (M - HIdeal)))) := by
  obtain ⟨P, fTrue, mask, lam, coeffs, HI, H, hE, h1, hT, hM, h2, h3, hI, h4, -, rfl⟩ := chebApply_inv h
  obtain ⟨g1, g2, g3, g4, g5⟩ := setHistory_get st hst
    { filter := .mats H
      fEstimated := .rows (H.map fun M => M.mulVec f)
      frequencyResponses := .rows (H.map fun M => (lib.eigh sc.E sc.L1).2.transpose.mulVec (M.mulVec f))
      extractedComponentError := .errs (H.map fun M => calculateErrorNRMSE (M.mulVec f) fTrue)
      filterError := .errs (H.map fun M => some (Cheb.specNorm (M - HI))) }
  refine ⟨H, _, _, fTrue, mask, HI, ?_, getEigendecomposition_dense lib hE _ _,
    (lib.isEig (symmPSD_L1 sc)).orth, hT, hM, hI, ?_, ?_, ?_, ?_, ?_⟩
  · have hlen : ∀ (l : List ℕ) (H0 H1 : List (Matrix (Fin sc.E) (Fin sc.E) ℝ)),
        l.foldlM (fun H k => do
          let M ← Cheb.approximate P coeffs (lam / 2) (k + 1)
          pure (Cheb.assignFrom H k M)) H0 = Except.ok H1 → H1.length = H0.length := by
      intro l
      induction l with
      | nil => intro H0 H1 h; cases h; rfl
      | cons k l ih =>
        intro H0 H1 h
        rw [List.foldlM_cons] at h
        cases ha : Cheb.approximate P coeffs (lam / 2) (k + 1) with
        | error e => rw [ha] at h; cases h
        | ok M =>
          rw [ha] at h
          have := ih _ _ h
          rw [this]
          simp [Cheb.assignFrom]
    unfold Cheb.frequencyApprox at h4
    simp only [h1, bind, Except.bind] at h4
    have := hlen _ _ _ h4
    simpa using this
  · rw [FilterSt.history, setHistory_cur, g1]
  · rw [FilterSt.history, setHistory_cur, g2]
  · rw [FilterSt.history, setHistory_cur, g3]
  · rw [FilterSt.history, setHistory_cur, g4]
  · rw [FilterSt.history, setHistory_cur, g5]

/-! ## A call that returns -/

theorem tri_L1 : tri.L1 = (3 : ℝ) • (1 : Matrix (Fin tri.E) (Fin tri.E) ℝ) := by
  have h : triB1.transpose * triB1 + triB2 * triB2.transpose = 3 • (1 : Matrix (Fin 3) (Fin 3) ℤ) := by
    decide +kernel
  rw [tri, SC.ofInt_L1]
  have h2 := congrArg (fun M : Matrix (Fin 3) (Fin 3) ℤ => M.map (Int.cast : ℤ → ℝ)) h
  refine h2.trans ?_
  ext i j
  have : ((3 • (1 : Matrix (Fin 3) (Fin 3) ℤ)).map (Int.cast : ℤ → ℝ)) i j =
      (((3 : ℕ) • (1 : Matrix (Fin 3) (Fin 3) ℤ) i j : ℤ) : ℝ) := rfl
  rw [this]
  change _ = (3 : ℝ) * (1 : Matrix (Fin 3) (Fin 3) ℝ) i j
  rw [Matrix.one_apply, Matrix.one_apply]
  split_ifs <;> simp

/-- On a filled triangle `apply` returns for every size and every series routine that returns at least
`L` coefficients, provided the largest-eigenvalue estimate is not zero. -/
theorem chebApply_tri (lib : NumLib) (series : ChebSeries) (st : FilterSt tri.E) (f : Fin tri.E → ℝ)
    (L : ℕ) (lam : ℝ) (hl : lambdaMax tri.L1l = some lam) (hlam : lam ≠ 0) (coeffs : List ℝ)
    (hs : series L 0 lam (1 / 100) 100 = .ok coeffs) (hL : L ≤ coeffs.length) :
    ∃ st', Cheb.apply lib series tri st f "L1L" "gradient" L = (.ok (), st') := by
  have hgap : NoSmallEigenvalue tri.L1 (1 / 1000) := by
    intro mu v hv h hm
    rw [tri_L1, smul_mulVec, one_mulVec] at h
    have : (3 - mu) • v = 0 := by rw [sub_smul, h, sub_self]
    rcases smul_eq_zero.1 this with h | h
    · linarith [hm.2]
    · exact hv h
  have hE : 0 < tri.E := by decide
  obtain ⟨g, c, hf, hp⟩ := HodgeParts.exists lib tri f
  have hU := getEigendecomposition_dense lib hE tri.L1 machineEps
  rw [snap_eq lib (symmPSD_L1 tri) machineEps_le hgap] at hU
  obtain ⟨mh, mc, mg, m1, m2, m3, l1, l2, l3, -⟩ := C49_masks tri_wellFormed hgap _ _ hU
  have hP : tri.getPMatrix "L1L" = .ok tri.L1l := by simp [SC.getPMatrix]
  unfold Cheb.apply Cheb.applyDesign
  have hfr := frequencyApprox_ok hP coeffs (lam / 2) L (fun k => chebSum tri.L1l coeffs (lam / 2) (k + 1))
    fun k hk => approximate_eq _ _ _ _ (by omega) (.inl (by positivity))
  have hid := ideal_eq (lib := lib) hE l3
  simp only [bind, Except.bind, getEigendecomposition_dense lib hE, hP, SC.getTrueSignal, hp.grad, m3,
    Cheb.getAlpha, hl, pure, Except.pure, Option.getD_none, if_true, hs, hid, hfr]
  rw [if_neg (by rintro ⟨h, -⟩; revert h; decide)]
  exact ⟨_, rfl⟩

/-- the estimate is positive if the iterates are -/
theorem lambdaMax_pos {n : ℕ} (P : Matrix (Fin n) (Fin n) ℝ) (d : Fin n → ℝ) (s c : ℝ)
    (hs : 0 < s) (hc : 0 < c) (h1 : P.mulVec (fun _ => 1) = s • d) (h2 : P.mulVec d = c • d)
    (hd : ∀ i, 0 < d i) {lam : ℝ} (hl : lambdaMax P = some lam) : 0 < lam := by
  have hpow : ∀ k : ℕ, (P ^ (k + 1)).mulVec (fun _ => 1) = (s * c ^ k) • d := by
    intro k
    induction k with
    | zero => simpa using h1
    | succ k ih =>
      rw [pow_succ', ← mulVec_mulVec, ih, mulVec_smul, h2, smul_smul]
      congr 1; ring
  set t := s * c ^ 49 with htdef
  have ht : 0 < t := by positivity
  have hx : (P ^ 50).mulVec (fun _ => 1) = t • d := hpow 49
  rw [lambdaMax] at hl
  by_cases hne : (P ^ 50).mulVec (fun _ => 1) = 0
  · rw [(C50_power_iteration P 50 (by norm_num)).1 hne] at hl
    cases hl
  rw [(C50_power_iteration P 50 (by norm_num)).2 hne, hx] at hl
  simp only [Option.bind_eq_bind, Option.bind_some] at hl
  split_ifs at hl with h0
  simp only [Option.some.injEq] at hl
  push Not at h0
  have hn : 0 < n := Nat.pos_of_ne_zero h0.2
  set q := Real.sqrt ((t • d) ⬝ᵥ (t • d)) with hq
  have hqn : 0 ≤ q := Real.sqrt_nonneg _
  have hv : (fun i => (t • d) i / q + machineEps) = (t / q) • d + machineEps • fun _ => (1 : ℝ) := by
    funext i
    simp only [Pi.smul_apply, Pi.add_apply, smul_eq_mul, mul_one]
    ring
  rw [← hl]
  apply div_pos _ (by exact_mod_cast hn)
  apply Finset.sum_pos
  · intro i _
    rw [hv, mulVec_add, mulVec_smul, mulVec_smul, h1, h2]
    have he := machineEps_pos
    have h3 := hd i
    simp only [Pi.smul_apply, Pi.add_apply, smul_eq_mul, mul_one]
    have h4 : 0 ≤ t / q := by positivity
    apply div_pos <;> positivity
  · exact ⟨⟨0, hn⟩, Finset.mem_univ _⟩

theorem tri_lambdaMax_pos {lam : ℝ} (h : lambdaMax tri.L1l = some lam) : 0 < lam := by
  rw [tri, SC.ofInt_L1l] at h
  refine lambdaMax_pos (n := 3) ((triB1.transpose * triB1).map (Int.cast : ℤ → ℝ))
    (fun k => ((![1, 2, 1] : Fin 3 → ℤ) k : ℝ)) 2 3 (by norm_num) (by norm_num) ?_ ?_ ?_ h
  · have := mulVec_int (triB1.transpose * triB1) (fun _ => 1) (2 • ![1, 2, 1]) (by decide +kernel)
    have h1 : (fun _ : Fin 3 => ((1 : ℤ) : ℝ)) = fun _ => 1 := by funext; simp
    rw [h1] at this
    rw [this]
    funext k; fin_cases k <;> norm_num
  · have := mulVec_int (triB1.transpose * triB1) ![1, 2, 1] (3 • ![1, 2, 1]) (by decide +kernel)
    rw [this]
    funext k; fin_cases k <;> norm_num
  · intro i; fin_cases i <;> norm_num

/-- C63 is false: on a filled triangle, with any routine that returns `L >= 2` non-zero coefficients,
`apply` returns and the first stored filter is not the approximation with one coefficient. -/
theorem C63_counterexample (lib : NumLib) (series : ChebSeries) (st : FilterSt tri.E) (hst : st.Valid)
    (f : Fin tri.E → ℝ) (L : ℕ) (hL : 2 ≤ L)
    (hs : ∀ lam, ∃ coeffs, series L 0 lam (1 / 100) 100 = .ok coeffs ∧ coeffs.length = L ∧
      ∀ c ∈ coeffs, c ≠ 0) :
    ∃ st' lam coeffs H, Cheb.apply lib series tri st f "L1L" "gradient" L = (.ok (), st') ∧
      lambdaMax tri.L1l = some lam ∧ series L 0 lam (1 / 100) 100 = .ok coeffs ∧
      st'.history.get? "filter" = some (.mats H) ∧ H[0]? ≠ some (chebSum tri.L1l coeffs (lam / 2) 1) := by
  obtain ⟨lam, hl⟩ := tri_lambdaMax_lower
  have hlam := tri_lambdaMax_pos hl
  obtain ⟨coeffs, h1, h2, h3⟩ := hs lam
  obtain ⟨st', h4⟩ := chebApply_tri lib series st f L lam hl hlam.ne' coeffs h1 h2.ge
  obtain ⟨P, lam', coeffs', H, g1, g2, g3, g4, g5⟩ := C63_shifted hst hL h4
  have hP : tri.getPMatrix "L1L" = .ok tri.L1l := by simp [SC.getPMatrix]
  rw [hP] at g1
  obtain rfl := Except.ok.inj g1
  rw [hl] at g2
  obtain rfl := Option.some.inj g2
  simp only [Option.getD_none, if_true] at g3
  rw [h1] at g3
  obtain rfl := Except.ok.inj g3
  refine ⟨st', lam, coeffs, H, h4, hl, h1, g4, g5 h2.ge hlam.ne' ?_ ?_⟩
  · intro hc
    exact h3 0 (List.mem_of_getElem? hc) rfl
  · intro he
    have he' : ((triB1.transpose * triB1).map (Int.cast : ℤ → ℝ)) =
        (lam / 2) • (1 : Matrix (Fin 3) (Fin 3) ℝ) := by
      have e : tri.L1l = (triB1.transpose * triB1).map (Int.cast : ℤ → ℝ) := SC.ofInt_L1l
      exact e.symm.trans he
    have h5 := congrFun (congrFun he' 0) 1
    have h6 : ((triB1.transpose * triB1).map (Int.cast : ℤ → ℝ)) 0 1 = ((1 : ℤ) : ℝ) := by
      have : (triB1.transpose * triB1) 0 1 = 1 := by decide +kernel
      exact congrArg (Int.cast : ℤ → ℝ) this
    have h8 : ((lam / 2) • (1 : Matrix (Fin 3) (Fin 3) ℝ)) 0 1 = 0 := by simp
    have h7 := h6.symm.trans (h5.trans h8)
    norm_num at h7

end Pytspl
