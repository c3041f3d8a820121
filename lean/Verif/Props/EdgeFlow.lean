import Verif.Model.EdgeFlowDenoising
import Verif.Props.PolyFilters
import Verif.Lemmas.PyList
import Verif.Lemmas.ConcreteEig

/-!
# C59-C61: edge-flow denoising
-/

namespace Pytspl

open Matrix

variable {lib : NumLib} {sc : SC ℝ} {E : ℕ}

private theorem det_zero_iff (P : Matrix (Fin E) (Fin E) ℝ) (mu : ℝ) :
    (1 + mu • P).det = 0 ↔ ∃ lam, IsEigenvalue P lam ∧ 1 + mu * lam = 0 := by
  rw [← exists_mulVec_eq_zero_iff]
  constructor
  · rintro ⟨v, hv, h⟩
    rw [add_mulVec, one_mulVec, smul_mulVec] at h
    have hmu : mu ≠ 0 := by
      rintro rfl
      rw [zero_smul, add_zero] at h
      exact hv h
    refine ⟨-(1 / mu), ⟨v, hv, ?_⟩, by field_simp; ring⟩
    have h2 : mu • P.mulVec v = -v := by rw [eq_neg_iff_add_eq_zero, add_comm]; exact h
    have h3 := congrArg (fun x => (1 / mu) • x) h2
    simp only [smul_smul, one_div, inv_mul_cancel₀ hmu, one_smul, smul_neg] at h3
    rw [h3, one_div, neg_smul]
  · rintro ⟨lam, ⟨v, hv, h⟩, h0⟩
    refine ⟨v, hv, ?_⟩
    rw [add_mulVec, one_mulVec, smul_mulVec, h, smul_smul]
    have : v + (mu * lam) • v = (1 + mu * lam) • v := by rw [add_smul, one_smul]
    rw [this, h0, zero_smul]

private theorem eigenvalue_nonneg {P : Matrix (Fin E) (Fin E) ℝ} (hP : SymmPSD P) {lam : ℝ}
    (h : IsEigenvalue P lam) : 0 ≤ lam := by
  obtain ⟨v, hv, h⟩ := h
  have h1 := hP.2 v
  rw [h, dotProduct_smul, smul_eq_mul] at h1
  have h2 : 0 < v ⬝ᵥ v := lt_of_le_of_ne (dot_self_nonneg v) fun h0 => hv (dotProduct_self_eq_zero.1 h0.symm)
  by_contra hn
  push Not at hn
  have := mul_neg_of_neg_of_pos hn h2
  linarith

theorem det_ne_zero_of_psd {P : Matrix (Fin E) (Fin E) ℝ} (hP : SymmPSD P) {mu : ℝ} (hmu : 0 ≤ mu) :
    (1 + mu • P).det ≠ 0 := by
  intro h
  obtain ⟨lam, hl, h0⟩ := (det_zero_iff P mu).1 h
  have := mul_nonneg hmu (eigenvalue_nonneg hP hl)
  linarith

/-- what one pass computes -/
private noncomputable def passOf (P U : Matrix (Fin E) (Fin E) ℝ) (f fTrue : Fin E → ℝ) (mu : ℝ) : MuPass E :=
  ⟨(1 + mu • P)⁻¹, ((1 + mu • P)⁻¹).mulVec f, calculateErrorNRMSE (((1 + mu • P)⁻¹).mulVec f) fTrue,
    fun k => (U.transpose * (1 + mu • P)⁻¹ * U) k k⟩

private theorem muPass_eq (P U : Matrix (Fin E) (Fin E) ℝ) (f fTrue : Fin E → ℝ) (mu : ℝ) :
    muPass P U f fTrue mu = if (1 + mu • P).det = 0 then .error .linAlgError
      else .ok (passOf P U f fTrue mu) := by
  unfold muPass npInv
  split_ifs <;> rfl

private noncomputable def designOf (P U : Matrix (Fin E) (Fin E) ℝ) (f fTrue : Fin E → ℝ)
    (muVals : List ℝ) (mu : ℝ) : Design E :=
  ⟨.mat (passOf P U f fTrue mu).H, .vec (passOf P U f fTrue mu).fEst,
    .rows ((muVals.map (passOf P U f fTrue)).map (·.resp)),
    .errs ((muVals.map (passOf P U f fTrue)).map (·.err)), .errs []⟩

private theorem design_ok (hE : 0 < sc.E) {pChoice : String} {P : Matrix (Fin sc.E) (Fin sc.E) ℝ}
    (hP : sc.getPMatrix pChoice = .ok P) (f fTrue : Fin sc.E → ℝ) (muVals : List ℝ) (mu : ℝ)
    (hd : ∀ m ∈ muVals, (1 + m • P).det ≠ 0) (hl : muVals.getLast? = some mu) :
    edgeFlowDesign lib sc f fTrue pChoice muVals =
      .ok (designOf P (lib.eigh sc.E P).2 f fTrue muVals mu) := by
  unfold edgeFlowDesign
  have hm : muVals.mapM (muPass P (lib.eigh sc.E P).2 f fTrue) =
      .ok (muVals.map (passOf P (lib.eigh sc.E P).2 f fTrue)) :=
    mapM_ok _ _ _ fun m h => by rw [muPass_eq, if_neg (hd m h)]
  simp only [hP, bind, Except.bind, getEigendecomposition_dense lib hE, hm, List.getLast?_map, hl,
    Option.map_some]
  rfl

private theorem denoise_ok (hE : 0 < sc.E) {pChoice : String} {P : Matrix (Fin sc.E) (Fin sc.E) ℝ}
    (hP : sc.getPMatrix pChoice = .ok P) (st : FilterSt sc.E) (f fTrue : Fin sc.E → ℝ) (muVals : List ℝ)
    (mu : ℝ) (hd : ∀ m ∈ muVals, (1 + m • P).det ≠ 0) (hl : muVals.getLast? = some mu) :
    edgeFlowDenoise lib sc st f fTrue pChoice muVals =
      (.ok (), setHistory st (designOf P (lib.eigh sc.E P).2 f fTrue muVals mu)) := by
  rw [edgeFlowDenoise, design_ok hE hP f fTrue muVals mu hd hl]

/-! ## C59 -/

/-- The properties of a denoising filter for parameter `mu`: it solves `(I + mu P) H = I`, is symmetric,
never increases the norm of a flow, and keeps the flows in the kernel of `P`. -/
def IsDenoiser (P H : Matrix (Fin E) (Fin E) ℝ) (mu : ℝ) : Prop :=
  (1 + mu • P) * H = 1 ∧ H.transpose = H ∧ (∀ x, norm2 (H.mulVec x) ≤ norm2 x) ∧
    ∀ x, P.mulVec x = 0 → H.mulVec x = x

theorem isDenoiser_inv {P : Matrix (Fin E) (Fin E) ℝ} (hP : SymmPSD P) {mu : ℝ} (hmu : 0 ≤ mu) :
    IsDenoiser P (1 + mu • P)⁻¹ mu := by
  have hd := det_ne_zero_of_psd hP hmu
  have hu : IsUnit (1 + mu • P).det := isUnit_iff_ne_zero.2 hd
  have h1 : (1 + mu • P) * (1 + mu • P)⁻¹ = 1 := mul_nonsing_inv _ hu
  have h2 : (1 + mu • P)⁻¹ * (1 + mu • P) = 1 := nonsing_inv_mul _ hu
  refine ⟨h1, ?_, ?_, ?_⟩
  · rw [transpose_nonsing_inv, transpose_add, transpose_one, transpose_smul, hP.1]
  · intro x
    apply Real.sqrt_le_sqrt
    set y := ((1 + mu • P)⁻¹).mulVec x with hy
    have hx : x = y + mu • P.mulVec y := by
      have := congrArg (fun M => M.mulVec x) h1
      simp only [one_mulVec] at this
      rw [← mulVec_mulVec, add_mulVec, one_mulVec, smul_mulVec] at this
      exact this.symm
    have e : x ⬝ᵥ x = y ⬝ᵥ y + 2 * mu * (y ⬝ᵥ P.mulVec y) + mu ^ 2 * (P.mulVec y ⬝ᵥ P.mulVec y) := by
      rw [hx, dot_add_sq, smul_dotProduct, dotProduct_smul, dotProduct_smul]
      simp only [smul_eq_mul]; ring
    rw [e]
    have p1 := mul_nonneg hmu (hP.2 y)
    have p2 := mul_nonneg (sq_nonneg mu) (dot_self_nonneg (P.mulVec y))
    linarith
  · intro x hx
    have : (1 + mu • P).mulVec x = x := by
      rw [add_mulVec, one_mulVec, smul_mulVec, hx, smul_zero, add_zero]
    conv_lhs => rw [← this]
    rw [mulVec_mulVec, h2, one_mulVec]

/-- C59: for a non-empty list of parameters `mu >= 0` the call returns, and the stored filter is the
denoiser of the last parameter, the stored estimate the filtered flow. -/
theorem C59_denoise (hE : 0 < sc.E) {pChoice : String} {P : Matrix (Fin sc.E) (Fin sc.E) ℝ}
    (hP : sc.getPMatrix pChoice = .ok P) (st : FilterSt sc.E) (hst : st.Valid) (f fTrue : Fin sc.E → ℝ)
    (muVals : List ℝ) (hmu : ∀ m ∈ muVals, 0 ≤ m) (mu : ℝ) (hl : muVals.getLast? = some mu) :
    ∃ st' H, edgeFlowDenoise lib sc st f fTrue pChoice muVals = (.ok (), st') ∧
      st'.history.get? "filter" = some (.mat H) ∧
      st'.history.get? "f_estimated" = some (.vec (H.mulVec f)) ∧
      IsDenoiser P H mu := by
  have hps := getPMatrix_psd hP
  refine ⟨_, (1 + mu • P)⁻¹, denoise_ok hE hP st f fTrue muVals mu
    (fun m hm => det_ne_zero_of_psd hps (hmu m hm)) hl, ?_, ?_,
    isDenoiser_inv hps (hmu mu (List.mem_of_getLast? hl))⟩
  · rw [FilterSt.history, setHistory_cur, (setHistory_get st hst _).1]; rfl
  · rw [FilterSt.history, setHistory_cur, (setHistory_get st hst _).2.1]; rfl

/-- C59, the exact domain: for arbitrary parameters the call returns if and only if the list is not
empty and no parameter is `-1/lambda` for an eigenvalue `lambda` of `P`; otherwise it fails and the
object is unchanged. -/
theorem C59_domain (hE : 0 < sc.E) {pChoice : String} {P : Matrix (Fin sc.E) (Fin sc.E) ℝ}
    (hP : sc.getPMatrix pChoice = .ok P) (st : FilterSt sc.E) (f fTrue : Fin sc.E → ℝ)
    (muVals : List ℝ) :
    ((∃ st', edgeFlowDenoise lib sc st f fTrue pChoice muVals = (.ok (), st')) ↔
      muVals ≠ [] ∧ ∀ m ∈ muVals, ∀ lam, IsEigenvalue P lam → 1 + m * lam ≠ 0) ∧
    ((∃ m ∈ muVals, ∃ lam, IsEigenvalue P lam ∧ 1 + m * lam = 0) →
      edgeFlowDenoise lib sc st f fTrue pChoice muVals = (.error .linAlgError, st)) := by
  have hsing : (∃ m ∈ muVals, ∃ lam, IsEigenvalue P lam ∧ 1 + m * lam = 0) →
      edgeFlowDenoise lib sc st f fTrue pChoice muVals = (.error .linAlgError, st) := by
    rintro ⟨m, hm, lam, hlam, h0⟩
    have hd := (det_zero_iff P m).2 ⟨lam, hlam, h0⟩
    have : muVals.mapM (muPass P (lib.eigh sc.E P).2 f fTrue) = .error .linAlgError := by
      cases hr : muVals.mapM (muPass P (lib.eigh sc.E P).2 f fTrue) with
      | error e =>
        obtain ⟨a, -, ha⟩ := mapM_error hr
        rw [muPass_eq] at ha
        split_ifs at ha
        cases ha; rfl
      | ok r =>
        obtain ⟨i, hi, rfl⟩ := List.getElem_of_mem hm
        have hf := mapM_eq_ok hr
        have hi' : i < r.length := by rw [← hf.length_eq]; exact hi
        have := (List.forall₂_iff_get.1 hf).2 i hi hi'
        simp only [List.get_eq_getElem] at this
        rw [muPass_eq, if_pos hd] at this
        cases this
    unfold edgeFlowDenoise edgeFlowDesign
    simp only [hP, bind, Except.bind, getEigendecomposition_dense lib hE, this]
  refine ⟨⟨?_, ?_⟩, hsing⟩
  · rintro ⟨st', h⟩
    refine ⟨?_, ?_⟩
    · rintro rfl
      unfold edgeFlowDenoise edgeFlowDesign at h
      simp only [hP, bind, Except.bind, getEigendecomposition_dense lib hE] at h
      cases h
    · intro m hm lam hlam h0
      rw [hsing ⟨m, hm, lam, hlam, h0⟩] at h
      cases h
  · rintro ⟨hne, h⟩
    refine ⟨_, denoise_ok hE hP st f fTrue muVals (muVals.getLast hne) ?_
      (List.getLast?_eq_some_getLast hne)⟩
    intro m hm hd
    obtain ⟨lam, hlam, h0⟩ := (det_zero_iff P m).1 hd
    exact h m hm lam hlam h0

/-- parameters `1/2` and `2` on a filled triangle beside a hollow one -/
example (lib : NumLib) (f fTrue : Fin twoTri.E → ℝ) : ∃ st' H,
    edgeFlowDenoise lib twoTri (initFilter _) f fTrue "L1L" [1 / 2, 2] = (.ok (), st') ∧
    st'.history.get? "filter" = some (.mat H) ∧ IsDenoiser twoTri.L1l H 2 := by
  obtain ⟨st', H, h1, h2, -, h3⟩ := C59_denoise (lib := lib) (sc := twoTri) (by decide)
    (pChoice := "L1L") (P := twoTri.L1l) (by simp [SC.getPMatrix]) (initFilter _)
    (by simp [FilterSt.Valid, initFilter]) f fTrue [1 / 2, 2] (by intro m hm; fin_cases hm <;> norm_num) 2 rfl
  exact ⟨st', H, h1, h2, h3⟩

/-- the failure occurs: the eigenvalue 3 and the parameter `-1/3` -/
example (lib : NumLib) (st : FilterSt twoTri.E) (f fTrue : Fin twoTri.E → ℝ) :
    edgeFlowDenoise lib twoTri st f fTrue "L1L" [1, -(1 / 3)] = (.error .linAlgError, st) :=
  (C59_domain (by decide) (P := twoTri.L1l) (by simp [SC.getPMatrix]) st f fTrue _).2
    ⟨-(1 / 3), by simp, 3, twoTri_lower_three, by norm_num⟩

/-! ## C60 -/

/-- the regularised objective -/
noncomputable def denoiseObjective (P : Matrix (Fin E) (Fin E) ℝ) (f : Fin E → ℝ) (mu : ℝ)
    (x : Fin E → ℝ) : ℝ :=
  (x - f) ⬝ᵥ (x - f) + mu * (x ⬝ᵥ P.mulVec x)

/-- C60: the stored estimate is the unique minimiser of `|x - f|^2 + mu x.T P x` for the last
parameter. -/
theorem C60_minimiser (hE : 0 < sc.E) {pChoice : String} {P : Matrix (Fin sc.E) (Fin sc.E) ℝ}
    (hP : sc.getPMatrix pChoice = .ok P) (st : FilterSt sc.E) (hst : st.Valid) (f fTrue : Fin sc.E → ℝ)
    (muVals : List ℝ) (hmu : ∀ m ∈ muVals, 0 ≤ m) (mu : ℝ) (hl : muVals.getLast? = some mu) :
    ∃ st' x, edgeFlowDenoise lib sc st f fTrue pChoice muVals = (.ok (), st') ∧
      st'.history.get? "f_estimated" = some (.vec x) ∧
      ∀ y, y ≠ x → denoiseObjective P f mu x < denoiseObjective P f mu y := by
  obtain ⟨st', H, h1, -, h3, h4, -⟩ := C59_denoise (lib := lib) hE hP st hst f fTrue muVals hmu mu hl
  refine ⟨st', _, h1, h3, fun y hy => ?_⟩
  have hps := getPMatrix_psd hP
  have hmu0 := hmu mu (List.mem_of_getLast? hl)
  set x := H.mulVec f with hx
  have hfx : f = x + mu • P.mulVec x := by
    have := congrArg (fun M => M.mulVec f) h4
    simp only [one_mulVec] at this
    rw [← mulVec_mulVec, add_mulVec, one_mulVec, smul_mulVec] at this
    exact this.symm
  obtain ⟨d, rfl⟩ : ∃ d, y = x + d := ⟨y - x, by abel⟩
  have hd : d ≠ 0 := by rintro rfl; exact hy (add_zero x)
  have hdd : 0 < d ⬝ᵥ d := lt_of_le_of_ne (dot_self_nonneg d) fun h0 => hd (dotProduct_self_eq_zero.1 h0.symm)
  have e1 : x - f = -(mu • P.mulVec x) := by
    conv_lhs => rw [hfx]
    rw [sub_add_cancel_left]
  have e2 : x + d - f = -(mu • P.mulVec x) + d := by rw [← e1]; abel
  have hsymm : x ⬝ᵥ P.mulVec d = d ⬝ᵥ P.mulVec x := by
    have := dot_mulVec_transpose P x d
    rw [hps.1] at this
    rw [this, dotProduct_comm]
  unfold denoiseObjective
  rw [e1, e2, dot_add_sq, mulVec_add, dotProduct_add, add_dotProduct, add_dotProduct, hsymm,
    neg_dotProduct _ d, smul_dotProduct _ _ d, smul_eq_mul, dotProduct_comm (P.mulVec x) d]
  have := mul_nonneg hmu0 (hps.2 d)
  nlinarith

/-! ## C61 -/

/-- C61: the `i`-th stored frequency response is `1/(1 + mu_i lambda_k)` at the `k`-th eigenvalue of `P`
in ascending order, and the `i`-th stored error is the one of the `i`-th filtered flow. -/
theorem C61_response (hE : 0 < sc.E) {pChoice : String} {P : Matrix (Fin sc.E) (Fin sc.E) ℝ}
    (hP : sc.getPMatrix pChoice = .ok P) (st : FilterSt sc.E) (hst : st.Valid) (f fTrue : Fin sc.E → ℝ)
    (muVals : List ℝ) (hmu : ∀ m ∈ muVals, 0 ≤ m) (hne : muVals ≠ []) (lam : Fin sc.E → ℝ)
    (hlam : IsSpectrum P lam) :
    ∃ st' resp errs, edgeFlowDenoise lib sc st f fTrue pChoice muVals = (.ok (), st') ∧
      st'.history.get? "frequency_responses" = some (.rows resp) ∧
      resp = muVals.map (fun mu k => 1 / (1 + mu * lam k)) ∧
      st'.history.get? "extracted_component_error" = some (.errs errs) ∧
      errs.length = muVals.length ∧
      ∀ (i : ℕ) (mu : ℝ), muVals[i]? = some mu → ∃ H, IsDenoiser P H mu ∧
        errs[i]? = some (calculateErrorNRMSE (H.mulVec f) fTrue) := by
  have hps := getPMatrix_psd hP
  refine ⟨_, (muVals.map (passOf P (lib.eigh sc.E P).2 f fTrue)).map (·.resp),
    (muVals.map (passOf P (lib.eigh sc.E P).2 f fTrue)).map (·.err),
    denoise_ok hE hP st f fTrue muVals (muVals.getLast hne)
    (fun m hm => det_ne_zero_of_psd hps (hmu m hm)) (List.getLast?_eq_some_getLast hne), ?_, ?_, ?_, ?_, ?_⟩
  · rw [FilterSt.history, setHistory_cur, (setHistory_get st hst _).2.2.1]; rfl
  · rw [List.map_map]
    apply List.map_congr_left
    intro m hm
    funext k
    rw [hlam.unique (eigh_isSpectrum lib hps)]
    have h := lib.isEig hps
    have hmu0 := hmu m hm
    have hpos : 0 < 1 + m * (lib.eigh sc.E P).1 k := by
      have := mul_nonneg hmu0 (h.nonneg hps k); linarith
    refine h.diag_conj k ?_
    have e : (1 + m • P).mulVec (fun j => (lib.eigh sc.E P).2 j k) =
        (1 + m * (lib.eigh sc.E P).1 k) • fun j => (lib.eigh sc.E P).2 j k := by
      rw [add_mulVec, one_mulVec, smul_mulVec, h.col_eig, smul_smul, add_smul, one_smul]
    have hu : IsUnit (1 + m • P).det := isUnit_iff_ne_zero.2 (det_ne_zero_of_psd hps hmu0)
    have e2 := congrArg (fun v => (1 + m • P)⁻¹.mulVec v) e
    simp only [mulVec_mulVec, nonsing_inv_mul _ hu, one_mulVec, mulVec_smul] at e2
    conv_rhs => rw [e2]
    rw [smul_smul, one_div, inv_mul_cancel₀ hpos.ne', one_smul]
  · rw [FilterSt.history, setHistory_cur, (setHistory_get st hst _).2.2.2.1]; rfl
  · simp
  · intro i mu hi
    refine ⟨_, isDenoiser_inv hps (hmu mu (List.mem_of_getElem? hi)), ?_⟩
    rw [List.getElem?_map, List.getElem?_map, hi]
    rfl

/-- C61: the response lies in `(0, 1]`, decreases with the frequency and with the parameter, and is 1
exactly at frequency 0 when the parameter is positive. -/
theorem C61_low_pass {mu mu' lam lam' : ℝ} (hmu : 0 ≤ mu) (hmu' : mu ≤ mu') (hlam : 0 ≤ lam)
    (hlam' : lam ≤ lam') :
    0 < 1 / (1 + mu * lam) ∧ 1 / (1 + mu * lam) ≤ 1 ∧ 1 / (1 + mu * lam') ≤ 1 / (1 + mu * lam) ∧
      1 / (1 + mu' * lam) ≤ 1 / (1 + mu * lam) ∧ (0 < mu → (1 / (1 + mu * lam) = 1 ↔ lam = 0)) := by
  have h0 : 0 ≤ mu * lam := mul_nonneg hmu hlam
  refine ⟨by positivity, ?_, ?_, ?_, ?_⟩
  · rw [div_le_one (by linarith)]; linarith
  · exact one_div_le_one_div_of_le (by linarith) (by nlinarith)
  · exact one_div_le_one_div_of_le (by linarith) (by nlinarith)
  · intro hm
    rw [div_eq_one_iff_eq (by linarith)]
    constructor
    · intro h
      have : mu * lam = 0 := by linarith
      rcases mul_eq_zero.1 this with h | h
      · linarith
      · exact h
    · rintro rfl; ring

/-- C61: the stored responses of a successful call, as rows indexed by the position of the frequency,
are low-pass: values in `(0, 1]`, non-increasing along the ascending eigenvalues. -/
theorem C61_rows (hE : 0 < sc.E) {pChoice : String} {P : Matrix (Fin sc.E) (Fin sc.E) ℝ}
    (hP : sc.getPMatrix pChoice = .ok P) (st : FilterSt sc.E) (hst : st.Valid) (f fTrue : Fin sc.E → ℝ)
    (muVals : List ℝ) (hmu : ∀ m ∈ muVals, 0 ≤ m) (hne : muVals ≠ []) :
    ∃ st' resp, edgeFlowDenoise lib sc st f fTrue pChoice muVals = (.ok (), st') ∧
      st'.history.get? "frequency_responses" = some (.rows resp) ∧ resp.length = muVals.length ∧
      ∀ row ∈ resp, Antitone row ∧ ∀ k, 0 < row k ∧ row k ≤ 1 := by
  have hps := getPMatrix_psd hP
  have hs := eigh_isSpectrum lib hps
  obtain ⟨st', resp, errs, h1, h2, h3, -⟩ := C61_response (lib := lib) hE hP st hst f fTrue muVals hmu hne _ hs
  refine ⟨st', resp, h1, h2, by simp [h3], ?_⟩
  intro row hrow
  rw [h3, List.mem_map] at hrow
  obtain ⟨m, hm, rfl⟩ := hrow
  have hn := fun k => (lib.isEig hps).nonneg hps k
  refine ⟨fun i j hij => (C61_low_pass (hmu m hm) le_rfl (hn i) (hs.1 hij)).2.2.1, fun k => ?_⟩
  obtain ⟨a, b, -⟩ := C61_low_pass (hmu m hm) le_rfl (hn k) le_rfl
  exact ⟨a, b⟩

/-- C60, default argument: without parameters the estimate is the one for `mu = 0.5`. -/
theorem C60_default (hE : 0 < sc.E) {pChoice : String} {P : Matrix (Fin sc.E) (Fin sc.E) ℝ}
    (hP : sc.getPMatrix pChoice = .ok P) (st : FilterSt sc.E) (hst : st.Valid) (f fTrue : Fin sc.E → ℝ) :
    ∃ st' x, edgeFlowDenoise lib sc st f fTrue pChoice = (.ok (), st') ∧
      st'.history.get? "f_estimated" = some (.vec x) ∧
      ∀ y, y ≠ x → denoiseObjective P f (1 / 2) x < denoiseObjective P f (1 / 2) y :=
  C60_minimiser hE hP st hst f fTrue [1 / 2] (by intro m hm; rw [List.mem_singleton] at hm; subst hm; norm_num)
    (1 / 2) rfl

/-- C61: an empty list of parameters fails after the loop and leaves the object as it was; so does an
unknown matrix name. -/
theorem C61_failures (lib : NumLib) (sc : SC ℝ) (hE : 0 < sc.E) (st : FilterSt sc.E)
    (f fTrue : Fin sc.E → ℝ) (pChoice : String) (muVals : List ℝ) :
    (pChoice ∈ ["L1", "L1L", "L1U"] →
      edgeFlowDenoise lib sc st f fTrue pChoice [] = (.error .unboundLocalError, st)) ∧
    (pChoice ∉ ["L1", "L1L", "L1U"] →
      edgeFlowDenoise lib sc st f fTrue pChoice muVals = (.error .valueError, st)) := by
  constructor
  · intro h
    obtain ⟨P, hP⟩ : ∃ P, sc.getPMatrix pChoice = .ok P := by
      simp only [List.mem_cons, List.not_mem_nil, or_false] at h
      rcases h with rfl | rfl | rfl <;> simp [SC.getPMatrix]
    unfold edgeFlowDenoise edgeFlowDesign
    simp only [hP, bind, Except.bind, getEigendecomposition_dense lib hE]
    rfl
  · intro h
    simp only [List.mem_cons, List.not_mem_nil, or_false, not_or] at h
    simp [edgeFlowDenoise, edgeFlowDesign, SC.getPMatrix, h, bind, Except.bind]

end Pytspl
