import Verif.Model.Progress
import Verif.Props.TrendFilter
import Verif.Props.Sizes
import Verif.Props.Chebyshev

/-!
# C157: the lines the filters print
-/

namespace Pytspl

open Matrix

variable {E : ℕ}

private theorem okb {α β : Type} (a : α) (f : α → Py β) : ((Except.ok a : Py α) >>= f) = f a := rfl

/-! ## Loops -/

theorem completed_ok {α β : Type} (run : α → Py β) (l : List α) {bs : List β} (h : l.mapM run = .ok bs) :
    completed run l = bs := by
  induction l generalizing bs with
  | nil => cases h; rfl
  | cons a l ih =>
    rw [List.mapM_cons] at h
    cases ha : run a with
    | error e => rw [ha] at h; cases h
    | ok b =>
      rw [ha, okb] at h
      cases hl : l.mapM run with
      | error e => rw [hl] at h; cases h
      | ok cs =>
        rw [hl, okb] at h
        cases h
        rw [completed, ha]
        simp only [ih hl]

/-- how many rows are completed: those before the first one that raises -/
theorem completed_prefix {α β : Type} (run : α → Py β) (l : List α) (k : ℕ) (b : α → β)
    (hk : ∀ a ∈ l.take k, run a = .ok (b a)) (hf : ∀ a, l[k]? = some a → ∃ e, run a = .error e) :
    completed run l = (l.take k).map b := by
  induction l generalizing k with
  | nil => simp [completed]
  | cons a l ih =>
    cases k with
    | zero =>
      obtain ⟨e, he⟩ := hf a (by simp)
      simp [completed, he]
    | succ k =>
      rw [completed, hk a (by simp)]
      simp only [List.take_succ_cons, List.map_cons, List.cons.injEq, true_and]
      exact ih k (fun c hc => hk c (by simp [hc])) fun c hc => hf c (by simpa using hc)

/-! ## Polynomial filters -/

private theorem lines_loop (lib : NumLib) {m L : ℕ} (f fTrue : Fin E → ℝ) (P U : Matrix (Fin E) (Fin E) ℝ)
    (ev al : Fin m → ℝ) (ls : List (Fin L)) (k : ℕ) (hls : ls.map Fin.val = List.range' k ls.length)
    (st : LoopSt E m L) (hst : st.errs.length = k) (acc : List SizeLine)
    (hacc : acc = st.errs.zipIdx.map fun e => (e.2, round4 e.1)) :
    (ls.foldl (fun (s : LoopSt E m L × List SizeLine) l =>
      ((applyStep lib f fTrue P U ev al s.1 l),
        s.2 ++ [((l : ℕ), round4 ((applyStep lib f fTrue P U ev al s.1 l).errs[(l : ℕ)]?.getD none))])) (st, acc)).2 =
      (ls.foldl (applyStep lib f fTrue P U ev al) st).errs.zipIdx.map fun e => (e.2, round4 e.1) := by
  induction ls generalizing k st acc with
  | nil => simpa using hacc
  | cons l ls ih =>
    rw [List.map_cons, List.length_cons, List.range'_succ, List.cons.injEq] at hls
    rw [List.foldl_cons, List.foldl_cons]
    have he : (applyStep lib f fTrue P U ev al st l).errs = st.errs ++
        [calculateErrorNRMSE ((buildFilter P (lib.lstsq m L (Matrix.of fun i j => if j = l then ev i ^ (l : ℕ)
          else st.sys i j) al)).mulVec f) fTrue] := rfl
    refine ih (k + 1) hls.2 _ ?_ _ ?_
    · rw [he, List.length_append, hst]; rfl
    · simp only
      rw [he, hls.1, hacc, List.zipIdx_append, List.map_append]
      congr 1
      rw [hst, List.getElem?_append_right (by omega), hst]
      simp

theorem applyLines_eq (lib : NumLib) {f fTrue : Fin E → ℝ} {P U : Matrix (Fin E) (Fin E) ℝ} {ev al : List ℝ} {L : Int}
    {a : Applied E} (h : applyFilter lib f fTrue P U ev al L = .ok a) :
    applyLines lib f fTrue P U ev al L = a.errs.zipIdx.map fun e => (e.2, round4 e.1) := by
  obtain ⟨hL, hlen⟩ := applyFilter_pos lib h
  unfold applyLines
  rw [if_neg (by simpa using hlen)]
  simp only
  have hl := lines_loop lib f fTrue P U (fun i : Fin ev.length => ev[i]) (fun i => al[(i : ℕ)]?.getD 0)
    (List.finRange L.toNat) 0 (by simp [List.range_eq_range']) ⟨0, none, [], []⟩ rfl [] rfl
  rw [hl]
  unfold applyFilter at h
  rw [if_neg (by omega), if_neg (by omega), if_neg (by simpa using hlen)] at h
  simp only at h
  split at h
  · cases h
  · cases h; rfl

/-- the lines that go with an error curve: pass `l` prints `l` and its error to four decimals -/
noncomputable def linesFor (errs : List (Option ℝ)) : List SizeLine := errs.zipIdx.map fun e => (e.2, round4 e.1)

private theorem lines_record {st : FilterSt E} (hst : st.Valid) {D : Py (Applied E)} {ls : List SizeLine}
    (hl : ∀ a, D = .ok a → ls = linesFor a.errs) (h : (recordDesign st D).1 = .ok ()) :
    ∃ errs, (recordDesign st D).2.history.get? "extracted_component_error" = some (.errs errs) ∧ ls = linesFor errs := by
  cases D with
  | error e => cases h
  | ok a =>
    refine ⟨a.errs, ?_, hl a rfl⟩
    obtain ⟨-, -, -, g4, -⟩ := setHistory_get st hst a.design
    change (setHistory st a.design).history.get? _ = _
    rw [FilterSt.history, setHistory_cur, g4]; rfl

private theorem lines_bind {α : Type} {x : Py α} {D : α → Py (Applied E)} {F : α → Py (List SizeLine)}
    (h : ∀ y a, D y = .ok a → linesOf (F y) = linesFor a.errs) :
    ∀ a, (x >>= D) = .ok a → linesOf (x >>= F) = linesFor a.errs := by
  intro a ha
  cases x with
  | error e => cases ha
  | ok y => exact h y a ha

variable (lib : NumLib) (sc : SC ℝ)

/-- C157, least-squares filters: a call that returns has printed, for each pass in turn, the number of the pass (from 0) and
the error it records for it, to four decimals.  What is missing: the number is called the filter size, and it is one less
than the size (`C157_sizes`). -/
theorem C157_ls_partial (st : FilterSt sc.E) (f : Fin sc.E → ℝ) (component : String) (L : Int) (tol : ℝ) :
    ((LSFilter.typeOne lib sc st f component L).1 = .ok () →
      ∃ errs, (LSFilter.typeOne lib sc st f component L).2.history.get? "extracted_component_error" = some (.errs errs) ∧
        LSFilter.typeOneLines lib sc f component L = linesFor errs) ∧
    ((LSFilter.typeTwo lib sc st f component L tol).1 = .ok () →
      ∃ errs, (LSFilter.typeTwo lib sc st f component L tol).2.history.get? "extracted_component_error" =
          some (.errs errs) ∧
        LSFilter.typeTwoLines lib sc f component L tol = linesFor errs) := by
  constructor
  · refine lines_record (resetHistory_valid st) ?_
    exact lines_bind fun x => lines_bind fun y => lines_bind fun z a ha => applyLines_eq lib ha
  · refine lines_record (resetHistory_valid st) ?_
    have key : ∀ lap : Matrix (Fin sc.E) (Fin sc.E) ℝ, ∀ a, (do
        let (U, eigenvals) ← getEigendecomposition lib (.ndarray lap)
        let eigenvals := npUnique ((List.ofFn eigenvals).map fun x => if |x| < tol then 0 else x)
        let fTrue ← sc.getTrueSignal lib f component
        let alpha : List ℝ := [0] ++ List.replicate (eigenvals.length - 1) 1
        applyFilter lib f fTrue lap U eigenvals alpha L : Py (Applied sc.E)) = .ok a → linesOf (do
        let (U, eigenvals) ← getEigendecomposition lib (.ndarray lap)
        let eigenvals := npUnique ((List.ofFn eigenvals).map fun x => if |x| < tol then 0 else x)
        let fTrue ← sc.getTrueSignal lib f component
        let alpha : List ℝ := [0] ++ List.replicate (eigenvals.length - 1) 1
        pure (applyLines lib f fTrue lap U eigenvals alpha L)) = linesFor a.errs := fun lap =>
      lines_bind fun x => lines_bind fun y a ha => applyLines_eq lib ha
    unfold LSFilter.typeTwoDesign LSFilter.typeTwoLines
    by_cases h1 : component = "gradient"
    · simp only [if_pos h1]; exact key _
    · by_cases h2 : component = "curl"
      · simp only [if_neg h1, if_pos h2]; exact key _
      · simp only [if_neg h1, if_neg h2]; intro a ha; cases ha

/-- C157, grid-based filters: likewise. -/
theorem C157_grid_partial (st : FilterSt sc.E) (hst : st.Valid) (f fTrue : Fin sc.E → ℝ) (component pChoice : String)
    (L num : Int) (mu cutOff steep : ℝ) :
    ((GridFilter.denoise lib sc st f fTrue pChoice L mu).1 = .ok () →
      ∃ errs, (GridFilter.denoise lib sc st f fTrue pChoice L mu).2.history.get? "extracted_component_error" =
          some (.errs errs) ∧
        GridFilter.denoiseLines lib sc f fTrue pChoice L mu = linesFor errs) ∧
    ((GridFilter.subcomponentExtraction lib sc st f component pChoice L num mu cutOff steep).1 = .ok () →
      ∃ errs, (GridFilter.subcomponentExtraction lib sc st f component pChoice L num mu cutOff steep).2.history.get?
          "extracted_component_error" = some (.errs errs) ∧
        GridFilter.extractionLines lib sc f component pChoice L num mu cutOff steep = linesFor errs) := by
  constructor
  · refine lines_record hst ?_
    refine lines_bind fun x => lines_bind fun y => lines_bind fun z a ha => ?_
    revert ha
    simp only
    generalize (do
      let (g, pts) ← z
      let g ← g.mapM id
      pure (pts, g) : Option (List ℝ × List ℝ)) = data
    intro ha
    cases data with
    | none =>
      unfold GridFilter.applyFilterF at ha
      simp only at ha
      split_ifs at ha
    | some d => exact applyLines_eq lib ha
  · refine lines_record hst ?_
    refine lines_bind fun x => lines_bind fun y => lines_bind fun z => lines_bind fun t a ha => ?_
    cases z with
    | none =>
      unfold GridFilter.applyFilterF at ha
      simp only [Option.map_none] at ha
      split_ifs at ha
    | some d => exact applyLines_eq lib ha

/-- C157 is false for the filter sizes: in every call of size `L` that returns, the line of the full filter says `L - 1`, and
every line `l` of it carries the last error of a call of size `l + 1` (the least-squares filters; `C158_grid` gives the same
for the others). -/
theorem C157_sizes (st st' : FilterSt sc.E) (f : Fin sc.E → ℝ) (component : String) (L : Int)
    (h : (LSFilter.typeOne lib sc st f component L).1 = .ok ()) :
    (∃ e, (LSFilter.typeOneLines lib sc f component L).getLast? = some ((L - 1).toNat, e)) ∧
    ∀ (l : ℕ) (n : ℕ) (e : Option ℝ), (LSFilter.typeOneLines lib sc f component L)[l]? = some (n, e) → n = l ∧
      ∃ errs r, (LSFilter.typeOne lib sc st' f component (l + 1)).2.history.get? "extracted_component_error" =
        some (.errs errs) ∧ (errs.length : Int) = l + 1 ∧ errs.getLast? = some r ∧ e = round4 r := by
  obtain ⟨errs, e1, e2⟩ := (C157_ls_partial lib sc st f component L 0).1 h
  have hlen : (errs.length : Int) = L ∧ 0 < L := by
    have hL : 0 < L := by
      by_contra hn
      unfold LSFilter.typeOne recordDesign at h
      cases hd : LSFilter.typeOneDesign lib sc f component L with
      | error e => rw [hd] at h; cases h
      | ok a =>
        unfold LSFilter.typeOneDesign at hd
        cases h1 : getEigendecomposition lib (.ndarray sc.L1) with
        | error e => rw [h1] at hd; cases hd
        | ok w =>
          cases h2 : sc.getTrueSignal lib f component with
          | error e => rw [h1, h2] at hd; cases hd
          | ok t =>
            cases h3 : sc.getComponentCoefficients lib component with
            | error e => rw [h1, h2, h3] at hd; cases hd
            | ok al =>
              rw [h1, h2, h3] at hd
              exact hn (applyFilter_pos lib hd).1
    obtain ⟨-, errs', resp, q1, -, q3, -⟩ := (C158_ls lib sc f component 0 L L hL le_rfl st st).1 h
    rw [q3.1] at e1
    cases e1
    exact ⟨q1, hL⟩
  constructor
  · rw [e2]
    have hne : errs ≠ [] := by
      intro hn; rw [hn] at hlen; simp at hlen; omega
    refine ⟨round4 (errs.getLast hne), ?_⟩
    rw [linesFor, List.getLast?_map, List.getLast?_eq_getElem?, List.length_zipIdx, List.getElem?_zipIdx,
      ← List.getLast?_eq_getElem?, List.getLast?_eq_some_getLast hne]
    simp
    omega
  · intro l n e hl
    rw [e2, linesFor, List.getElem?_map, List.getElem?_zipIdx] at hl
    cases hr : errs[l]? with
    | none => rw [hr] at hl; cases hl
    | some r =>
      rw [hr] at hl
      simp only [Option.map_some, Option.some.injEq, Prod.mk.injEq, Nat.zero_add] at hl
      have hlt : l < errs.length := (List.getElem?_eq_some_iff.1 hr).1
      obtain ⟨-, errs', resp, q1, -, q3, q4⟩ := (C158_ls lib sc f component 0 L (l + 1) (by omega) (by omega) st st').1 h
      have : errs' = errs := by
        have := q3.1
        rw [e1] at this
        cases this; rfl
      subst this
      refine ⟨hl.1.symm, _, r, q4.1, ?_, ?_, hl.2.symm⟩
      · rw [List.length_take]; omega
      · rw [show ((l : Int) + 1).toNat = l + 1 by omega, List.getLast?_eq_getElem?, List.length_take,
          show min (l + 1) errs'.length - 1 = l by omega, List.getElem?_take_of_lt (by omega)]
        exact hr

/-! ## Edge-flow denoising -/

/-- C157, edge-flow denoising: a call that returns has printed every value of `mu` with the error it records for it. -/
theorem C157_edge_flow (st : FilterSt sc.E) (hst : st.Valid) (f fTrue : Fin sc.E → ℝ) (pChoice : String) (muVals : List ℝ)
    (h : (edgeFlowDenoise lib sc st f fTrue pChoice muVals).1 = .ok ()) :
    ∃ errs, (edgeFlowDenoise lib sc st f fTrue pChoice muVals).2.history.get? "extracted_component_error" =
        some (.errs errs) ∧ errs.length = muVals.length ∧
      edgeFlowLines lib sc f fTrue pChoice muVals = List.zipWith (fun mu e => (mu, round4 e)) muVals errs := by
  unfold edgeFlowDenoise at h ⊢
  cases hd : edgeFlowDesign lib sc f fTrue pChoice muVals with
  | error e => rw [hd] at h; cases h
  | ok d =>
    simp only
    unfold edgeFlowDesign at hd
    unfold edgeFlowLines
    cases hP : sc.getPMatrix pChoice with
    | error e => rw [hP] at hd; cases hd
    | ok P =>
      rw [hP, okb] at hd
      cases hU : getEigendecomposition lib (.ndarray P) with
      | error e => rw [hU] at hd; cases hd
      | ok U =>
        rw [hU, okb] at hd
        simp only at hd ⊢
        cases hm : muVals.mapM (muPass P U.1 f fTrue) with
        | error e => rw [hm] at hd; cases hd
        | ok passes =>
          rw [hm, okb] at hd
          cases hl : passes.getLast? with
          | none => rw [hl] at hd; cases hd
          | some p =>
            rw [hl] at hd
            cases hd
            refine ⟨passes.map (·.err), ?_, ?_, ?_⟩
            · obtain ⟨-, -, -, g4, -⟩ := setHistory_get st hst ⟨.mat p.H, .vec p.fEst, .rows (passes.map (·.resp)),
                .errs (passes.map (·.err)), .errs []⟩
              rw [FilterSt.history, setHistory_cur, g4]
            · rw [List.length_map]; exact (mapM_eq_ok hm).length_eq.symm
            · have hF := mapM_eq_ok hm
              rw [hU]
              simp only
              clear hm hl hP hU h
              refine completed_ok _ _ ?_
              induction hF with
              | nil => rfl
              | cons h1 _ ih =>
                rw [List.mapM_cons, h1, ih]
                rfl

/-- C157, edge-flow denoising: the lines are printed as the call goes along.  When `1 + mu P` is singular for a value of
`mu`, the call raises, the history is as before, and the values in front of it have been printed. -/
theorem C157_edge_flow_fails (hE : 0 < sc.E) (st : FilterSt sc.E) (f fTrue : Fin sc.E → ℝ) (pChoice : String)
    (P : Matrix (Fin sc.E) (Fin sc.E) ℝ) (hP : sc.getPMatrix pChoice = .ok P) (done rest : List ℝ) (bad : ℝ)
    (hdone : ∀ mu ∈ done, (1 + mu • P).det ≠ 0) (hbad : (1 + bad • P).det = 0) :
    edgeFlowDenoise lib sc st f fTrue pChoice (done ++ bad :: rest) = (.error .linAlgError, st) ∧
    edgeFlowLines lib sc f fTrue pChoice (done ++ bad :: rest) =
      done.map fun mu => (mu, round4 (calculateErrorNRMSE ((1 + mu • P)⁻¹.mulVec f) fTrue)) := by
  have hpass : ∀ U : Matrix (Fin sc.E) (Fin sc.E) ℝ, ∀ mu ∈ done, muPass P U f fTrue mu =
      .ok ⟨(1 + mu • P)⁻¹, (1 + mu • P)⁻¹.mulVec f, calculateErrorNRMSE ((1 + mu • P)⁻¹.mulVec f) fTrue,
        fun k => (U.transpose * (1 + mu • P)⁻¹ * U) k k⟩ := by
    intro U mu hmu
    unfold muPass npInv
    rw [if_neg (hdone mu hmu)]
    rfl
  have hb : ∀ U : Matrix (Fin sc.E) (Fin sc.E) ℝ, muPass P U f fTrue bad = .error .linAlgError := by
    intro U
    unfold muPass npInv
    rw [if_pos hbad]
    rfl
  constructor
  · unfold edgeFlowDenoise edgeFlowDesign
    rw [hP, okb, getEigendecomposition_dense lib hE, okb]
    simp only
    rw [List.mapM_append, mapM_ok done _ _ (hpass _), okb, List.mapM_cons, hb]
    rfl
  · unfold edgeFlowLines
    rw [hP]
    simp only [getEigendecomposition_dense lib hE]
    have := completed_prefix (fun mu => (muPass P (lib.eigh sc.E P).2 f fTrue mu).map fun p => (mu, round4 p.err))
      (done ++ bad :: rest) done.length
      (fun mu => (mu, round4 (calculateErrorNRMSE ((1 + mu • P)⁻¹.mulVec f) fTrue))) (fun mu hmu => by
        rw [List.take_left'  rfl] at hmu
        rw [hpass _ mu hmu]; rfl) (fun mu hmu => by
        rw [List.getElem?_append_right le_rfl] at hmu
        simp at hmu
        rw [← hmu, hb]
        exact ⟨_, rfl⟩)
    rw [this, List.take_left' rfl]

/-! ## Chebyshev filter -/

/-- C157, Chebyshev filter: a call that returns has printed, for each stored filter in turn, its position and the two errors
it records for it, to four decimals.  What is missing: the position is called the filter size, and filter `k` has `k + 2`
coefficients, or `L` in the last line (`C63_index`). -/
theorem C157_chebyshev_partial {series : ChebSeries} {st st' : FilterSt sc.E} (hst : st.Valid) {f : Fin sc.E → ℝ}
    {pChoice component : String} {L : ℕ} {n : Option ℕ} {cutOff steep : ℝ}
    (h : Cheb.apply lib series sc st f pChoice component L n cutOff steep = (.ok (), st')) :
    ∃ H errs ferrs, st'.history.get? "filter" = some (.mats H) ∧
      st'.history.get? "extracted_component_error" = some (.errs errs) ∧
      st'.history.get? "filter_error" = some (.errs ferrs) ∧
      (Cheb.applyLines lib series sc f pChoice component L n cutOff steep).length = H.length ∧
      ∀ (k : ℕ) (line : ChebLine), (Cheb.applyLines lib series sc f pChoice component L n cutOff steep)[k]? = some line →
        line.size = k ∧
        (∃ e, errs[k]? = some e ∧ line.error = round4 e) ∧
        (∃ e, ferrs[k]? = some e ∧ line.filterError = round4 e) ∧
        ∃ P M mask, sc.getPMatrix pChoice = .ok P ∧ H[k]? = some M ∧ sc.getComponentCoefficients lib component = .ok mask ∧
          line.responseError = round4 (calculateErrorNRMSE
            (fun i => ((lib.eigh _ P).2.transpose * M * (lib.eigh _ P).2) i i)
            fun i : Fin sc.E => mask[(i : ℕ)]?.getD 0) := by
  obtain ⟨P, fTrue, mask, lam, coeffs, HI, H, hE, h1, h2, h3, h4, h5, h6, h7, h8, rfl⟩ := chebApply_inv h
  obtain ⟨g1, -, -, g4, g5⟩ := setHistory_get st hst
    { filter := .mats H
      fEstimated := .rows (H.map fun M => M.mulVec f)
      frequencyResponses := .rows (H.map fun M => (lib.eigh sc.E sc.L1).2.transpose.mulVec (M.mulVec f))
      extractedComponentError := .errs (H.map fun M => calculateErrorNRMSE (M.mulVec f) fTrue)
      filterError := .errs (H.map fun M => some (Cheb.specNorm (M - HI))) }
  have hl : Cheb.applyLines lib series sc f pChoice component L n cutOff steep = H.zipIdx.map fun Mk =>
      { size := Mk.2
        error := round4 (calculateErrorNRMSE (Mk.1.mulVec f) fTrue)
        filterError := round4 (some (Cheb.specNorm (Mk.1 - HI)))
        responseError := round4 (calculateErrorNRMSE (fun k => ((lib.eigh _ P).2.transpose * Mk.1 * (lib.eigh _ P).2) k k)
          fun k : Fin sc.E => mask[(k : ℕ)]?.getD 0) } := by
    unfold Cheb.applyLines
    simp only [getEigendecomposition_dense lib hE, okb, h1, h2, h3, Cheb.getAlpha, h4, pure, Except.pure, h5, h6, h7,
      if_neg h8]
    rfl
  refine ⟨H, _, _, by rw [FilterSt.history, setHistory_cur, g1], by rw [FilterSt.history, setHistory_cur, g4],
    by rw [FilterSt.history, setHistory_cur, g5], by rw [hl]; simp, ?_⟩
  intro k line hk
  rw [hl, List.getElem?_map, List.getElem?_zipIdx] at hk
  cases hM : H[k]? with
  | none => rw [hM] at hk; cases hk
  | some M =>
    rw [hM] at hk
    simp only [Option.map_some, Option.some.injEq, Nat.zero_add] at hk
    subst hk
    exact ⟨rfl, ⟨_, by rw [List.getElem?_map, hM]; rfl, rfl⟩, ⟨_, by rw [List.getElem?_map, hM]; rfl, rfl⟩,
      P, M, mask, h1, rfl, h3, rfl⟩

/-! ## Trend filters -/

private theorem mapM_map {α β γ : Type} (l : List α) (F : α → Py β) (k : α → β → γ) :
    l.mapM (fun a => (F a).map (k a)) = (l.mapM F).map (List.zipWith k l) := by
  induction l with
  | nil => rfl
  | cons a l ih =>
    rw [List.mapM_cons, List.mapM_cons, ih]
    cases F a with
    | error e => rfl
    | ok b =>
      cases l.mapM F with
      | error e => rfl
      | ok bs => rfl

private theorem mapM_getElem {α β : Type} {l : List α} {F : α → Py β} {bs : List β} (h : l.mapM F = .ok bs) {i : ℕ} {a : α}
    (ha : l[i]? = some a) : ∃ b, bs[i]? = some b ∧ F a = .ok b := by
  have hF := mapM_eq_ok h
  clear h
  induction hF generalizing i with
  | nil => simp at ha
  | cons h1 _ ih =>
    cases i with
    | zero =>
      simp at ha
      subst ha
      exact ⟨_, by simp, h1⟩
    | succ i => simpa using ih (by simpa using ha)

private theorem mean_zeros (l : List (Option ℝ)) (k : ℕ) :
    npMean (l ++ List.replicate (k * l.length) (some 0)) = (npMean l).map (· / ((k : ℝ) + 1)) := by
  have hz : ∀ n : ℕ, (List.replicate n (some (0 : ℝ))).mapM id = some (List.replicate n 0) := by
    intro n
    induction n with
    | zero => rfl
    | succ n ih => rw [List.replicate_succ, List.mapM_cons, ih]; rfl
  unfold npMean
  rw [List.mapM_append, hz]
  cases hv : l.mapM id with
  | none => rfl
  | some v =>
    have hlen : v.length = l.length := by
      clear hz
      induction l generalizing v with
      | nil => cases hv; rfl
      | cons a l ih =>
        rw [List.mapM_cons] at hv
        cases a with
        | none => cases hv
        | some a =>
          cases hl : l.mapM id with
          | none => rw [hl] at hv; cases hv
          | some w =>
            rw [hl] at hv
            cases hv
            simp [ih w hl]
    simp only [Option.pure_def, Option.bind_eq_bind, Option.bind_some, List.sum_append, List.sum_replicate, smul_zero,
      add_zero, List.length_append, List.length_replicate, hlen]
    unfold fdiv
    by_cases h0 : (l.length : ℝ) = 0
    · simp [Nat.cast_eq_zero.1 h0]
    · have hk : ((k : ℝ) + 1) ≠ 0 := by positivity
      have e : (((l.length + k * l.length : ℕ) : ℝ)) = l.length * (k + 1) := by push_cast; ring
      rw [e, if_neg h0, if_neg (mul_ne_zero h0 hk), Option.map_some, Option.some.injEq, div_div]

/-- the mean error of the noisy flows that the value `db` in position `i` draws -/
noncomputable def noisyError {E : ℕ} (flow : Fin E → ℝ) (db : ℝ) (n : ℕ) (noise : ℕ → Fin E → ℝ) : Option ℝ :=
  npMean ((List.range n).map fun j => calculateErrorNRMSE (noisy flow db (noise j)) flow)

private theorem commit_ok {st st' : TrendHistory E} {r : Py (TrendHistory E)}
    (h : SC.commitHistory st r = (.ok (), st')) : r = .ok st' := by
  cases r with
  | error e => cases h
  | ok a => cases h; rfl

private theorem zip_snd {α β γ δ : Type} (l : List α) (row : List β) (a : α → γ) (q : β → δ) (h : row.length = l.length) :
    (List.zipWith (fun x y => (a x, q y)) l row).map Prod.fst = l.map a ∧
    (List.zipWith (fun x y => (a x, q y)) l row).map Prod.snd = row.map q := by
  induction l generalizing row with
  | nil =>
    cases row with
    | nil => simp
    | cons b row => simp at h
  | cons x l ih =>
    cases row with
    | nil => simp at h
    | cons b row =>
      obtain ⟨h1, h2⟩ := ih row (by simpa using h)
      simp [h1, h2]

variable {sc}

/-- C157, l2 filter: a call that returns has printed one line per signal-to-noise value, in order; its error and correlation
are the stored ones to four decimals, its SNR is the ratio `10 ^ (db / 10)`, and its noisy error is the mean error of the
noisy flows divided by the number of values from this one on.  What is missing: the SNR is labelled dB, and the noisy error
is right in the last line only (`C157_counterexample`). -/
theorem C157_l2_partial (hE : 0 < sc.E) (st st' : TrendHistory sc.E) (flow : Fin sc.E → ℝ) (component : String) (n : ℕ)
    (snrDb : List ℝ) (mu : ℝ) (noise : ℕ → ℕ → Fin sc.E → ℝ)
    (h : sc.denoisingL2 st flow component n snrDb mu noise = (.ok (), st')) :
    ∃ errs cors, st'.errors = some errs ∧ st'.correlations = some cors ∧
      (sc.l2Lines flow component n snrDb mu noise).length = snrDb.length ∧
      ∀ (i : ℕ) (db : ℝ), snrDb[i]? = some db → ∃ line e r, (sc.l2Lines flow component n snrDb mu noise)[i]? = some line ∧
        errs[i]? = some e ∧ cors[i]? = some r ∧
        line.error = round4 e ∧ line.corr = round4 r ∧
        line.label = npRound ((10 : ℝ) ^ (db / 10)) 4 ∧
        line.noisy = some (round4 ((noisyError flow db n (noise i)).map (· / ((snrDb.length : ℝ) - i)))) := by
  have hd := commit_ok h
  unfold SC.l2Design at hd
  unfold SC.l2Lines
  cases hc : SC.checkComponent component with
  | error e => rw [hc] at hd; cases hd
  | ok u =>
    rw [hc, okb] at hd
    simp only at hd ⊢
    let F : Option ℝ × ℕ → ℕ → Py (Matrix (Fin sc.E) (Fin sc.E) ℝ × TrendPass sc.E) := fun pi j => do
      let H ← npInv (1 + mu • sc.L1l)
      let p ← sc.trendPass component flow (H.mulVec (sc.noisyFlow flow pi.1 (noise pi.2 j)))
      pure (H, p)
    have hrow : ∀ pi : Option ℝ × ℕ, ((List.range n).mapM fun j => (do
        let fNoisy := sc.noisyFlow flow pi.1 (noise pi.2 j)
        let errNoisy := calculateErrorNRMSE fNoisy flow
        let H ← npInv (1 + mu • sc.L1l)
        let p ← sc.trendPass component flow (H.mulVec fNoisy)
        pure (errNoisy, p) : Py (Option ℝ × TrendPass sc.E))) =
        ((List.range n).mapM (F pi)).map (List.zipWith (fun j q =>
          (calculateErrorNRMSE (sc.noisyFlow flow pi.1 (noise pi.2 j)) flow, q.2)) (List.range n)) := by
      intro pi
      rw [← mapM_map]
      congr 1
      funext j
      simp only [F]
      cases npInv (1 + mu • sc.L1l) with
      | error e => rfl
      | ok H =>
        simp only [okb]
        cases sc.trendPass component flow (H.mulVec (sc.noisyFlow flow pi.1 (noise pi.2 j))) with
        | error e => rfl
        | ok p => rfl
    simp only [hrow]
    cases hg : (sc.getPowerNoise flow snrDb).1.zipIdx.mapM (fun pi => (List.range n).mapM (F pi)) with
    | error e =>
      have hg' := hg
      simp only [F] at hg'
      rw [hg'] at hd
      cases hd
    | ok grid =>
      have hg' := hg
      simp only [F] at hg'
      rw [hg', okb] at hd
      have hst : st'.errors = some (grid.map fun row => npMean (row.map (·.2.err))) ∧
          st'.correlations = some (grid.map fun row => npMean (row.map (·.2.corr))) := by
        cases hl : grid.flatten.getLast? with
        | none => rw [hl] at hd; cases hd
        | some last =>
          rw [hl] at hd
          cases hd
          simp [SC.trendHistory, Function.comp_def]
      rw [completed_ok _ _ (by rw [mapM_map, hg]; rfl)]
      have hpl : (sc.getPowerNoise flow snrDb).1.length = snrDb.length := by simp [SC.getPowerNoise]
      have hsl : (sc.getPowerNoise flow snrDb).2.length = snrDb.length := by simp [SC.getPowerNoise]
      have hgl : grid.length = snrDb.length := by
        have := (mapM_eq_ok hg).length_eq
        rw [List.length_zipIdx, hpl] at this
        exact this.symm
      refine ⟨_, _, hst.1, hst.2, ?_, ?_⟩
      · simp [hgl, hpl]
      · intro i db hi
        have hlt : i < snrDb.length := (List.getElem?_eq_some_iff.1 hi).1
        have hp := power_at sc flow snrDb hE i db hi
        have hpi : (sc.getPowerNoise flow snrDb).1.zipIdx[i]? =
            some (some (norm2 flow / (10 : ℝ) ^ (db / 10) / sc.E), i) := by
          rw [List.getElem?_zipIdx, hp]; simp
        obtain ⟨row, hr, hF⟩ := mapM_getElem hg hpi
        have hrl : row.length = (List.range n).length := (mapM_eq_ok hF).length_eq.symm
        have hz := zip_snd (List.range n) row
          (fun j => calculateErrorNRMSE (noisy flow db (noise i j)) flow) (fun q => q.2) hrl
        refine ⟨_, npMean (row.map (·.2.err)), npMean (row.map (·.2.corr)),
          by rw [List.getElem?_map, List.getElem?_zipIdx, List.getElem?_zipWith, hpi, hr]; rfl,
          by rw [List.getElem?_map, hr]; rfl, by rw [List.getElem?_map, hr]; rfl, ?_⟩
        · simp only [noisyFlow_eq, Nat.zero_add]
          set zs := List.zipWith (fun j q => (calculateErrorNRMSE (noisy flow db (noise i j)) flow, q.2))
            (List.range n) row with hzs
          have e1 : zs.map (fun x => x.2.err) = row.map fun x => x.2.err := by
            have := congrArg (List.map TrendPass.err) hz.2
            simpa [List.map_map, Function.comp_def] using this
          have e2 : zs.map (fun x => x.2.corr) = row.map fun x => x.2.corr := by
            have := congrArg (List.map TrendPass.corr) hz.2
            simpa [List.map_map, Function.comp_def] using this
          refine ⟨by rw [e1], by rw [e2], ?_, ?_⟩
          · simp [SC.getPowerNoise, hi, calculateSnr]
          · have hm := mean_zeros (zs.map Prod.fst) (snrDb.length - (i + 1))
            have hln : (zs.map Prod.fst).length = n := by rw [hz.1]; simp
            rw [hln] at hm
            rw [hsl]
            change some (round4 (npMean (zs.map Prod.fst ++ _))) = _
            rw [hm, hz.1]
            have : (((snrDb.length - (i + 1) : ℕ) : ℝ)) + 1 = (snrDb.length : ℝ) - i := by
              rw [Nat.cast_sub (by omega)]; push_cast; ring
            rw [this]
            rfl

/-- the lines of the two l1 filters -/
private theorem l1_lines {α : Type} {settings : List α} {label : ℕ → ℝ} {run : α × ℕ → Py (List (TrendPass sc.E))}
    {grid : List (List (TrendPass sc.E))} (hg : settings.zipIdx.mapM run = .ok grid) :
    ((completed run settings.zipIdx).zipIdx.map fun ri =>
      (⟨label ri.2, none, round4 (npMean (ri.1.map (·.err))), round4 (npMean (ri.1.map (·.corr)))⟩ : TrendLine)).length =
      settings.length ∧
    ∀ (i : ℕ) (a : α), settings[i]? = some a → ∃ line e r,
      ((completed run settings.zipIdx).zipIdx.map fun ri =>
        (⟨label ri.2, none, round4 (npMean (ri.1.map (·.err))), round4 (npMean (ri.1.map (·.corr)))⟩ : TrendLine))[i]? =
        some line ∧
      (grid.map fun row => npMean (row.map (·.err)))[i]? = some e ∧
      (grid.map fun row => npMean (row.map (·.corr)))[i]? = some r ∧
      line.error = round4 e ∧ line.corr = round4 r ∧ line.label = label i ∧ line.noisy = none := by
  rw [completed_ok _ _ hg]
  have hl : grid.length = settings.length := by
    have := (mapM_eq_ok hg).length_eq
    rw [List.length_zipIdx] at this
    exact this.symm
  refine ⟨by simp [hl], fun i a hi => ?_⟩
  obtain ⟨row, hr, -⟩ := mapM_getElem hg (i := i) (a := (a, i)) (by rw [List.getElem?_zipIdx, hi]; simp)
  refine ⟨_, _, _, by rw [List.getElem?_map, List.getElem?_zipIdx, hr]; rfl, by rw [List.getElem?_map, hr]; rfl,
    by rw [List.getElem?_map, hr]; rfl, rfl, rfl, by simp, rfl⟩

/-- C157, l1 filter: a call that returns has printed one line per signal-to-noise value, in order, with the stored error and
correlation to four decimals and the ratio `10 ^ (db / 10)`.  What is missing: the ratio is labelled dB. -/
theorem C157_l1_partial (cvx : CvxSolver) (st st' : TrendHistory sc.E) (flow : Fin sc.E → ℝ) (component : String) (n : ℕ)
    (snrDb : List ℝ) (order : Int) (mu : ℝ) (noise : ℕ → ℕ → Fin sc.E → ℝ)
    (h : sc.denoisingL1 cvx st flow component n snrDb order mu noise = (.ok (), st')) :
    ∃ errs cors, st'.errors = some errs ∧ st'.correlations = some cors ∧
      (sc.l1Lines cvx flow component n snrDb order mu noise).length = snrDb.length ∧
      ∀ (i : ℕ) (db : ℝ), snrDb[i]? = some db → ∃ line e r,
        (sc.l1Lines cvx flow component n snrDb order mu noise)[i]? = some line ∧
        errs[i]? = some e ∧ cors[i]? = some r ∧
        line.error = round4 e ∧ line.corr = round4 r ∧
        line.label = npRound ((10 : ℝ) ^ (db / 10)) 4 ∧ line.noisy = none := by
  have hd := commit_ok h
  unfold SC.l1Design at hd
  unfold SC.l1Lines
  cases hc : SC.checkComponent component with
  | error e => rw [hc] at hd; cases hd
  | ok u =>
    rw [hc, okb] at hd
    cases hS : sc.getShiftOperator component order with
    | error e => rw [hS] at hd; cases hd
    | ok S =>
      rw [hS, okb] at hd
      simp only at hd ⊢
      cases hg : (sc.getPowerNoise flow snrDb).1.zipIdx.mapM (fun pi : Option ℝ × ℕ => (List.range n).mapM fun j =>
          (do let x ← cvxSolve cvx (sc.noisyFlow flow pi.1 (noise pi.2 j)) S.2 mu []
              sc.trendPass component flow x : Py (TrendPass sc.E))) with
      | error e => rw [hg] at hd; cases hd
      | ok grid =>
        rw [hg, okb] at hd
        cases hd
        obtain ⟨h1, h2⟩ := l1_lines (label := fun i => npRound ((sc.getPowerNoise flow snrDb).2[i]?.getD 0) 4) hg
        have hpl : (sc.getPowerNoise flow snrDb).1.length = snrDb.length := by simp [SC.getPowerNoise]
        refine ⟨_, _, rfl, rfl, h1.trans hpl, fun i db hi => ?_⟩
        have hp : ∃ a, (sc.getPowerNoise flow snrDb).1[i]? = some a := by
          simp [SC.getPowerNoise, hi]
        obtain ⟨a, ha⟩ := hp
        obtain ⟨line, e, r, q1, q2, q3, q4, q5, q6, q7⟩ := h2 i a ha
        refine ⟨line, e, r, q1, q2, q3, q4, q5, ?_, q7⟩
        rw [q6]
        simp [SC.getPowerNoise, hi, calculateSnr]

/-- C157, interpolation: a call that returns has printed one line per ratio, in order, with that ratio and the stored error
and correlation to four decimals. -/
theorem C157_interpolation (cvx : CvxSolver) (sampler : Sampler sc.E) (st st' : TrendHistory sc.E) (flow : Fin sc.E → ℝ)
    (component : String) (ratio : List ℝ) (n : ℕ) (order : Int) (mu : ℝ)
    (h : sc.interpolationL1 cvx sampler st flow component ratio n order mu = (.ok (), st')) :
    ∃ errs cors, st'.errors = some errs ∧ st'.correlations = some cors ∧
      (sc.interpolationLines cvx sampler flow component ratio n order mu).length = ratio.length ∧
      ∀ (i : ℕ) (x : ℝ), ratio[i]? = some x → ∃ line e r,
        (sc.interpolationLines cvx sampler flow component ratio n order mu)[i]? = some line ∧
        errs[i]? = some e ∧ cors[i]? = some r ∧
        line.error = round4 e ∧ line.corr = round4 r ∧ line.label = x ∧ line.noisy = none := by
  have hd := commit_ok h
  unfold SC.interpolationDesign at hd
  unfold SC.interpolationLines
  cases hc : SC.checkComponent component with
  | error e => rw [hc] at hd; cases hd
  | ok u =>
    rw [hc, okb] at hd
    cases hS : sc.getShiftOperator component order with
    | error e => rw [hS] at hd; cases hd
    | ok S =>
      rw [hS, okb] at hd
      simp only at hd ⊢
      cases hg : ratio.zipIdx.mapM (fun ri : ℝ × ℕ => (List.range n).mapM fun j =>
          (do let obs ← sc.sampleEdges sampler ri.2 j ri.1
              let x ← cvxSolve cvx (sc.maskFlow flow obs) S.2 mu obs
              sc.trendPass component flow x : Py (TrendPass sc.E))) with
      | error e => rw [hg] at hd; cases hd
      | ok grid =>
        rw [hg, okb] at hd
        cases hd
        obtain ⟨h1, h2⟩ := l1_lines (label := fun i => ratio[i]?.getD 0) hg
        refine ⟨_, _, rfl, rfl, h1, fun i x hi => ?_⟩
        obtain ⟨line, e, r, q1, q2, q3, q4, q5, q6, q7⟩ := h2 i x hi
        exact ⟨line, e, r, q1, q2, q3, q4, q5, by rw [q6, hi]; rfl, q7⟩

/-! ## What the lines get wrong -/

/-- C157, the noisy error of the last line of the l2 filter is right. -/
theorem C157_last (hE : 0 < sc.E) (st st' : TrendHistory sc.E) (flow : Fin sc.E → ℝ) (component : String) (n : ℕ)
    (snrDb : List ℝ) (db : ℝ) (mu : ℝ) (noise : ℕ → ℕ → Fin sc.E → ℝ)
    (h : sc.denoisingL2 st flow component n (snrDb ++ [db]) mu noise = (.ok (), st')) :
    ∃ line, (sc.l2Lines flow component n (snrDb ++ [db]) mu noise).getLast? = some line ∧
      line.noisy = some (round4 (noisyError flow db n (noise snrDb.length))) := by
  obtain ⟨errs, cors, -, -, hl, hi⟩ := C157_l2_partial hE st st' flow component n (snrDb ++ [db]) mu noise h
  obtain ⟨line, e, r, q1, -, -, -, -, -, q⟩ := hi snrDb.length db (by simp)
  refine ⟨line, ?_, ?_⟩
  · rw [List.getLast?_eq_getElem?, hl]
    simpa using q1
  · rw [q]
    congr 2
    cases noisyError flow db n (noise snrDb.length) with
    | none => rfl
    | some v => simp

private theorem round_int (z : ℤ) (x : ℝ) (h : x * 10 ^ (4 : ℤ) = z) : npRound x 4 = x := by
  unfold npRound
  rw [h, rint_int, ← h]
  field_simp

private theorem norm2_unit (e : Fin E) (c : ℝ) (hc : 0 ≤ c) : norm2 (Pi.single e c : Fin E → ℝ) = c := by
  unfold norm2
  rw [single_dotProduct, Pi.single_eq_same, Real.sqrt_mul_self hc]

/-- C157 is false for the l2 filter, on every complex with an edge: with the values 0 and 20 dB, one realisation, a unit
flow on the edge `e` and `E` times that as noise, the call returns; its first line gives the noisy error as 0.5 where it is
1, and its second line gives the signal-to-noise ratio as 100 dB. -/
theorem C157_counterexample (hE : 0 < sc.E) (st : TrendHistory sc.E) (e : Fin sc.E) (component : String)
    (hc : component = "divergence" ∨ component = "curl") (mu : ℝ) (hmu : 0 ≤ mu) :
    (∃ st', sc.denoisingL2 st (Pi.single e 1) component 1 [0, 20] mu (fun _ _ => Pi.single e sc.E) = (.ok (), st')) ∧
    noisyError (Pi.single e 1) 0 1 (fun _ => Pi.single e (sc.E : ℝ)) = some 1 ∧
    ∃ l₀ l₁, sc.l2Lines (Pi.single e 1) component 1 [0, 20] mu (fun _ _ => Pi.single e sc.E) = [l₀, l₁] ∧
      l₀.noisy = some (some (1 / 2)) ∧ l₁.label = 100 := by
  obtain ⟨st', H, hst, -⟩ := C67_divergence_partial sc hE st (Pi.single e 1) component hc 1 (by norm_num) [0, 20] (by simp)
    mu hmu (fun _ _ => Pi.single e sc.E)
  have hE' : (sc.E : ℝ) ≠ 0 := by
    have : sc.E ≠ 0 := by omega
    exact_mod_cast this
  have hn : noisyError (Pi.single e 1) 0 1 (fun _ => Pi.single e (sc.E : ℝ)) = some 1 := by
    have hv : noisy (Pi.single e 1) 0 (Pi.single e (sc.E : ℝ)) - Pi.single e 1 = (Pi.single e 1 : Fin sc.E → ℝ) := by
      funext k
      simp only [noisy, Pi.sub_apply, norm2_unit e 1 zero_le_one]
      by_cases hk : k = e
      · subst hk; simp; field_simp
      · simp [hk]
    unfold noisyError
    simp only [List.range_one, List.map_cons, List.map_nil, calculateErrorNRMSE, hv, norm2_unit e 1 zero_le_one]
    simp [npMean, fdiv]
  refine ⟨⟨st', hst⟩, hn, ?_⟩
  obtain ⟨errs, cors, -, -, hl, hi⟩ := C157_l2_partial hE st st' _ component 1 [0, 20] mu _ hst
  obtain ⟨l₀, -, -, q1, -, -, -, -, -, q⟩ := hi 0 0 (by simp)
  obtain ⟨l₁, -, -, p1, -, -, -, -, p, -⟩ := hi 1 20 (by simp)
  refine ⟨l₀, l₁, ?_, ?_, ?_⟩
  · generalize sc.l2Lines (Pi.single e 1) component 1 [0, 20] mu (fun _ _ => Pi.single e (sc.E : ℝ)) = ls at *
    match ls, hl with
    | [a, b], _ =>
      simp at q1 p1
      rw [q1, p1]
  · rw [q, hn]
    simp only [Option.map_some, round4, List.length_cons, List.length_nil]
    rw [round_int 5000 _ (by norm_num)]
    norm_num
  · rw [p, show ((10 : ℝ) ^ ((20 : ℝ) / 10)) = 100 by
      rw [show (20 : ℝ) / 10 = ((2 : ℕ) : ℝ) by norm_num, Real.rpow_natCast]; norm_num]
    exact round_int 1000000 _ (by norm_num)

/-- the hypotheses are met: a call of the edge-flow filter that prints a line and then fails -/
example (lib : NumLib) (st : FilterSt path2.E) (f : Fin path2.E → ℝ) :
    (edgeFlowDenoise lib path2 st f f "L1L" [1 / 2, -1, 2]).1 = .error .linAlgError ∧
      (edgeFlowLines lib path2 f f "L1L" [1 / 2, -1, 2]).length = 1 := by
  have hsing : (1 + (-1 : ℝ) • path2.L1l).det = 0 := by
    rw [← exists_mulVec_eq_zero_iff]
    refine ⟨fun _ => 1, fun h => ?_, ?_⟩
    · have := congrFun h ⟨0, by decide⟩
      norm_num at this
    · have hone : path2.L1l.mulVec (fun _ => 1) = (1 : ℝ) • fun _ => 1 := by
        rw [path2, SC.ofInt_L1l]
        have := mulVec_int (path2B1.transpose * path2B1) (fun _ => 1) (fun _ => 1) (by decide +kernel)
        have h1 : (fun _ : Fin 2 => ((1 : ℤ) : ℝ)) = fun _ => 1 := by funext; simp
        rw [h1] at this
        rw [one_smul]
        exact this
      rw [add_mulVec, one_mulVec, smul_mulVec, hone]
      simp
  have := C157_edge_flow_fails lib path2 (by decide) st f f "L1L" path2.L1l rfl [1 / 2] [2] (-1)
    (fun mu hmu => by
      have : mu = 1 / 2 := by simpa using hmu
      rw [this]
      exact det_ne_zero_of_psd (symmPSD_L1l path2) (by norm_num)) hsing
  simp only [List.cons_append, List.nil_append] at this
  rw [this.1, this.2]
  exact ⟨rfl, rfl⟩

end Pytspl
