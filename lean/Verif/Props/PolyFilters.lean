import Verif.Lemmas.PolyFit
import Verif.Lemmas.FilterHeap
import Verif.Spec.Filters
import Verif.Props.BaseFilter
import Verif.Props.Masks

/-!
# C51, C52, C55-C58: the polynomial filter designs and their history
-/

namespace Pytspl

open Matrix Polynomial

variable {lib : NumLib} {sc : SC ℝ} {E : ℕ}

/-! ## What `_apply_filter` leaves in the history -/

private theorem fitResidual_zip (ev alpha : List ℝ) (h : alpha.length = ev.length) (q : ℝ[X]) :
    fitResidual (ev.zip alpha) q =
      ∑ i : Fin ev.length, (q.eval ev[i] - alpha[(i : ℕ)]?.getD 0) ^ 2 := by
  rw [fitResidual, ← List.sum_ofFn]
  congr 1
  apply List.ext_getElem
  · simp [h]
  · intro i h1 h2
    have hi : i < alpha.length := by simp at h1; omega
    simp [hi]

theorem IsSpectrum.unique {P : Matrix (Fin E) (Fin E) ℝ} {a b : Fin E → ℝ} (ha : IsSpectrum P a)
    (hb : IsSpectrum P b) : a = b := by
  have hp : (List.ofFn a).Perm (List.ofFn b) := by
    rw [← Multiset.coe_eq_coe, ← Fin.univ_val_map, ← Fin.univ_val_map, ← ha.2, hb.2]
  apply List.ofFn_injective
  refine hp.eq_of_pairwise (le := (· ≤ ·)) (fun x y _ _ h1 h2 => le_antisymm h1 h2) ?_ ?_
  · rw [List.pairwise_ofFn]; exact fun i j hij => ha.1 hij.le
  · rw [List.pairwise_ofFn]; exact fun i j hij => hb.1 hij.le

theorem eigh_isSpectrum (lib : NumLib) {P : Matrix (Fin E) (Fin E) ℝ} (hP : SymmPSD P) :
    IsSpectrum P (lib.eigh E P).1 :=
  ⟨(lib.eigh_spec E P hP.1).1, (lib.isEig hP).roots_eq⟩

theorem applied_records {P : Matrix (Fin E) (Fin E) ℝ} (hP : SymmPSD P) {f fTrue : Fin E → ℝ}
    {eigenvals alpha : List ℝ} {L : Int} {a : Applied E}
    (h : applyFilter lib f fTrue P (lib.eigh E P).2 eigenvals alpha L = .ok a)
    (st : FilterSt E) (hst : st.Valid) :
    RecordsFit P f fTrue (eigenvals.zip alpha) L.toNat (setHistory st a.design).history := by
  obtain ⟨hL, hlen⟩ := applyFilter_pos lib h
  rw [applyFilter_eq lib f fTrue P _ eigenvals alpha L hL hlen] at h
  have ha := (Except.ok.inj h).symm
  obtain ⟨g1, g2, g3, g4, -⟩ := setHistory_get st hst a.design
  refine ⟨by omega, polyAt lib (fun i : Fin eigenvals.length => eigenvals[i])
    (fun i => alpha[(i : ℕ)]?.getD 0) L.toNat, ?_, ?_, ?_, ⟨a.resp, g3, ?_, ?_⟩, ⟨a.errs, g4, ?_, ?_⟩⟩
  · intro l hl
    refine ⟨polyAt_natDegree lib _ _ _ l, fun q hq => ?_⟩
    rw [fitResidual_zip _ _ hlen, fitResidual_zip _ _ hlen]
    exact polyAt_min lib _ _ hl q hq
  · rw [FilterSt.history, setHistory_cur, g1, ha]; rfl
  · rw [FilterSt.history, setHistory_cur, g2, ha]; rfl
  · rw [ha]; simp
  · intro l hl lam hlam
    rw [ha, (hlam.unique (eigh_isSpectrum lib hP))]
    simp only [List.getElem?_map, List.getElem?_range hl, Option.map_some, Option.some.injEq]
    funext k
    exact (lib.isEig hP).aeval_diag _ k
  · rw [ha]; simp
  · intro l hl
    rw [ha]
    simp only [List.getElem?_map, List.getElem?_range hl, Option.map_some]

theorem eig_ok {n : ℕ} {A U : Matrix (Fin n) (Fin n) ℝ} {w : Fin n → ℝ} {tol : ℝ}
    (h : getEigendecomposition lib (.ndarray A) tol = .ok (U, w)) :
    0 < n ∧ U = (lib.eigh n A).2 ∧
      w = fun i => if |(lib.eigh n A).1 i| < tol then 0 else (lib.eigh n A).1 i := by
  by_cases hn : n = 0
  · simp [getEigendecomposition, hn] at h
  · rw [getEigendecomposition_dense lib (by omega)] at h
    have := Except.ok.inj h
    exact ⟨by omega, (congrArg Prod.fst this).symm, (congrArg Prod.snd this).symm⟩

/-! ## Inversion of the designs -/

theorem typeOne_inv {f : Fin sc.E → ℝ} {component : String} {L : Int} {a : Applied sc.E}
    (h : LSFilter.typeOneDesign lib sc f component L = .ok a) :
    ∃ (w fTrue : Fin sc.E → ℝ) (alpha : List ℝ),
      getEigendecomposition lib (.ndarray sc.L1) = .ok ((lib.eigh _ sc.L1).2, w) ∧
      sc.getTrueSignal lib f component = .ok fTrue ∧
      sc.getComponentCoefficients lib component = .ok alpha ∧
      applyFilter lib f fTrue sc.L1 (lib.eigh _ sc.L1).2 (List.ofFn w) alpha L = .ok a := by
  unfold LSFilter.typeOneDesign at h
  cases h1 : getEigendecomposition lib (.ndarray sc.L1) with
  | error e => rw [h1] at h; cases h
  | ok r =>
    obtain ⟨U, w⟩ := r
    obtain ⟨-, rfl, -⟩ := eig_ok h1
    cases h2 : sc.getTrueSignal lib f component with
    | error e => rw [h1, h2] at h; cases h
    | ok t =>
      cases h3 : sc.getComponentCoefficients lib component with
      | error e => rw [h1, h2, h3] at h; cases h
      | ok al =>
        rw [h1, h2, h3] at h
        exact ⟨w, t, al, rfl, rfl, rfl, h⟩

/-- the matrix of a type-two design -/
theorem typeTwo_inv {f : Fin sc.E → ℝ} {component : String} {L : Int} {tol : ℝ} {a : Applied sc.E}
    (h : LSFilter.typeTwoDesign lib sc f component L tol = .ok a) :
    ∃ (P : Matrix (Fin sc.E) (Fin sc.E) ℝ) (w fTrue : Fin sc.E → ℝ),
      (component = "gradient" ∧ P = sc.L1l ∨ component = "curl" ∧ P = sc.L1u) ∧
      getEigendecomposition lib (.ndarray P) = .ok ((lib.eigh _ P).2, w) ∧
      sc.getTrueSignal lib f component = .ok fTrue ∧
      applyFilter lib f fTrue P (lib.eigh _ P).2
        (npUnique ((List.ofFn w).map fun x => if |x| < tol then 0 else x))
        ([0] ++ List.replicate
          ((npUnique ((List.ofFn w).map fun x => if |x| < tol then 0 else x)).length - 1) 1) L = .ok a := by
  unfold LSFilter.typeTwoDesign at h
  have key : ∀ P : Matrix (Fin sc.E) (Fin sc.E) ℝ,
      (do
        let (U, eigenvals) ← getEigendecomposition lib (.ndarray P)
        let eigenvals := npUnique ((List.ofFn eigenvals).map fun x => if |x| < tol then 0 else x)
        let fTrue ← sc.getTrueSignal lib f component
        let alpha : List ℝ := [0] ++ List.replicate (eigenvals.length - 1) 1
        applyFilter lib f fTrue P U eigenvals alpha L) = .ok a →
      ∃ (w fTrue : Fin sc.E → ℝ),
        getEigendecomposition lib (.ndarray P) = .ok ((lib.eigh _ P).2, w) ∧
        sc.getTrueSignal lib f component = .ok fTrue ∧
        applyFilter lib f fTrue P (lib.eigh _ P).2
          (npUnique ((List.ofFn w).map fun x => if |x| < tol then 0 else x))
          ([0] ++ List.replicate
            ((npUnique ((List.ofFn w).map fun x => if |x| < tol then 0 else x)).length - 1) 1) L =
          .ok a := by
    intro P h
    cases h1 : getEigendecomposition lib (.ndarray P) with
    | error e => rw [h1] at h; cases h
    | ok r =>
      obtain ⟨U, w⟩ := r
      obtain ⟨-, rfl, -⟩ := eig_ok h1
      cases h2 : sc.getTrueSignal lib f component with
      | error e => rw [h1, h2] at h; cases h
      | ok t =>
        rw [h1, h2] at h
        exact ⟨w, t, rfl, rfl, h⟩
  by_cases hg : component = "gradient"
  · rw [if_pos hg] at h
    obtain ⟨w, t, h1, h2, h3⟩ := key sc.L1l h
    exact ⟨sc.L1l, w, t, .inl ⟨hg, rfl⟩, h1, h2, h3⟩
  · by_cases hc : component = "curl"
    · rw [if_neg hg, if_pos hc] at h
      obtain ⟨w, t, h1, h2, h3⟩ := key sc.L1u h
      exact ⟨sc.L1u, w, t, .inr ⟨hc, rfl⟩, h1, h2, h3⟩
    · rw [if_neg hg, if_neg hc] at h; cases h

theorem extraction_inv {f : Fin sc.E → ℝ} {component pChoice : String} {L num : Int}
    {mu cutOff steep : ℝ} {a : Applied sc.E}
    (h : GridFilter.extractionDesign lib sc f component pChoice L num mu cutOff steep = .ok a) :
    ∃ (P : Matrix (Fin sc.E) (Fin sc.E) ℝ) (fTrue : Fin sc.E → ℝ) (resp : List (Option ℝ))
      (pts : List ℝ), sc.getPMatrix pChoice = .ok P ∧
      GridFilter.sampledResponse P num mu = .ok (some (resp, pts)) ∧
      sc.getTrueSignal lib f component = .ok fTrue ∧
      applyFilter lib f fTrue P (lib.eigh _ P).2 pts (pts.map (logisticFunction cutOff steep)) L =
        .ok a := by
  unfold GridFilter.extractionDesign at h
  cases h0 : sc.getPMatrix pChoice with
  | error e => rw [h0] at h; cases h
  | ok P =>
    cases h1 : getEigendecomposition lib (.ndarray P) with
    | error e => rw [h0] at h; simp only [bind, Except.bind, h1] at h; cases h
    | ok r =>
      obtain ⟨U, w⟩ := r
      obtain ⟨-, rfl, -⟩ := eig_ok h1
      cases h2 : GridFilter.sampledResponse P num mu with
      | error e => rw [h0] at h; simp only [bind, Except.bind, h1, h2] at h; cases h
      | ok s =>
        cases h3 : sc.getTrueSignal lib f component with
        | error e => rw [h0] at h; simp only [bind, Except.bind, h1, h2, h3] at h; cases h
        | ok t =>
          rw [h0] at h
          simp only [bind, Except.bind, h1, h2, h3] at h
          cases s with
          | none =>
            simp only [Option.map_none, GridFilter.applyFilterF] at h
            split_ifs at h
          | some d =>
            obtain ⟨resp, pts⟩ := d
            exact ⟨P, t, resp, pts, rfl, h2, rfl, h⟩

theorem denoise_inv {f fTrue : Fin sc.E → ℝ} {pChoice : String} {L : Int} {mu : ℝ} {a : Applied sc.E}
    (h : GridFilter.denoiseDesign lib sc f fTrue pChoice L mu = .ok a) :
    ∃ (P : Matrix (Fin sc.E) (Fin sc.E) ℝ) (resp : List (Option ℝ)) (pts g : List ℝ),
      sc.getPMatrix pChoice = .ok P ∧
      GridFilter.sampledResponse P sc.E mu = .ok (some (resp, pts)) ∧ resp = g.map some ∧
      applyFilter lib f fTrue P (lib.eigh _ P).2 pts g L = .ok a := by
  unfold GridFilter.denoiseDesign at h
  cases h0 : sc.getPMatrix pChoice with
  | error e => rw [h0] at h; cases h
  | ok P =>
    cases h1 : getEigendecomposition lib (.ndarray P) with
    | error e => rw [h0] at h; simp only [bind, Except.bind, h1] at h; cases h
    | ok r =>
      obtain ⟨U, w⟩ := r
      obtain ⟨-, rfl, -⟩ := eig_ok h1
      cases h2 : GridFilter.sampledResponse P sc.E mu with
      | error e => rw [h0] at h; simp only [bind, Except.bind, h1, h2] at h; cases h
      | ok s =>
        rw [h0] at h
        simp only [bind, Except.bind, h1, h2] at h
        cases s with
        | none =>
          simp only [Option.bind_none, GridFilter.applyFilterF] at h
          split_ifs at h
        | some d =>
          obtain ⟨resp, pts⟩ := d
          simp only [Option.bind_some] at h
          cases hg : resp.mapM id with
          | none =>
            simp only [hg, Option.bind_none, GridFilter.applyFilterF] at h
            split_ifs at h
          | some g =>
            simp only [hg, Option.bind_some, GridFilter.applyFilterF, pure] at h
            refine ⟨P, resp, pts, g, rfl, h2, ?_, h⟩
            clear h h2
            induction resp generalizing g with
            | nil => simp at hg; simp [← hg]
            | cons x l ih =>
              rw [List.mapM_cons] at hg
              cases x with
              | none => simp at hg
              | some y =>
                cases hl : l.mapM id with
                | none => simp [hl] at hg
                | some g' =>
                  simp only [id, hl, Option.bind_eq_bind, Option.bind_some, Option.pure_def,
                    Option.some.injEq] at hg
                  rw [← hg, ih g' hl]; rfl

theorem record_ok {st st' : FilterSt E} {r : Py (Applied E)} (h : recordDesign st r = (.ok (), st')) :
    ∃ a, r = .ok a ∧ st' = setHistory st a.design := by
  cases r with
  | error e => simp [recordDesign] at h
  | ok a =>
    simp only [recordDesign, Prod.mk.injEq, true_and] at h
    exact ⟨a, rfl, h.symm⟩

/-! ## C51, C52 -/

/-- C51/C52 for `LSFilterDesign.subcomponent_extraction_type_one`: whatever the state before, a call
that returns has recorded a polynomial filter in the Hodge Laplacian of least residual for the
component mask at the eigenvalues. -/
theorem C51_type_one (st st' : FilterSt sc.E) (f : Fin sc.E → ℝ) (component : String) (L : Int)
    (h : LSFilter.typeOne lib sc st f component L = (.ok (), st')) :
    ∃ (U : Matrix (Fin sc.E) (Fin sc.E) ℝ) (w fTrue : Fin sc.E → ℝ) (mask : List ℝ),
      getEigendecomposition lib (.ndarray sc.L1) = .ok (U, w) ∧
      sc.getComponentFlow lib f component false = .ok fTrue ∧
      sc.getComponentCoefficients lib component = .ok mask ∧
      RecordsFit sc.L1 f fTrue ((List.ofFn w).zip mask) L.toNat st'.history := by
  obtain ⟨a, ha, rfl⟩ := record_ok h
  obtain ⟨w, t, al, h1, h2, h3, h4⟩ := typeOne_inv ha
  exact ⟨_, w, t, al, h1, h2, h3, applied_records (symmPSD_L1 sc) h4 _ (resetHistory_valid st)⟩

/-- C51/C52 for `LSFilterDesign.subcomponent_extraction_type_two`: a polynomial filter in the lower
Laplacian for the gradient and in the upper one for the curl.  It is fitted at the distinct eigenvalues
(small ones count as 0) to the target 0 at the smallest of them and 1 at the others. -/
theorem C51_type_two (st st' : FilterSt sc.E) (f : Fin sc.E → ℝ) (component : String) (L : Int) (tol : ℝ)
    (h : LSFilter.typeTwo lib sc st f component L tol = (.ok (), st')) :
    ∃ (P : Matrix (Fin sc.E) (Fin sc.E) ℝ) (fTrue lam : Fin sc.E → ℝ) (pts : List (ℝ × ℝ)),
      (component = "gradient" ∧ P = sc.L1l ∨ component = "curl" ∧ P = sc.L1u) ∧
      sc.getComponentFlow lib f component false = .ok fTrue ∧ IsSpectrum P lam ∧
      (pts.map Prod.fst).Pairwise (· < ·) ∧
      (∀ x, x ∈ pts.map Prod.fst ↔ ∃ k, x = if |lam k| < max machineEps tol then 0 else lam k) ∧
      (∀ i x, pts[i]? = some x → x.2 = if i = 0 then 0 else 1) ∧
      RecordsFit P f fTrue pts L.toNat st'.history := by
  obtain ⟨a, ha, rfl⟩ := record_ok h
  obtain ⟨P, w, t, h0, h1, h2, h3⟩ := typeTwo_inv ha
  have hP : SymmPSD P := by
    rcases h0 with ⟨-, rfl⟩ | ⟨-, rfl⟩
    · exact symmPSD_L1l sc
    · exact symmPSD_L1u sc
  obtain ⟨hE, -, hw⟩ := eig_ok h1
  set ev := npUnique ((List.ofFn w).map fun x => if |x| < tol then 0 else x) with hev
  have hne : ev ≠ [] := by
    intro hnil
    have : (if |w ⟨0, hE⟩| < tol then 0 else w ⟨0, hE⟩) ∈ ev := by
      rw [hev, npUnique, Finset.mem_sort, List.mem_toFinset]
      exact List.mem_map.2 ⟨_, (List.mem_ofFn).2 ⟨_, rfl⟩, rfl⟩
    rw [hnil] at this
    cases this
  have hlen : ([0] ++ List.replicate (ev.length - 1) (1 : ℝ)).length = ev.length := by
    have := List.length_pos_iff.2 hne
    simp only [List.cons_append, List.nil_append, List.length_cons, List.length_replicate]
    omega
  have hfst : ((ev.zip ([0] ++ List.replicate (ev.length - 1) (1 : ℝ))).map Prod.fst) = ev :=
    List.map_fst_zip hlen.ge
  refine ⟨P, t, (lib.eigh _ P).1, _, h0, h2, eigh_isSpectrum lib hP, ?_, ?_, ?_,
    applied_records hP h3 _ (resetHistory_valid st)⟩
  · rw [hfst]
    exact Finset.sortedLT_sort _ |>.pairwise
  · intro x
    rw [hfst, hev, npUnique, Finset.mem_sort, List.mem_toFinset, List.mem_map]
    have e : ∀ k, (if |w k| < tol then 0 else w k) =
        if |(lib.eigh _ P).1 k| < max machineEps tol then 0 else (lib.eigh _ P).1 k := by
      intro k
      rw [hw]
      simp only [lt_max_iff]
      by_cases c1 : |(lib.eigh _ P).1 k| < machineEps <;> by_cases c2 : |(lib.eigh _ P).1 k| < tol <;>
        simp [c1, c2]
    constructor
    · rintro ⟨y, hy, rfl⟩
      obtain ⟨k, rfl⟩ := (List.mem_ofFn).1 hy
      exact ⟨k, e k⟩
    · rintro ⟨k, rfl⟩
      exact ⟨w k, (List.mem_ofFn).2 ⟨k, rfl⟩, e k⟩
  · intro i x hx
    obtain ⟨-, hx2⟩ := List.getElem?_zip_eq_some.1 hx
    cases i with
    | zero => simpa using hx2.symm
    | succ i =>
      simp only [List.cons_append, List.nil_append, List.getElem?_cons_succ, List.getElem?_replicate] at hx2
      split_ifs at hx2
      simpa using hx2.symm

/-- C51/C52 for `GridBasedFilterDesign.subcomponent_extraction`: a polynomial filter in the chosen
Laplacian fitted to the logistic response at the sampled frequencies. -/
theorem C51_grid_extraction (st st' : FilterSt sc.E) (hst : st.Valid) (f : Fin sc.E → ℝ)
    (component pChoice : String) (L num : Int) (mu cutOff steep : ℝ)
    (h : GridFilter.subcomponentExtraction lib sc st f component pChoice L num mu cutOff steep =
      (.ok (), st')) :
    ∃ (P : Matrix (Fin sc.E) (Fin sc.E) ℝ) (fTrue : Fin sc.E → ℝ) (resp : List (Option ℝ))
      (pts : List ℝ), sc.getPMatrix pChoice = .ok P ∧
      sc.getComponentFlow lib f component false = .ok fTrue ∧
      GridFilter.sampledResponse P num mu = .ok (some (resp, pts)) ∧
      RecordsFit P f fTrue (pts.map fun x => (x, logisticFunction cutOff steep x)) L.toNat
        st'.history := by
  obtain ⟨a, ha, rfl⟩ := record_ok h
  obtain ⟨P, t, resp, pts, h0, h1, h2, h3⟩ := extraction_inv ha
  refine ⟨P, t, resp, pts, h0, h2, h1, ?_⟩
  have e : (pts.map fun x => (x, logisticFunction cutOff steep x)) =
      pts.zip (pts.map (logisticFunction cutOff steep)) := by
    clear h3 h1
    induction pts with
    | nil => rfl
    | cons x l ih => simp [ih]
  rw [e]
  exact applied_records (getPMatrix_psd h0) h3 _ hst

/-- C51/C52 for `GridBasedFilterDesign.denoise`: a polynomial filter in the chosen Laplacian fitted to
`1 / (1 + mu * frequency)` at the sampled frequencies. -/
theorem C51_grid_denoise (st st' : FilterSt sc.E) (hst : st.Valid) (f fTrue : Fin sc.E → ℝ)
    (pChoice : String) (L : Int) (mu : ℝ)
    (h : GridFilter.denoise lib sc st f fTrue pChoice L mu = (.ok (), st')) :
    ∃ (P : Matrix (Fin sc.E) (Fin sc.E) ℝ) (resp : List (Option ℝ)) (pts : List ℝ),
      sc.getPMatrix pChoice = .ok P ∧
      GridFilter.sampledResponse P sc.E mu = .ok (some (resp, pts)) ∧
      RecordsFit P f fTrue (pts.map fun x => (x, 1 / (1 + mu * x))) L.toNat st'.history := by
  obtain ⟨a, ha, rfl⟩ := record_ok h
  obtain ⟨P, resp, pts, g, h0, h1, h2, h3⟩ := denoise_inv ha
  refine ⟨P, resp, pts, h0, h1, ?_⟩
  have hr : resp = pts.map fun x => GridFilter.frequencyResponseHp x mu := by
    unfold GridFilter.sampledResponse at h1
    cases hs : GridFilter.sampleGridPoints P (sc.E : Int) with
    | error e => rw [hs] at h1; cases h1
    | ok o =>
      rw [hs] at h1
      cases o with
      | none => cases h1
      | some q =>
        have := Option.some.inj (Except.ok.inj h1)
        simp only [Prod.mk.injEq] at this
        rw [← this.1, this.2]
  have hg : g = pts.map fun x => 1 / (1 + mu * x) := by
    rw [h2] at hr
    clear h3 h1 h2
    induction pts generalizing g with
    | nil => simpa using hr
    | cons x l ih =>
      cases g with
      | nil => simp at hr
      | cons y g' =>
        simp only [List.map_cons, List.cons.injEq, GridFilter.frequencyResponseHp, fdiv] at hr ⊢
        refine ⟨?_, ih g' hr.2⟩
        have := hr.1
        split_ifs at this
        exact Option.some.inj this
  have e : (pts.map fun x => (x, 1 / (1 + mu * x))) = pts.zip g := by
    rw [hg]
    clear h3 h1 hr h2 hg
    induction pts with
    | nil => rfl
    | cons x l ih => rw [List.map_cons, List.map_cons, List.zip_cons_cons, ih]
  rw [e]
  exact applied_records (getPMatrix_psd h0) h3 _ hst

/-- C51: consequences of what is recorded: the stored filter is a polynomial of degree below the
filter size in the Laplacian, so it commutes with it; and the estimate is the filtered flow. -/
theorem C51_consequences (P : Matrix (Fin E) (Fin E) ℝ) (f fTrue : Fin E → ℝ) (pts : List (ℝ × ℝ))
    (L : ℕ) (d : HDict E) (h : RecordsFit P f fTrue pts L d) :
    ∃ (H : Matrix (Fin E) (Fin E) ℝ) (p : ℝ[X]), d.get? "filter" = some (.mat H) ∧
      d.get? "f_estimated" = some (.vec (H.mulVec f)) ∧ p.natDegree < L ∧ H = aeval P p ∧
      H * P = P * H := by
  obtain ⟨hL, p, h1, h2, h3, -, -⟩ := h
  have hd := (h1 (L - 1) (by omega)).1
  refine ⟨_, p (L - 1), h2, h3, by omega, rfl, ?_⟩
  have h4 := congrArg (aeval P) (mul_comm (p (L - 1)) X)
  rwa [map_mul, map_mul, aeval_X] at h4

/-- C52: the residual of the fit never increases with the filter size, and each fit is optimal for its
degree; here in terms of the recorded frequency responses of a type-one design, which are the fitted
values at the eigenvalues. -/
theorem C52_residual (P : Matrix (Fin E) (Fin E) ℝ) (f fTrue : Fin E → ℝ) (pts : List (ℝ × ℝ)) (L : ℕ)
    (d : HDict E) (h : RecordsFit P f fTrue pts L d) :
    ∃ p : ℕ → ℝ[X],
      d.get? "filter" = some (.mat (aeval P (p (L - 1)))) ∧
      (∀ l < L, ∀ q : ℝ[X], q.natDegree ≤ l → fitResidual pts (p l) ≤ fitResidual pts q) ∧
      (∀ l, l + 1 < L → fitResidual pts (p (l + 1)) ≤ fitResidual pts (p l)) ∧
      (∀ resp, d.get? "frequency_responses" = some (.rows resp) →
        ∀ lam, IsSpectrum P lam → ∀ l < L, ∀ alpha : Fin E → ℝ,
          pts = List.ofFn (fun k => (lam k, alpha k)) →
          ∃ r, resp[l]? = some r ∧ fitResidual pts (p l) = ∑ k, (r k - alpha k) ^ 2) := by
  obtain ⟨hL, p, h1, h2, h3, ⟨resp, h4, h5, h6⟩, -⟩ := h
  refine ⟨p, h2, fun l hl => (h1 l hl).2, fun l hl => ?_, ?_⟩
  · exact (h1 (l + 1) hl).2 _ ((h1 l (by omega)).1.trans (by omega))
  · intro resp' hr lam hlam l hl alpha hpts
    rw [h4] at hr
    have : resp = resp' := by simpa using hr
    subst this
    refine ⟨_, h6 l hl lam hlam, ?_⟩
    rw [fitResidual, hpts, List.map_ofFn, List.sum_ofFn]
    rfl

end Pytspl
