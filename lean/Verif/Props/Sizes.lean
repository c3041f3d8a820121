import Verif.Props.LibIndependence
import Verif.Props.FilterHistory

/-!
# C158: a larger filter records the curves of all smaller ones
-/

namespace Pytspl

open Matrix Polynomial

variable {E m : ℕ}

/-- the error curve and the responses that a history holds -/
def HDict.Curves (d : HDict E) (errs : List (Option ℝ)) (resp : List (Fin E → ℝ)) : Prop :=
  d.get? "extracted_component_error" = some (.errs errs) ∧ d.get? "frequency_responses" = some (.rows resp)

/-- the fitted polynomial of a pass does not depend on the number of passes to come -/
theorem polyAt_size (lib : NumLib) (ev al : Fin m → ℝ) {L l : ℕ} (hl : l < L) :
    polyAt lib ev al L l = polyAt lib ev al (l + 1) l := by
  set h := coefAt lib ev al L l with hh
  set g := coefAt lib ev al (l + 1) l with hg
  let y : Fin L → ℝ := fun j => if hj : (j : ℕ) < l + 1 then g ⟨j, hj⟩ else 0
  let x : Fin (l + 1) → ℝ := fun j => h ⟨j, by omega⟩
  -- sums over the longer index reduce to the shorter one
  have sum_short : ∀ F : ℕ → ℝ, (∑ j : Fin L, if (j : ℕ) < l + 1 then F j else 0) = ∑ j : Fin (l + 1), F j := by
    intro F
    rw [Finset.sum_fin_eq_sum_range, Finset.sum_fin_eq_sum_range]
    have : Finset.range (l + 1) ⊆ Finset.range L := by
      intro i hi; simp only [Finset.mem_range] at *; omega
    rw [← Finset.sum_subset this]
    · refine Finset.sum_congr rfl fun i hi => ?_
      have hi' := Finset.mem_range.1 hi
      simp [hi', show i < L by omega]
    · intro i hi hn
      have h1 := Finset.mem_range.1 hi
      have h2 : ¬ i < l + 1 := fun c => hn (Finset.mem_range.2 c)
      simp [h1, h2]
  have ext_of : ∀ u : Fin L → ℝ, (∀ j : Fin L, ¬ (j : ℕ) < l + 1 → u j = 0) → ∀ i,
      (sysAt ev L (l + 1)).mulVec u i =
        (sysAt ev (l + 1) (l + 1)).mulVec (fun j : Fin (l + 1) => u ⟨j, by omega⟩) i := by
    intro u _ i
    rw [sys_mulVec, sys_mulVec]
    have := sum_short fun j => (if hj : j < L then u ⟨j, hj⟩ else 0) * ev i ^ j
    rw [show (∑ j : Fin L, if (j : ℕ) < l + 1 then u j * ev i ^ (j : ℕ) else 0) =
      ∑ j : Fin L, if (j : ℕ) < l + 1 then (if hj : (j : ℕ) < L then u ⟨j, hj⟩ else 0) * ev i ^ (j : ℕ) else 0 from
      Finset.sum_congr rfl fun j _ => by simp, this]
    refine Finset.sum_congr rfl fun j _ => ?_
    rw [dif_pos (show (j : ℕ) < L by omega), if_pos j.2]
  have dot_of : ∀ u : Fin L → ℝ, (∀ j : Fin L, ¬ (j : ℕ) < l + 1 → u j = 0) →
      u ⬝ᵥ u = (fun j : Fin (l + 1) => u ⟨j, by omega⟩) ⬝ᵥ fun j : Fin (l + 1) => u ⟨j, by omega⟩ := by
    intro u hu
    have := sum_short fun j => if hj : j < L then u ⟨j, hj⟩ * u ⟨j, hj⟩ else 0
    have e : u ⬝ᵥ u = ∑ j : Fin L, if (j : ℕ) < l + 1 then
        (if hj : (j : ℕ) < L then u ⟨j, hj⟩ * u ⟨j, hj⟩ else 0) else 0 := by
      refine Finset.sum_congr rfl fun j _ => ?_
      by_cases hj : (j : ℕ) < l + 1
      · simp [hj]
      · rw [hu j hj]; simp [hj]
    rw [e, this]
    refine Finset.sum_congr rfl fun j _ => ?_
    have hj := j.2
    simp [show (j : ℕ) < L by omega]
  have hz : ∀ j : Fin L, ¬ (j : ℕ) < l + 1 → h j = 0 := fun j hj => coefAt_zero lib ev al l j (by omega)
  have yz : ∀ j : Fin L, ¬ (j : ℕ) < l + 1 → y j = 0 := fun j hj => dif_neg hj
  have yg : (fun j : Fin (l + 1) => y ⟨j, by omega⟩) = g := by
    funext j
    exact dif_pos j.2
  -- both are least-squares solutions of the short system
  have hx : (sysAt ev (l + 1) (l + 1)).mulVec x = (sysAt ev (l + 1) (l + 1)).mulVec g := by
    refine IsProj.unique (A := sysAt ev (l + 1) (l + 1)) (b := al) ⟨⟨x, rfl⟩, ?_⟩ (lib.isProj _ al)
    have hmin : ∀ z : Fin (l + 1) → ℝ, ((sysAt ev (l + 1) (l + 1)).mulVec x - al) ⬝ᵥ
        ((sysAt ev (l + 1) (l + 1)).mulVec x - al) ≤
        ((sysAt ev (l + 1) (l + 1)).mulVec z - al) ⬝ᵥ ((sysAt ev (l + 1) (l + 1)).mulVec z - al) := by
      intro z
      have h1 := lib.lstsq_min m L (sysAt ev L (l + 1)) al
        (fun j => if hj : (j : ℕ) < l + 1 then z ⟨j, hj⟩ else 0)
      have e1 : (sysAt ev L (l + 1)).mulVec (lib.lstsq m L (sysAt ev L (l + 1)) al) =
          (sysAt ev (l + 1) (l + 1)).mulVec x := funext fun i => ext_of h hz i
      have e2 : (sysAt ev L (l + 1)).mulVec (fun j => if hj : (j : ℕ) < l + 1 then z ⟨j, hj⟩ else 0) =
          (sysAt ev (l + 1) (l + 1)).mulVec z := by
        funext i
        rw [ext_of _ (fun j hj => dif_neg hj)]
        have : (fun j : Fin (l + 1) => if hj : (j : ℕ) < l + 1 then z ⟨j, hj⟩ else 0) = z :=
          funext fun j => dif_pos j.2
        exact congrFun (congrArg _ this) i
      rwa [e1, e2] at h1
    have := normal_of_min _ _ _ hmin
    rw [mulVec_sub, sub_eq_zero] at this
    exact this
  have l1 : h ⬝ᵥ h ≤ ((1 / 2 : ℝ) • (h + y)) ⬝ᵥ ((1 / 2 : ℝ) • (h + y)) := by
    refine lib.lstsq_least m L (sysAt ev L (l + 1)) al _ ?_
    have hA : (sysAt ev L (l + 1)).mulVec y = (sysAt ev L (l + 1)).mulVec h := by
      funext i
      rw [ext_of y yz, ext_of h hz, yg]
      exact (congrFun hx i).symm
    rw [mulVec_smul, mulVec_add, hA, ← two_smul ℝ, smul_smul]
    norm_num
    rfl
  have l2 : y ⬝ᵥ y ≤ h ⬝ᵥ h := by
    rw [dot_of y yz, yg, dot_of h hz]
    exact lib.lstsq_least m (l + 1) (sysAt ev (l + 1) (l + 1)) al x hx
  have e : ((1 / 2 : ℝ) • (h + y)) ⬝ᵥ ((1 / 2 : ℝ) • (h + y)) =
      (h ⬝ᵥ h + y ⬝ᵥ y) / 2 - ((h - y) ⬝ᵥ (h - y)) / 4 := by
    simp only [smul_dotProduct, dotProduct_smul, add_dotProduct, dotProduct_add, sub_dotProduct,
      dotProduct_sub, smul_eq_mul, dotProduct_comm y h]
    ring
  rw [e] at l1
  have h0 : (h - y) ⬝ᵥ (h - y) = 0 := le_antisymm (by linarith) (dot_self_nonneg _)
  have hy : h = y := sub_eq_zero.1 (dotProduct_self_eq_zero.1 h0)
  have p1 : polyAt lib ev al L l = ∑ j : Fin L, C (h j) * X ^ (j : ℕ) := rfl
  have p2 : polyAt lib ev al (l + 1) l = ∑ j : Fin (l + 1), C (g j) * X ^ (j : ℕ) := rfl
  rw [p1, p2]
  rw [Finset.sum_fin_eq_sum_range, Finset.sum_fin_eq_sum_range]
  have hsub : Finset.range (l + 1) ⊆ Finset.range L := by
    intro i hi; simp only [Finset.mem_range] at *; omega
  rw [← Finset.sum_subset hsub]
  · refine Finset.sum_congr rfl fun i hi => ?_
    have hi' := Finset.mem_range.1 hi
    rw [dif_pos (show i < L by omega), dif_pos hi', hy]
    exact congrArg (fun c => C c * X ^ i) (dif_pos hi')
  · intro i hi hn
    have h1 := Finset.mem_range.1 hi
    have h2 : ¬ i < l + 1 := fun c => hn (Finset.mem_range.2 c)
    rw [dif_pos h1, hz ⟨i, h1⟩ h2]
    simp

/-- `_apply_filter` with fewer passes -/
theorem applyFilter_size (lib : NumLib) {f fTrue : Fin E → ℝ} {P U : Matrix (Fin E) (Fin E) ℝ} {ev al : List ℝ}
    {L L' : Int} (h0 : 0 < L') (hle : L' ≤ L) {a : Applied E} (h : applyFilter lib f fTrue P U ev al L = .ok a) :
    ∃ a', applyFilter lib f fTrue P U ev al L' = .ok a' ∧ a'.errs = a.errs.take L'.toNat ∧
      a'.resp = a.resp.take L'.toNat ∧ a.errs.length = L.toNat ∧ a.resp.length = L.toNat := by
  obtain ⟨hL, hlen⟩ := applyFilter_pos lib h
  rw [applyFilter_eq lib f fTrue P U ev al L hL hlen] at h
  have ha := (Except.ok.inj h).symm
  refine ⟨_, applyFilter_eq lib f fTrue P U ev al L' h0 hlen, ?_, ?_, ?_, ?_⟩
  · rw [ha]
    simp only
    rw [← List.map_take, List.take_range, show min L'.toNat L.toNat = L'.toNat by omega]
    refine List.map_congr_left fun l hl => ?_
    have hl' := List.mem_range.1 hl
    rw [polyAt_size lib _ _ hl', polyAt_size lib _ _ (show l < L.toNat by omega)]
  · rw [ha]
    simp only
    rw [← List.map_take, List.take_range, show min L'.toNat L.toNat = L'.toNat by omega]
    refine List.map_congr_left fun l hl => ?_
    have hl' := List.mem_range.1 hl
    rw [polyAt_size lib _ _ hl', polyAt_size lib _ _ (show l < L.toNat by omega)]
  · rw [ha]; simp
  · rw [ha]; simp

/-- the property of a design that C158 is about -/
private def Shrinks (D : Int → Py (Applied E)) : Prop :=
  ∀ L L' : Int, 0 < L' → L' ≤ L → ∀ a, D L = .ok a →
    ∃ a', D L' = .ok a' ∧ a'.errs = a.errs.take L'.toNat ∧ a'.resp = a.resp.take L'.toNat ∧
      a.errs.length = L.toNat ∧ a.resp.length = L.toNat

private theorem Shrinks.bind {α : Type} (r : Py α) {D : α → Int → Py (Applied E)} (h : ∀ x, Shrinks (D x)) :
    Shrinks fun L => r >>= fun x => D x L := by
  intro L L' h0 hle a ha
  cases r with
  | error e => cases ha
  | ok x => exact h x L L' h0 hle a ha

private theorem Shrinks.error (e : PyErr) : Shrinks fun _ => (.error e : Py (Applied E)) := by
  intro L L' h0 hle a ha
  cases ha

private theorem shrinks_apply (lib : NumLib) (f fTrue : Fin E → ℝ) (P U : Matrix (Fin E) (Fin E) ℝ) (ev al : List ℝ) :
    Shrinks fun L => applyFilter lib f fTrue P U ev al L :=
  fun _ _ h0 hle _ ha => applyFilter_size lib h0 hle ha

private theorem shrinks_applyF (lib : NumLib) (f fTrue : Fin E → ℝ) (P U : Matrix (Fin E) (Fin E) ℝ)
    (data : Option (List ℝ × List ℝ)) : Shrinks fun L => GridFilter.applyFilterF lib f fTrue P U data L := by
  intro L L' h0 hle a ha
  cases data with
  | none =>
    unfold GridFilter.applyFilterF at ha
    simp only at ha
    split_ifs at ha
  | some d => exact applyFilter_size lib h0 hle ha

private theorem curves_of (st : FilterSt E) (hst : st.Valid) (a : Applied E) :
    (setHistory st a.design).history.Curves a.errs a.resp := by
  obtain ⟨-, -, g3, g4, -⟩ := setHistory_get st hst a.design
  constructor
  · rw [FilterSt.history, setHistory_cur, g4]; rfl
  · rw [FilterSt.history, setHistory_cur, g3]; rfl

private theorem record_size {D : Int → Py (Applied E)} (hD : Shrinks D) {L L' : Int} (h0 : 0 < L') (hle : L' ≤ L)
    (st st' : FilterSt E) (hst : st.Valid) (hst' : st'.Valid) (h : (recordDesign st (D L)).1 = .ok ()) :
    (recordDesign st' (D L')).1 = .ok () ∧ ∃ errs resp,
      (errs.length : Int) = L ∧ (resp.length : Int) = L ∧
      (recordDesign st (D L)).2.history.Curves errs resp ∧
      (recordDesign st' (D L')).2.history.Curves (errs.take L'.toNat) (resp.take L'.toNat) := by
  cases hL : D L with
  | error e => rw [hL] at h; cases h
  | ok a =>
    obtain ⟨a', e1, e2, e3, e4, e5⟩ := hD L L' h0 hle a hL
    rw [e1]
    refine ⟨rfl, a.errs, a.resp, by omega, by omega, curves_of st hst a, ?_⟩
    rw [← e2, ← e3]
    exact curves_of st' hst' a'

variable (lib : NumLib) (sc : SC ℝ)

/-- C158, least-squares filters: when a call of size `L` returns, so does every call of a smaller positive size with the same
flow and component; the call of size `L` records `L` errors and `L` frequency responses, and their first `L'` entries are
what the call of size `L'` records, whatever the two filter objects were used for before. -/
theorem C158_ls (f : Fin sc.E → ℝ) (component : String) (tol : ℝ) (L L' : Int) (h0 : 0 < L') (hle : L' ≤ L)
    (st st' : FilterSt sc.E) :
    ((LSFilter.typeOne lib sc st f component L).1 = .ok () →
      (LSFilter.typeOne lib sc st' f component L').1 = .ok () ∧ ∃ errs resp,
        (errs.length : Int) = L ∧ (resp.length : Int) = L ∧
        (LSFilter.typeOne lib sc st f component L).2.history.Curves errs resp ∧
        (LSFilter.typeOne lib sc st' f component L').2.history.Curves (errs.take L'.toNat) (resp.take L'.toNat)) ∧
    ((LSFilter.typeTwo lib sc st f component L tol).1 = .ok () →
      (LSFilter.typeTwo lib sc st' f component L' tol).1 = .ok () ∧ ∃ errs resp,
        (errs.length : Int) = L ∧ (resp.length : Int) = L ∧
        (LSFilter.typeTwo lib sc st f component L tol).2.history.Curves errs resp ∧
        (LSFilter.typeTwo lib sc st' f component L' tol).2.history.Curves (errs.take L'.toNat)
          (resp.take L'.toNat)) := by
  constructor
  · refine record_size (D := fun L => LSFilter.typeOneDesign lib sc f component L) ?_ h0 hle _ _
      (resetHistory_valid st) (resetHistory_valid st')
    exact Shrinks.bind _ fun x => Shrinks.bind _ fun y => Shrinks.bind _ fun z => shrinks_apply lib _ _ _ _ _ _
  · refine record_size (D := fun L => LSFilter.typeTwoDesign lib sc f component L tol) ?_ h0 hle _ _
      (resetHistory_valid st) (resetHistory_valid st')
    have key : ∀ lap : Matrix (Fin sc.E) (Fin sc.E) ℝ, Shrinks fun L => (do
        let (U, eigenvals) ← getEigendecomposition lib (.ndarray lap)
        let eigenvals := npUnique ((List.ofFn eigenvals).map fun x => if |x| < tol then 0 else x)
        let fTrue ← sc.getTrueSignal lib f component
        let alpha : List ℝ := [0] ++ List.replicate (eigenvals.length - 1) 1
        applyFilter lib f fTrue lap U eigenvals alpha L : Py (Applied sc.E)) := fun lap =>
      Shrinks.bind _ fun x => Shrinks.bind _ fun y => shrinks_apply lib _ _ _ _ _ _
    unfold LSFilter.typeTwoDesign
    by_cases h1 : component = "gradient"
    · simp only [if_pos h1]; exact key _
    · by_cases h2 : component = "curl"
      · simp only [if_neg h1, if_pos h2]; exact key _
      · simp only [if_neg h1, if_neg h2]; exact Shrinks.error _

/-- C158, grid-based filters: likewise for `denoise` and `subcomponent_extraction`. -/
theorem C158_grid (f fTrue : Fin sc.E → ℝ) (component pChoice : String) (num : Int) (mu cutOff steep : ℝ) (L L' : Int)
    (h0 : 0 < L') (hle : L' ≤ L) (st st' : FilterSt sc.E) (hst : st.Valid) (hst' : st'.Valid) :
    ((GridFilter.denoise lib sc st f fTrue pChoice L mu).1 = .ok () →
      (GridFilter.denoise lib sc st' f fTrue pChoice L' mu).1 = .ok () ∧ ∃ errs resp,
        (errs.length : Int) = L ∧ (resp.length : Int) = L ∧
        (GridFilter.denoise lib sc st f fTrue pChoice L mu).2.history.Curves errs resp ∧
        (GridFilter.denoise lib sc st' f fTrue pChoice L' mu).2.history.Curves (errs.take L'.toNat)
          (resp.take L'.toNat)) ∧
    ((GridFilter.subcomponentExtraction lib sc st f component pChoice L num mu cutOff steep).1 = .ok () →
      (GridFilter.subcomponentExtraction lib sc st' f component pChoice L' num mu cutOff steep).1 = .ok () ∧ ∃ errs resp,
        (errs.length : Int) = L ∧ (resp.length : Int) = L ∧
        (GridFilter.subcomponentExtraction lib sc st f component pChoice L num mu cutOff steep).2.history.Curves errs
          resp ∧
        (GridFilter.subcomponentExtraction lib sc st' f component pChoice L' num mu cutOff steep).2.history.Curves
          (errs.take L'.toNat) (resp.take L'.toNat)) := by
  constructor
  · refine record_size (D := fun L => GridFilter.denoiseDesign lib sc f fTrue pChoice L mu) ?_ h0 hle _ _ hst hst'
    exact Shrinks.bind _ fun x => Shrinks.bind _ fun y => Shrinks.bind _ fun z => shrinks_applyF lib _ _ _ _ _
  · refine record_size (D := fun L => GridFilter.extractionDesign lib sc f component pChoice L num mu cutOff steep) ?_ h0
      hle _ _ hst hst'
    exact Shrinks.bind _ fun x => Shrinks.bind _ fun y => Shrinks.bind _ fun z => Shrinks.bind _ fun t =>
      shrinks_applyF lib _ _ _ _ _

/-- the hypotheses are met: both kinds of filter return on the sample complexes -/
example (lib : NumLib) (st : FilterSt k4Tri.E) (f : Fin k4Tri.E → ℝ) :
    (LSFilter.typeTwo lib k4Tri st f "gradient" 3).1 = .ok () := by
  obtain ⟨a, ha⟩ := typeTwo_total lib k4Tri (by decide) f "gradient" (.inl rfl) 3 (by norm_num) (1 / 10 ^ 6)
  unfold LSFilter.typeTwo
  rw [ha]
  rfl

example (lib : NumLib) (f : Fin tri.E → ℝ) :
    (GridFilter.subcomponentExtraction lib tri (initFilter _) f "gradient" "L1L" 3).1 = .ok () := by
  obtain ⟨g, c, h, hp⟩ := HodgeParts.exists lib tri f
  obtain ⟨l1, e1⟩ := tri_lambdaMax_lower
  obtain ⟨a, ha⟩ := extraction_total lib tri (by decide) f "gradient" "L1L" hp.grad
    (by simp [SC.getPMatrix]) e1 3 (by norm_num)
  unfold GridFilter.subcomponentExtraction
  rw [ha]
  rfl

end Pytspl
