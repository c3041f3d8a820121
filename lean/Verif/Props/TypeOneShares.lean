import Verif.Props.ExactFilters
import Verif.Props.CompleteNetwork

/-!
# C180: what the type-one extraction does at a shared frequency

With enough coefficients the type-one design multiplies the flows of a frequency by the share the component has
in the multiplicity of that frequency.
-/

namespace Pytspl

open Matrix Polynomial

variable {lib : NumLib} {sc : SC ℝ} {n : ℕ}

/-- how often `lam` is an eigenvalue of `A` -/
noncomputable def multiplicityOf (A : Matrix (Fin n) (Fin n) ℝ) (lam : ℝ) : ℕ := A.charpoly.roots.count lam

/-! ## Least squares with repeated frequencies -/

/-- a polynomial with enough coefficients that fits best takes at every point the mean of its targets -/
private theorem fit_means (w al : Fin n → ℝ) (p : ℝ[X]) {L : ℕ} (hL : 0 < L)
    (hc : (Finset.univ.image w).card ≤ L)
    (hmin : ∀ q : ℝ[X], q.natDegree ≤ L - 1 →
      ∑ i, (p.eval (w i) - al i) ^ 2 ≤ ∑ i, (q.eval (w i) - al i) ^ 2) (i : Fin n) :
    p.eval (w i) * (Finset.univ.filter fun j => w j = w i).card = ∑ j with w j = w i, al j := by
  classical
  let φ : ℝ → ℝ := fun x => (∑ j with w j = x, al j) / (Finset.univ.filter fun j => w j = x).card
  have hcard : ∀ k, (0 : ℝ) < (Finset.univ.filter fun j => w j = w k).card := fun k => by
    exact_mod_cast Finset.card_pos.2 ⟨k, by simp⟩
  have hφ : ∀ k, φ (w k) * (Finset.univ.filter fun j => w j = w k).card = ∑ j with w j = w k, al j := fun k =>
    div_mul_cancel₀ _ (hcard k).ne'
  let s := Finset.univ.image w
  let q : ℝ[X] := Lagrange.interpolate s id φ
  have hinj : Set.InjOn (id : ℝ → ℝ) s := Function.injective_id.injOn
  have hq : q.natDegree ≤ L - 1 := by
    have := Lagrange.degree_interpolate_lt (r := φ) hinj
    by_cases h0 : q = 0
    · rw [h0]; simp
    · have := (natDegree_lt_iff_degree_lt h0).2 this
      have hc' : s.card ≤ L := hc
      omega
  have hqe : ∀ i, q.eval (w i) = φ (w i) := fun i =>
    Lagrange.eval_interpolate_at_node φ hinj (Finset.mem_image_of_mem w (Finset.mem_univ i))
  have h := hmin q hq
  simp only [hqe] at h
  have hcross : ∑ j, (p.eval (w j) - φ (w j)) * (φ (w j) - al j) = 0 := by
    rw [← Finset.sum_fiberwise_of_maps_to (s := Finset.univ) (t := s) (g := w)
      (fun j _ => Finset.mem_image_of_mem w (Finset.mem_univ j))]
    refine Finset.sum_eq_zero fun x hx => ?_
    obtain ⟨k, -, rfl⟩ := Finset.mem_image.1 hx
    have : ∑ j with w j = w k, (p.eval (w j) - φ (w j)) * (φ (w j) - al j) =
        ∑ j with w j = w k, (p.eval (w k) - φ (w k)) * (φ (w k) - al j) :=
      Finset.sum_congr rfl fun j hj => by rw [(Finset.mem_filter.1 hj).2]
    rw [this, ← Finset.mul_sum, Finset.sum_sub_distrib, Finset.sum_const, nsmul_eq_mul, ← hφ k]
    ring
  have hexp : ∑ j, (p.eval (w j) - al j) ^ 2 = ∑ j, (p.eval (w j) - φ (w j)) ^ 2 +
      2 * ∑ j, (p.eval (w j) - φ (w j)) * (φ (w j) - al j) + ∑ j, (φ (w j) - al j) ^ 2 := by
    rw [Finset.mul_sum, ← Finset.sum_add_distrib, ← Finset.sum_add_distrib]
    exact Finset.sum_congr rfl fun j _ => by ring
  rw [hcross, mul_zero, add_zero] at hexp
  have h0 : ∑ j, (p.eval (w j) - φ (w j)) ^ 2 = 0 :=
    le_antisymm (by linarith) (Finset.sum_nonneg fun _ _ => sq_nonneg _)
  have hi := (Finset.sum_eq_zero_iff_of_nonneg fun _ _ => sq_nonneg _).1 h0 i (Finset.mem_univ i)
  have hi' : p.eval (w i) = φ (w i) := by linarith [pow_eq_zero_iff (two_ne_zero) |>.1 hi]
  rw [hi', hφ]

private theorem residual_sum (w : Fin n → ℝ) {mask : List ℝ} (hm : mask.length = n) (p : ℝ[X]) :
    fitResidual ((List.ofFn w).zip mask) p = ∑ i : Fin n, (p.eval (w i) - mask[(i : ℕ)]?.getD 0) ^ 2 := by
  unfold fitResidual
  have : (((List.ofFn w).zip mask).map fun x => (p.eval x.1 - x.2) ^ 2) =
      List.ofFn fun i : Fin n => (p.eval (w i) - mask[(i : ℕ)]?.getD 0) ^ 2 := by
    refine List.ext_getElem (by simp [hm]) fun i h1 h2 => ?_
    have h3 : i < mask.length := by rw [hm]; simpa using h2
    simp [h3]
  rw [this, List.sum_ofFn]

/-! ## Counting the mask -/

theorem mult_card {A U : Matrix (Fin n) (Fin n) ℝ} {w : Fin n → ℝ} (h : IsEig A U w) (lam : ℝ) :
    multiplicityOf A lam = (Finset.univ.filter fun j => w j = lam).card := by
  classical
  rw [multiplicityOf, h.roots_eq, Multiset.count_map]
  simp only [eq_comm]
  rfl

private theorem vals_count (hw : sc.WellFormed) (hE : 0 < sc.E) (hgap : NoSmallEigenvalue sc.L1 (1 / 1000))
    {eh ec eg : EigPairs sc.E} (hp : EigParts lib sc (1 / 1000) eh ec eg) {lam : ℝ} (hl : lam ≠ 0) :
    (List.ofFn ec.vals).count lam = multiplicityOf sc.L1u lam ∧
    (List.ofFn eg.vals).count lam = multiplicityOf sc.L1l lam := by
  classical
  obtain ⟨hgl, hgu⟩ := lower_gap hw hgap
  have h2 : getCurlEigenpair lib (.ndarray sc.L1u) (1 / 1000) = .ok ec := hp.curl
  have h3 : getGradientEigenpair lib (.ndarray sc.L1l) (1 / 1000) = .ok eg := hp.grad
  rw [getCurlEigenpair, getEigendecomposition_dense lib hE, snap_eq lib (symmPSD_L1u sc) machineEps_le hgu] at h2
  rw [getGradientEigenpair, getEigendecomposition_dense lib hE, snap_eq lib (symmPSD_L1l sc) machineEps_le hgl] at h3
  have hc := lib.isEig (symmPSD_L1u sc)
  have hg := lib.isEig (symmPSD_L1l sc)
  constructor
  · rw [← Except.ok.inj h2, ← Multiset.coe_count, ← Fin.univ_val_map, sel_vals, multiplicityOf, hc.roots_eq]
    by_cases hm : (1 / 1000 : ℝ) ≤ lam
    · exact Multiset.count_filter_of_pos hm
    · rw [Multiset.count_filter_of_neg hm, eq_comm, Multiset.count_eq_zero]
      intro hmem
      obtain ⟨i, -, rfl⟩ := Multiset.mem_map.1 hmem
      rcases hc.gap (symmPSD_L1u sc) hgu i with h0 | h0
      · exact hl h0
      · exact hm h0.le
  · rw [← Except.ok.inj h3, ← Multiset.coe_count, ← Fin.univ_val_map, sel_vals, multiplicityOf, hg.roots_eq]
    by_cases hm : (1 / 1000 : ℝ) < lam
    · exact Multiset.count_filter_of_pos hm
    · rw [Multiset.count_filter_of_neg hm, eq_comm, Multiset.count_eq_zero]
      intro hmem
      obtain ⟨i, -, rfl⟩ := Multiset.mem_map.1 hmem
      rcases hg.gap (symmPSD_L1l sc) hgl i with h0 | h0
      · exact hl h0
      · exact hm h0

theorem count_sum {k : ℕ} (v : Fin k → ℝ) (lam : ℝ) :
    ∑ i : Fin k, (if v i = lam then (1 : ℝ) else 0) = (List.ofFn v).count lam := by
  classical
  rw [← Multiset.coe_count, ← Fin.univ_val_map, Multiset.count_map, Finset.sum_boole]
  simp only [eq_comm]
  rfl

/-- the ones of the masks at the positions of a frequency -/
private theorem mask_count (hw : sc.WellFormed) (hE : 0 < sc.E) (hgap : NoSmallEigenvalue sc.L1 (1 / 1000))
    {lam : ℝ} (hl : lam ≠ 0) :
    (∃ mc, sc.getComponentCoefficients lib "curl" = .ok mc ∧ mc.length = sc.E ∧
      ∑ j with (lib.eigh _ sc.L1).1 j = lam, mc[(j : ℕ)]?.getD 0 = multiplicityOf sc.L1u lam) ∧
    ∃ mg, sc.getComponentCoefficients lib "gradient" = .ok mg ∧ mg.length = sc.E ∧
      ∑ j with (lib.eigh _ sc.L1).1 j = lam, mg[(j : ℕ)]?.getD 0 = multiplicityOf sc.L1l lam := by
  classical
  obtain ⟨eh, ec, eg, hp⟩ := EigParts.exists lib sc (1 / 1000) hE
  obtain ⟨c0, -⟩ := C27_counts hw _ machineEps_le hgap eh ec eg hp
  obtain ⟨v1, v2⟩ := vals_count hw hE hgap hp hl
  have e : ∀ F : ℕ → ℝ, ((List.range sc.E).map F).sum =
      (∑ i ∈ Finset.range eh.num, F i) + (∑ i ∈ Finset.range ec.num, F (eh.num + i)) +
        ∑ i ∈ Finset.range eg.num, F (eh.num + ec.num + i) := by
    intro F
    rw [← Finset.sum_range_add, ← Finset.sum_range_add, c0]
    rfl
  have s0 : ∀ (k : ℕ) (F : ℕ → ℝ), (∀ i < k, F i = 0) → ∑ i ∈ Finset.range k, F i = 0 := by
    intro k F hF
    exact Finset.sum_eq_zero fun i hi => hF i (Finset.mem_range.1 hi)
  have hg : ∀ i, i < eg.num → (allVals eh ec eg)[eh.num + ec.num + i]? = (List.ofFn eg.vals)[i]? := by
    intro i hi
    rw [allVals, List.getElem?_append_right (by simp)]
    simp
  have hcv : ∀ i, i < ec.num → (allVals eh ec eg)[eh.num + i]? = (List.ofFn ec.vals)[i]? := by
    intro i hi
    rw [allVals, List.getElem?_append_left (by simpa using hi), List.getElem?_append_right (by simp)]
    simp
  constructor
  · obtain ⟨al, h1, h2, h3⟩ := coeffs_sum hw hp "curl" (by simp)
    refine ⟨al, h1, h2, ?_⟩
    have h4 := h3 fun x y => if x = lam then y else 0
    have hsn := fun i => congrFun (snap_eq lib (symmPSD_L1 sc) machineEps_le hgap) i
    simp only [hsn] at h4
    rw [← Fin.sum_univ_def, e] at h4
    rw [Finset.sum_filter, h4, s0 _ _ fun i hi => ?_, s0 eg.num _ fun i hi => ?_, zero_add, add_zero, ← v1,
      ← count_sum, ← Fin.sum_univ_eq_sum_range (fun i => if (allVals eh ec eg)[eh.num + i]?.getD 0 = lam then
        maskFn "curl" eh.num ec.num (eh.num + i) else 0)]
    · refine Finset.sum_congr rfl fun i _ => ?_
      rw [hcv i i.isLt]
      simp [maskFn]
    · simp [maskFn]
    · have : ¬ i ≥ eh.num := by omega
      simp [maskFn, this]
  · obtain ⟨al, h1, h2, h3⟩ := coeffs_sum hw hp "gradient" (by simp)
    refine ⟨al, h1, h2, ?_⟩
    have h4 := h3 fun x y => if x = lam then y else 0
    have hsn := fun i => congrFun (snap_eq lib (symmPSD_L1 sc) machineEps_le hgap) i
    simp only [hsn] at h4
    rw [← Fin.sum_univ_def, e] at h4
    rw [Finset.sum_filter, h4, s0 _ _ fun i hi => ?_, s0 ec.num _ fun i hi => ?_, zero_add, zero_add, ← v2,
      ← count_sum, ← Fin.sum_univ_eq_sum_range (fun i => if (allVals eh ec eg)[eh.num + ec.num + i]?.getD 0 = lam then
        maskFn "gradient" eh.num ec.num (eh.num + ec.num + i) else 0)]
    · refine Finset.sum_congr rfl fun i _ => ?_
      rw [hg i i.isLt]
      simp [maskFn]
    · have : ¬ ec.num ≤ i := by omega
      simp [maskFn, this]
    · have : ¬ eh.num + ec.num ≤ i := by omega
      simp [maskFn, this]

/-! ## The filters -/

/-- at a frequency the filter takes the mean of the mask -/
theorem typeOne_run (hE : 0 < sc.E) (hgap : NoSmallEigenvalue sc.L1 machineEps) (st : FilterSt sc.E)
    (f t : Fin sc.E → ℝ) {component : String} {L : Int}
    (hL : (sc.L1.charpoly.roots.toFinset.card : Int) ≤ L) {mask : List ℝ}
    (h1 : sc.getComponentFlow lib f component false = .ok t)
    (h2 : sc.getComponentCoefficients lib component = .ok mask) (hm : mask.length = sc.E) :
    ∃ st' H, LSFilter.typeOne lib sc st f component L = (.ok (), st') ∧
      st'.history.get? "filter" = some (.mat H) ∧ st'.history.get? "f_estimated" = some (.vec (H.mulVec f)) ∧
      ∀ lam v, v ≠ 0 → sc.L1.mulVec v = lam • v →
        H.mulVec v = ((∑ j with (lib.eigh _ sc.L1).1 j = lam, mask[(j : ℕ)]?.getD 0) /
          multiplicityOf sc.L1 lam) • v := by
  classical
  have he := lib.isEig (symmPSD_L1 sc)
  have himg : (Finset.univ.image (lib.eigh _ sc.L1).1).card = sc.L1.charpoly.roots.toFinset.card := by
    rw [he.roots_eq]
    congr 1
  have hpos : 0 < (Finset.univ.image (lib.eigh _ sc.L1).1).card :=
    Finset.card_pos.2 ⟨_, Finset.mem_image_of_mem _ (Finset.mem_univ ⟨0, hE⟩)⟩
  have hU := getEigendecomposition_dense lib hE sc.L1 machineEps
  rw [snap_eq lib (symmPSD_L1 sc) le_rfl hgap] at hU
  have hd : ∃ a, LSFilter.typeOneDesign lib sc f component L = .ok a := by
    have key : ∃ a, applyFilter lib f t sc.L1 (lib.eigh _ sc.L1).2 (List.ofFn (lib.eigh _ sc.L1).1) mask L = .ok a :=
      ⟨_, applyFilter_eq lib f t sc.L1 _ _ _ L (by omega) (by simp [hm])⟩
    obtain ⟨a, ha⟩ := key
    refine ⟨a, ?_⟩
    unfold LSFilter.typeOneDesign
    simp only [bind, Except.bind, hU, SC.getTrueSignal, h1, h2]
    exact ha
  obtain ⟨a, ha⟩ := hd
  have hr : LSFilter.typeOne lib sc st f component L = (.ok (), setHistory (resetHistory st) a.design) := by
    rw [LSFilter.typeOne, ha]; rfl
  obtain ⟨U, w, t', mask', g1, -, g3, h0, p, hp, hf1, hf, -⟩ := C51_type_one st _ f component L hr
  obtain rfl : mask = mask' := Except.ok.inj (h2.symm.trans g3)
  obtain rfl : (lib.eigh _ sc.L1).1 = w := congrArg Prod.snd (Except.ok.inj (hU.symm.trans g1))
  refine ⟨_, _, hr, hf1, hf, fun lam v hv hl => ?_⟩
  obtain ⟨i, hi⟩ := he.mem_of_eigen hv hl
  have hmean := fit_means (lib.eigh _ sc.L1).1 (fun j => mask[(j : ℕ)]?.getD 0) (p (L.toNat - 1)) h0
    (by rw [himg]; omega) (fun q hq => by
      rw [← residual_sum _ hm, ← residual_sum _ hm]
      exact (hp (L.toNat - 1) (by omega)).2 q hq) i
  rw [hi, ← mult_card he] at hmean
  have hmp : (0 : ℝ) < multiplicityOf sc.L1 lam := by
    rw [mult_card he]
    exact_mod_cast Finset.card_pos.2 ⟨i, by simp [hi]⟩
  rw [aeval_eig _ _ hl, ← hmean, mul_div_assoc, div_self hmp.ne', mul_one]

/-- C180: with at least as many coefficients as there are distinct Hodge frequencies, the type-one filters
multiply every flow of frequency `lam ≠ 0` by the share of the component in the multiplicity of that frequency:
the multiplicity in the lower Laplacian over the one in the Hodge Laplacian for the gradient, and with the upper
Laplacian for the curl. -/
theorem C180_shares (hw : sc.WellFormed) (hE : 0 < sc.E) (hgap : NoSmallEigenvalue sc.L1 (1 / 1000))
    (st : FilterSt sc.E) (f : Fin sc.E → ℝ) (L : Int) (hL : (sc.L1.charpoly.roots.toFinset.card : Int) ≤ L) :
    (∃ st' H, LSFilter.typeOne lib sc st f "gradient" L = (.ok (), st') ∧
      st'.history.get? "filter" = some (.mat H) ∧ st'.history.get? "f_estimated" = some (.vec (H.mulVec f)) ∧
      ∀ lam v, lam ≠ 0 → sc.L1.mulVec v = lam • v →
        H.mulVec v = ((multiplicityOf sc.L1l lam : ℝ) / multiplicityOf sc.L1 lam) • v) ∧
    ∃ st' H, LSFilter.typeOne lib sc st f "curl" L = (.ok (), st') ∧
      st'.history.get? "filter" = some (.mat H) ∧ st'.history.get? "f_estimated" = some (.vec (H.mulVec f)) ∧
      ∀ lam v, lam ≠ 0 → sc.L1.mulVec v = lam • v →
        H.mulVec v = ((multiplicityOf sc.L1u lam : ℝ) / multiplicityOf sc.L1 lam) • v := by
  obtain ⟨g, c, h, hp⟩ := HodgeParts.exists lib sc f
  obtain ⟨⟨mc, c1, c2, -⟩, mg, g1, g2, -⟩ := mask_count (lib := lib) hw hE hgap one_ne_zero
  have hgap' : NoSmallEigenvalue sc.L1 machineEps := fun lam v hv hl hc =>
    hgap lam v hv hl ⟨hc.1, hc.2.trans machineEps_le⟩
  obtain ⟨s1, H1, a1, a2, a3, a4⟩ := typeOne_run hE hgap' st f g hL hp.grad g1 g2
  obtain ⟨s2, H2, b1, b2, b3, b4⟩ := typeOne_run hE hgap' st f c hL hp.curl c1 c2
  refine ⟨⟨s1, H1, a1, a2, a3, fun lam v hl hv => ?_⟩, s2, H2, b1, b2, b3, fun lam v hl hv => ?_⟩
  · by_cases h0 : v = 0
    · rw [h0, mulVec_zero, smul_zero]
    · obtain ⟨-, mg', g1', -, g3⟩ := mask_count (lib := lib) hw hE hgap hl
      obtain rfl : mg = mg' := Except.ok.inj (g1.symm.trans g1')
      rw [a4 lam v h0 hv, g3]
  · by_cases h0 : v = 0
    · rw [h0, mulVec_zero, smul_zero]
    · obtain ⟨⟨mc', c1', -, c3⟩, -⟩ := mask_count (lib := lib) hw hE hgap hl
      obtain rfl : mc = mc' := Except.ok.inj (c1.symm.trans c1')
      rw [b4 lam v h0 hv, c3]

/-- C180: the two shares of a non-zero Hodge frequency add up to 1. -/
theorem C180_total (hw : sc.WellFormed) {lam : ℝ} (hl : lam ≠ 0) :
    multiplicityOf sc.L1l lam + multiplicityOf sc.L1u lam = multiplicityOf sc.L1 lam := by
  classical
  have h := congrArg (Multiset.count lam) (roots_of_mul_eq_zero (C12_lower_upper_annihilate sc hw).1)
  rw [Multiset.count_add, Multiset.count_add, Multiset.count_eq_zero.2 (fun hm =>
    hl (Multiset.eq_of_mem_replicate hm)), zero_add] at h
  exact h

private theorem mult_pos {A : Matrix (Fin n) (Fin n) ℝ} (hA : SymmPSD A) {lam : ℝ} (h : IsEigenvalue A lam) :
    0 < multiplicityOf A lam := by
  obtain ⟨lib⟩ := NumLib.exists
  have he := lib.isEig hA
  obtain ⟨v, hv, hl⟩ := h
  obtain ⟨i, hi⟩ := he.mem_of_eigen hv hl
  rw [mult_card he]
  exact Finset.card_pos.2 ⟨i, by simp [hi]⟩

/-- C180: so at a frequency that gradient and curl flows share, both filters pass a part strictly between nothing
and everything of every flow of that frequency, be it a gradient or a curl flow. -/
theorem C180_shared (hw : sc.WellFormed) {lam : ℝ} (hl : lam ≠ 0) (h1 : IsEigenvalue sc.L1l lam)
    (h2 : IsEigenvalue sc.L1u lam) :
    0 < (multiplicityOf sc.L1l lam : ℝ) / multiplicityOf sc.L1 lam ∧
    (multiplicityOf sc.L1l lam : ℝ) / multiplicityOf sc.L1 lam < 1 ∧
    (multiplicityOf sc.L1u lam : ℝ) / multiplicityOf sc.L1 lam =
      1 - (multiplicityOf sc.L1l lam : ℝ) / multiplicityOf sc.L1 lam := by
  have p1 : (0 : ℝ) < multiplicityOf sc.L1l lam := by exact_mod_cast mult_pos (symmPSD_L1l sc) h1
  have p2 : (0 : ℝ) < multiplicityOf sc.L1u lam := by exact_mod_cast mult_pos (symmPSD_L1u sc) h2
  have hs : (multiplicityOf sc.L1l lam : ℝ) + multiplicityOf sc.L1u lam = multiplicityOf sc.L1 lam := by
    exact_mod_cast C180_total hw hl
  rw [← hs]
  refine ⟨by positivity, by rw [div_lt_one (by positivity)]; linarith, ?_⟩
  field_simp
  ring

/-- The filled triangle beside a hollow one meets the hypotheses: the frequency 3 is shared. -/
example (st : FilterSt twoTri.E) (v : Fin twoTri.E → ℝ) (hv : twoTri.L1.mulVec v = (3 : ℝ) • v) :
    ∃ (L : Int) (st' : FilterSt twoTri.E) (c : ℝ), 0 < c ∧ c < 1 ∧
      LSFilter.typeOne lib twoTri st v "gradient" L = (.ok (), st') ∧
      st'.history.get? "f_estimated" = some (.vec (c • v)) := by
  obtain ⟨⟨st', H, a1, -, a3, a4⟩, -⟩ := C180_shares (lib := lib) twoTri_wellFormed (by decide) twoTri_gap st v _ le_rfl
  obtain ⟨b1, b2, -⟩ := C180_shared twoTri_wellFormed (by norm_num : (3 : ℝ) ≠ 0) twoTri_lower_three twoTri_upper_three
  exact ⟨_, st', _, b1, b2, a1, by rw [a3, a4 3 v (by norm_num) hv]⟩

end Pytspl
