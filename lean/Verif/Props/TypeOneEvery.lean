import Verif.Props.TypeOneShares
import Verif.Props.Chains

/-!
# C183: the type-one extraction on every complex

Without a gap below the default tolerance the type-one filters treat the frequencies up to 1e-3 as harmonic.  On chains
with 99 or more edges the slowest gradient flow is then returned as the harmonic component.
-/

namespace Pytspl

open Matrix Polynomial

variable {lib : NumLib} {sc : SC ℝ} {n : ℕ}

private theorem vals_every (hw : sc.WellFormed) (hE : 0 < sc.E) (hgap : NoSmallEigenvalue sc.L1 machineEps)
    {eh ec eg : EigPairs sc.E} (hp : EigParts lib sc (1 / 1000) eh ec eg) (lam : ℝ) :
    (List.ofFn eh.vals).count lam = (if lam ≤ 1 / 1000 then multiplicityOf sc.L1 lam else 0) ∧
    (List.ofFn ec.vals).count lam = (if lam ≤ 1 / 1000 then 0 else multiplicityOf sc.L1u lam) ∧
    (List.ofFn eg.vals).count lam = (if lam ≤ 1 / 1000 then 0 else multiplicityOf sc.L1l lam) := by
  classical
  obtain ⟨hgl, hgu⟩ := lower_gap hw hgap
  have h1 : getHarmonicEigenpair lib (.ndarray sc.L1) (1 / 1000) = .ok eh := hp.harm
  have h2 : getCurlEigenpair lib (.ndarray sc.L1u) (1 / 1000) = .ok ec := hp.curl
  have h3 : getGradientEigenpair lib (.ndarray sc.L1l) (1 / 1000) = .ok eg := hp.grad
  rw [getHarmonicEigenpair, getEigendecomposition_dense lib hE, snap_eq lib (symmPSD_L1 sc) le_rfl hgap] at h1
  rw [getCurlEigenpair, getEigendecomposition_dense lib hE, snap_eq lib (symmPSD_L1u sc) le_rfl hgu] at h2
  rw [getGradientEigenpair, getEigendecomposition_dense lib hE, snap_eq lib (symmPSD_L1l sc) le_rfl hgl] at h3
  have hh := lib.isEig (symmPSD_L1 sc)
  have hc := lib.isEig (symmPSD_L1u sc)
  have hg := lib.isEig (symmPSD_L1l sc)
  refine ⟨?_, ?_, ?_⟩
  · rw [← Except.ok.inj h1, ← Multiset.coe_count, ← Fin.univ_val_map, sel_vals, multiplicityOf, hh.roots_eq]
    split
    · exact Multiset.count_filter_of_pos ‹_›
    · exact Multiset.count_filter_of_neg ‹_›
  · rw [← Except.ok.inj h2, ← Multiset.coe_count, ← Fin.univ_val_map, sel_vals, multiplicityOf, hc.roots_eq]
    rcases lt_trichotomy lam (1 / 1000) with hm | rfl | hm
    · rw [if_pos hm.le, Multiset.count_filter_of_neg (not_le.2 hm)]
    · rw [if_pos le_rfl, Multiset.count_filter_of_pos le_rfl, Multiset.count_eq_zero]
      intro hmem
      obtain ⟨i, -, hi⟩ := Multiset.mem_map.1 hmem
      exact default_not_eigenvalue hw.built ⟨_, hc.col_ne_zero i, by rw [hc.col_eig, hi]⟩
    · rw [if_neg (not_le.2 hm), Multiset.count_filter_of_pos hm.le]
  · rw [← Except.ok.inj h3, ← Multiset.coe_count, ← Fin.univ_val_map, sel_vals, multiplicityOf, hg.roots_eq]
    split
    · exact Multiset.count_filter_of_neg (not_lt.2 ‹_›)
    · exact Multiset.count_filter_of_pos (not_le.1 ‹_›)

/-- the ones of the three masks at the positions of a frequency -/
private theorem mask_every (hw : sc.WellFormed) (hE : 0 < sc.E) (hgap : NoSmallEigenvalue sc.L1 machineEps) :
    (∃ m, sc.getComponentCoefficients lib "harmonic" = .ok m ∧ m.length = sc.E ∧ ∀ lam : ℝ,
      ∑ j with (lib.eigh _ sc.L1).1 j = lam, m[(j : ℕ)]?.getD 0 =
        ((if lam ≤ 1 / 1000 then multiplicityOf sc.L1 lam else 0 : ℕ) : ℝ)) ∧
    (∃ m, sc.getComponentCoefficients lib "curl" = .ok m ∧ m.length = sc.E ∧ ∀ lam : ℝ,
      ∑ j with (lib.eigh _ sc.L1).1 j = lam, m[(j : ℕ)]?.getD 0 =
        ((if lam ≤ 1 / 1000 then 0 else multiplicityOf sc.L1u lam : ℕ) : ℝ)) ∧
    ∃ m, sc.getComponentCoefficients lib "gradient" = .ok m ∧ m.length = sc.E ∧ ∀ lam : ℝ,
      ∑ j with (lib.eigh _ sc.L1).1 j = lam, m[(j : ℕ)]?.getD 0 =
        ((if lam ≤ 1 / 1000 then 0 else multiplicityOf sc.L1l lam : ℕ) : ℝ) := by
  classical
  obtain ⟨eh, ec, eg, hp⟩ := EigParts.exists lib sc (1 / 1000) hE
  have c0 := ((C144_counts hw _ machineEps_le _ _ _ hp).2).mpr (default_not_eigenvalue hw.built)
  have hv := vals_every hw hE hgap hp
  have e : ∀ F : ℕ → ℝ, ((List.range sc.E).map F).sum =
      (∑ i ∈ Finset.range eh.num, F i) + (∑ i ∈ Finset.range ec.num, F (eh.num + i)) +
        ∑ i ∈ Finset.range eg.num, F (eh.num + ec.num + i) := by
    intro F
    rw [← Finset.sum_range_add, ← Finset.sum_range_add, c0]
    rfl
  have s0 : ∀ (k : ℕ) (F : ℕ → ℝ), (∀ i < k, F i = 0) → ∑ i ∈ Finset.range k, F i = 0 := by
    intro k F hF
    exact Finset.sum_eq_zero fun i hi => hF i (Finset.mem_range.1 hi)
  have hhv : ∀ i, i < eh.num → (allVals eh ec eg)[i]? = (List.ofFn eh.vals)[i]? := by
    intro i hi
    rw [allVals, List.getElem?_append_left (by simp; omega), List.getElem?_append_left (by simpa using hi)]
  have hg : ∀ i, i < eg.num → (allVals eh ec eg)[eh.num + ec.num + i]? = (List.ofFn eg.vals)[i]? := by
    intro i hi
    rw [allVals, List.getElem?_append_right (by simp)]
    simp
  have hcv : ∀ i, i < ec.num → (allVals eh ec eg)[eh.num + i]? = (List.ofFn ec.vals)[i]? := by
    intro i hi
    rw [allVals, List.getElem?_append_left (by simpa using hi), List.getElem?_append_right (by simp)]
    simp
  have hsn := fun i => congrFun (snap_eq lib (symmPSD_L1 sc) le_rfl hgap) i
  refine ⟨?_, ?_, ?_⟩
  · obtain ⟨al, h1, h2, h3⟩ := coeffs_sum hw hp "harmonic" (by simp)
    refine ⟨al, h1, h2, fun lam => ?_⟩
    have h4 := h3 fun x y => if x = lam then y else 0
    simp only [hsn] at h4
    rw [← Fin.sum_univ_def, e] at h4
    rw [Finset.sum_filter, h4, s0 ec.num _ fun i hi => ?_, s0 eg.num _ fun i hi => ?_, add_zero, add_zero,
      ← (hv lam).1, ← count_sum, ← Fin.sum_univ_eq_sum_range (fun i => if (allVals eh ec eg)[i]?.getD 0 = lam then
        maskFn "harmonic" eh.num ec.num i else 0)]
    · refine Finset.sum_congr rfl fun i _ => ?_
      rw [hhv i i.isLt]
      simp [maskFn]
    · have : ¬ eh.num + ec.num + i < eh.num := by omega
      simp [maskFn, this]
    · simp [maskFn]
  · obtain ⟨al, h1, h2, h3⟩ := coeffs_sum hw hp "curl" (by simp)
    refine ⟨al, h1, h2, fun lam => ?_⟩
    have h4 := h3 fun x y => if x = lam then y else 0
    simp only [hsn] at h4
    rw [← Fin.sum_univ_def, e] at h4
    rw [Finset.sum_filter, h4, s0 _ _ fun i hi => ?_, s0 eg.num _ fun i hi => ?_, zero_add, add_zero, ← (hv lam).2.1,
      ← count_sum, ← Fin.sum_univ_eq_sum_range (fun i => if (allVals eh ec eg)[eh.num + i]?.getD 0 = lam then
        maskFn "curl" eh.num ec.num (eh.num + i) else 0)]
    · refine Finset.sum_congr rfl fun i _ => ?_
      rw [hcv i i.isLt]
      simp [maskFn]
    · simp [maskFn]
    · have : ¬ i ≥ eh.num := by omega
      simp [maskFn, this]
  · obtain ⟨al, h1, h2, h3⟩ := coeffs_sum hw hp "gradient" (by simp)
    refine ⟨al, h1, h2, fun lam => ?_⟩
    have h4 := h3 fun x y => if x = lam then y else 0
    simp only [hsn] at h4
    rw [← Fin.sum_univ_def, e] at h4
    rw [Finset.sum_filter, h4, s0 _ _ fun i hi => ?_, s0 ec.num _ fun i hi => ?_, zero_add, zero_add, ← (hv lam).2.2,
      ← count_sum, ← Fin.sum_univ_eq_sum_range (fun i => if (allVals eh ec eg)[eh.num + ec.num + i]?.getD 0 = lam then
        maskFn "gradient" eh.num ec.num (eh.num + ec.num + i) else 0)]
    · refine Finset.sum_congr rfl fun i _ => ?_
      rw [hg i i.isLt]
      simp [maskFn]
    · have : ¬ ec.num ≤ i := by omega
      simp [maskFn, this]
    · have : ¬ eh.num + ec.num ≤ i := by omega
      simp [maskFn, this]

private theorem mult_pos' {A : Matrix (Fin n) (Fin n) ℝ} (hA : SymmPSD A) {lam : ℝ} {v : Fin n → ℝ} (hv : v ≠ 0)
    (hl : A.mulVec v = lam • v) : (0 : ℝ) < multiplicityOf A lam := by
  obtain ⟨lib⟩ := NumLib.exists
  have he := lib.isEig hA
  obtain ⟨i, hi⟩ := he.mem_of_eigen hv hl
  rw [mult_card he]
  exact_mod_cast Finset.card_pos.2 ⟨i, by simp [hi]⟩

/-- C183: on every complex whose non-zero Hodge frequencies are above machine precision, with at least as many
coefficients as there are distinct frequencies, the type-one "harmonic" filter keeps every flow of a frequency up to
1e-3 as it is and removes all others. -/
theorem C183_harmonic (hw : sc.WellFormed) (hE : 0 < sc.E) (hgap : NoSmallEigenvalue sc.L1 machineEps)
    (st : FilterSt sc.E) (f : Fin sc.E → ℝ) (L : Int) (hL : (sc.L1.charpoly.roots.toFinset.card : Int) ≤ L) :
    ∃ st' H, LSFilter.typeOne lib sc st f "harmonic" L = (.ok (), st') ∧
      st'.history.get? "filter" = some (.mat H) ∧ st'.history.get? "f_estimated" = some (.vec (H.mulVec f)) ∧
      ∀ (lam : ℝ) v, sc.L1.mulVec v = lam • v → H.mulVec v = if lam ≤ 1 / 1000 then v else 0 := by
  obtain ⟨g, c, h, hp⟩ := HodgeParts.exists lib sc f
  obtain ⟨⟨m, m1, m2, m3⟩, -, -⟩ := mask_every (lib := lib) hw hE hgap
  obtain ⟨s1, H1, a1, a2, a3, a4⟩ := typeOne_run hE hgap st f h hL hp.harm m1 m2
  refine ⟨s1, H1, a1, a2, a3, fun lam v hv => ?_⟩
  by_cases h0 : v = 0
  · rw [h0, mulVec_zero]; simp
  · rw [a4 lam v h0 hv, m3]
    have := mult_pos' (symmPSD_L1 sc) h0 hv
    split
    · rw [div_self this.ne', one_smul]
    · simp

/-- C183: the "gradient" and "curl" filters remove every flow of a frequency up to 1e-3, and multiply those of a larger
frequency by the share of the component in its multiplicity. -/
theorem C183_others (hw : sc.WellFormed) (hE : 0 < sc.E) (hgap : NoSmallEigenvalue sc.L1 machineEps)
    (st : FilterSt sc.E) (f : Fin sc.E → ℝ) (L : Int) (hL : (sc.L1.charpoly.roots.toFinset.card : Int) ≤ L) :
    (∃ st' H, LSFilter.typeOne lib sc st f "gradient" L = (.ok (), st') ∧
      st'.history.get? "filter" = some (.mat H) ∧ st'.history.get? "f_estimated" = some (.vec (H.mulVec f)) ∧
      ∀ (lam : ℝ) v, sc.L1.mulVec v = lam • v →
        H.mulVec v = if lam ≤ 1 / 1000 then 0 else ((multiplicityOf sc.L1l lam : ℝ) / multiplicityOf sc.L1 lam) • v) ∧
    ∃ st' H, LSFilter.typeOne lib sc st f "curl" L = (.ok (), st') ∧
      st'.history.get? "filter" = some (.mat H) ∧ st'.history.get? "f_estimated" = some (.vec (H.mulVec f)) ∧
      ∀ (lam : ℝ) v, sc.L1.mulVec v = lam • v →
        H.mulVec v = if lam ≤ 1 / 1000 then 0 else ((multiplicityOf sc.L1u lam : ℝ) / multiplicityOf sc.L1 lam) • v := by
  obtain ⟨g, c, h, hp⟩ := HodgeParts.exists lib sc f
  obtain ⟨-, ⟨mc, c1, c2, c3⟩, mg, g1, g2, g3⟩ := mask_every (lib := lib) hw hE hgap
  obtain ⟨s1, H1, a1, a2, a3, a4⟩ := typeOne_run hE hgap st f g hL hp.grad g1 g2
  obtain ⟨s2, H2, b1, b2, b3, b4⟩ := typeOne_run hE hgap st f c hL hp.curl c1 c2
  refine ⟨⟨s1, H1, a1, a2, a3, fun lam v hv => ?_⟩, s2, H2, b1, b2, b3, fun lam v hv => ?_⟩
  · by_cases h0 : v = 0
    · rw [h0, mulVec_zero]; simp
    · rw [a4 lam v h0 hv, g3]
      split <;> simp
  · by_cases h0 : v = 0
    · rw [h0, mulVec_zero]; simp
    · rw [b4 lam v h0 hv, c3]
      split <;> simp

/-! ## Long chains -/

variable {s : Fin sc.E → ℝ}

/-- a chain of up to a million edges has no frequency below machine precision -/
theorem chain_machineEps (h : sc.IsChain s) (hn : sc.E ≤ 1000000) : NoSmallEigenvalue sc.L1 machineEps := by
  intro lam v hv hl hc
  obtain ⟨k, hk0, hk, rfl⟩ := C182_spectrum h ⟨v, hv, hl⟩
  have hEr : (0 : ℝ) < sc.E + 1 := by positivity
  have hp := Real.pi_pos
  have hk1 : (1 : ℝ) ≤ k := by exact_mod_cast hk0
  have hk2 : (k : ℝ) ≤ sc.E := by exact_mod_cast hk
  have hE6 : (sc.E : ℝ) ≤ 1000000 := by exact_mod_cast hn
  set z : ℝ := k / (sc.E + 1) with hz
  have hz0 : 1 / 1000001 ≤ z := by
    rw [hz, div_le_div_iff₀ (by norm_num) hEr]
    nlinarith
  have hz1 : z ≤ 1 := by
    rw [hz, div_le_one hEr]
    linarith
  have e1 : Real.pi * k / (sc.E + 1) = 2 * (Real.pi * z / 2) := by rw [hz]; ring
  have hj := Real.mul_le_sin (x := Real.pi * z / 2) (by nlinarith) (by nlinarith)
  have e2 : 2 / Real.pi * (Real.pi * z / 2) = z := by field_simp
  rw [e2] at hj
  have hc2 := hc.2
  rw [e1, Real.cos_two_mul, Real.cos_sq'] at hc2
  have hm : machineEps < 1 / 1000001 ^ 2 := by unfold machineEps; norm_num
  have h1 : (1 / 1000001 : ℝ) ^ 2 ≤ Real.sin (Real.pi * z / 2) ^ 2 :=
    pow_le_pow_left₀ (by norm_num) (hz0.trans hj) 2
  have h2 : (1 / 1000001 : ℝ) ^ 2 = 1 / 1000001 ^ 2 := by norm_num
  rw [h2] at h1
  have h3 : (0 : ℝ) ≤ 1 / 1000001 ^ 2 := by positivity
  linarith

/-- C183, failure: on a chain with 99 to a million edges there is a flow that is all gradient and not zero, which
the type-one extraction with enough coefficients returns unchanged as its harmonic component, and of which it returns
nothing as the gradient component. -/
theorem C183_chain (h : sc.IsChain s) (h1 : 99 ≤ sc.E) (h2 : sc.E ≤ 1000000) (st : FilterSt sc.E) (L : Int)
    (hL : (sc.L1.charpoly.roots.toFinset.card : Int) ≤ L) :
    ∃ f : Fin sc.E → ℝ, f ≠ 0 ∧ HodgeParts lib sc f f 0 0 ∧
      (∃ st', LSFilter.typeOne lib sc st f "harmonic" L = (.ok (), st') ∧
        st'.history.get? "f_estimated" = some (.vec f)) ∧
      ∃ st', LSFilter.typeOne lib sc st f "gradient" L = (.ok (), st') ∧
        st'.history.get? "f_estimated" = some (.vec (0 : Fin sc.E → ℝ)) := by
  have hE := h.nonempty
  have hg := chain_machineEps h h2
  obtain ⟨eh, he, hnum, hdiv⟩ := C182_tolerance (lib := lib) h h1
  set x := Real.pi * (1 : ℕ) / (sc.E + 1) with hx
  have hEr : (99 : ℝ) ≤ sc.E := by exact_mod_cast h1
  have p2 := Real.pi_lt_d4
  have hp := Real.pi_pos
  have hx0 : 0 < x := by rw [hx]; push_cast; positivity
  have hx1 : x ≤ 3.1416 / 100 := by
    rw [hx]
    push_cast
    rw [div_le_div_iff₀ (by linarith) (by norm_num)]
    nlinarith
  have hpi : x < Real.pi := by have := Real.pi_gt_d2; norm_num at hx1; linarith
  have hl1 : 2 - 2 * Real.cos x ≤ 1 / 1000 := by
    have h1 := Real.one_sub_sq_div_two_le_cos (x := x)
    have h2 : x ^ 2 ≤ (3.1416 / 100) ^ 2 := by nlinarith
    norm_num at h2
    linarith
  have hf : sc.L1.mulVec (fun i : Fin sc.E => s i * Real.sin (x * ((i : ℕ) + 1))) =
      (2 - 2 * Real.cos x) • fun i : Fin sc.E => s i * Real.sin (x * ((i : ℕ) + 1)) := C182_frequencies h 1
  refine ⟨fun i => s i * Real.sin (x * ((i : ℕ) + 1)), ?_, C182_components h _, ?_, ?_⟩
  · intro h0
    have h1 := congrFun h0 ⟨0, hE⟩
    simp only [Nat.cast_zero, zero_add, mul_one, Pi.zero_apply] at h1
    rcases mul_eq_zero.1 h1 with h3 | h3
    · rcases h.joins ⟨0, hE⟩ with ⟨-, e⟩ | ⟨-, e⟩ <;> rw [e] at h3 <;> norm_num at h3
    · exact (Real.sin_pos_of_pos_of_lt_pi hx0 hpi).ne' h3
  · obtain ⟨st', H, a1, -, a3, a4⟩ := C183_harmonic (lib := lib) h.wellFormed hE hg st
      (fun i => s i * Real.sin (x * ((i : ℕ) + 1))) L hL
    refine ⟨st', a1, ?_⟩
    rw [a3, a4 _ _ hf, if_pos hl1]
  · obtain ⟨⟨st', H, a1, -, a3, a4⟩, -⟩ := C183_others (lib := lib) h.wellFormed hE hg st
      (fun i => s i * Real.sin (x * ((i : ℕ) + 1))) L hL
    refine ⟨st', a1, ?_⟩
    rw [a3, a4 _ _ hf, if_pos hl1]

/-- A chain of 99 edges meets the hypotheses. -/
example (lib : NumLib) : ∃ (sc : SC ℝ) (f : Fin sc.E → ℝ) (L : Int) (st st' : FilterSt sc.E), sc.E = 99 ∧ f ≠ 0 ∧
    HodgeParts lib sc f f 0 0 ∧ LSFilter.typeOne lib sc st f "harmonic" L = (.ok (), st') ∧
    st'.history.get? "f_estimated" = some (.vec f) := by
  obtain ⟨sc, s, h, e⟩ := chain_exists 99 (by norm_num)
  obtain ⟨f, f0, fp, ⟨st', a, b⟩, -⟩ := C183_chain (lib := lib) h e.ge (by omega) ⟨[], 0⟩ _ le_rfl
  exact ⟨sc, f, _, _, st', e, f0, fp, a, b⟩

end Pytspl
