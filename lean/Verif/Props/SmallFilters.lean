import Verif.Props.Connectivity
import Verif.Props.ExactFilters
import Verif.Props.Rings
import Verif.Lemmas.NumLibExists

/-!
# C188: filters with as many coefficients as nodes

On a network of `N` nodes the lower Laplacian has at most `N` distinct eigenvalues, none of them too small, so `N`
coefficients are enough for the least-squares filters.
-/

namespace Pytspl

open Matrix

variable {lib : NumLib} {sc : SC ℝ}

private theorem rank_lt (hw : sc.WellFormed) (hN : 0 < sc.N) : sc.B1.rank + 1 ≤ sc.N := by
  have h1 : sc.B1.transpose.mulVec (fun _ => 1) = 0 := by
    ext j
    have hr := hw.inRange sc.edges[j] (List.getElem_mem _)
    rw [b1_transpose_apply hw.built hw.inRange hw.noLoops]
    unfold valueAt
    rw [dif_pos ⟨by omega, by simp only [SC.N]; omega⟩, dif_pos ⟨by omega, by simp only [SC.N]; omega⟩, sub_self]
    rfl
  have h2 := LinearMap.finrank_range_add_finrank_ker sc.B1.transpose.mulVecLin
  rw [Module.finrank_fintype_fun_eq_card, Fintype.card_fin] at h2
  have h3 : 0 < Module.finrank ℝ (LinearMap.ker sc.B1.transpose.mulVecLin) := by
    rw [Module.finrank_pos_iff_exists_ne_zero]
    refine ⟨⟨fun _ => 1, ?_⟩, fun h => ?_⟩
    · rw [LinearMap.mem_ker, mulVecLin_apply]; exact h1
    · have := congrFun (congrArg Subtype.val h) ⟨0, hN⟩
      exact one_ne_zero this
  have h4 : sc.B1.rank = Module.finrank ℝ (LinearMap.range sc.B1.transpose.mulVecLin) := by
    rw [← rank_transpose]; rfl
  have h5 : sc.N = sc.nodes.length := rfl
  omega

private theorem nodes_pos (hw : sc.WellFormed) (hE : 0 < sc.E) : 0 < sc.N := by
  have hr := hw.inRange sc.edges[(⟨0, hE⟩ : Fin sc.E)] (List.getElem_mem _)
  simp only [SC.N]
  omega

/-- C188: the lower Laplacian of a network of `N` nodes has at most `N` distinct eigenvalues. -/
theorem C188_distinct (hw : sc.WellFormed) (hE : 0 < sc.E) :
    sc.L1l.charpoly.roots.toFinset.card ≤ sc.nodes.length := by
  classical
  obtain ⟨lib⟩ := NumLib.exists
  have hI := lib.isEig (symmPSD_L1l sc)
  have h1 := hI.rank_eq
  have h2 : sc.L1l.rank = sc.B1.rank := rank_transpose_mul_self sc.B1
  have h3 := rank_lt hw (nodes_pos hw hE)
  have h4 : sc.L1l.charpoly.roots.toFinset ⊆
      insert 0 ((Finset.univ.filter fun i => (lib.eigh _ sc.L1l).1 i ≠ 0).image (lib.eigh _ sc.L1l).1) := by
    intro x hx
    rw [hI.roots_eq] at hx
    simp only [Multiset.mem_toFinset, Multiset.mem_map, Finset.mem_val, Finset.mem_univ, true_and] at hx
    obtain ⟨i, rfl⟩ := hx
    by_cases h0 : (lib.eigh _ sc.L1l).1 i = 0
    · rw [h0]; exact Finset.mem_insert_self _ _
    · exact Finset.mem_insert_of_mem (Finset.mem_image_of_mem _ (Finset.mem_filter.2 ⟨Finset.mem_univ _, h0⟩))
  have h5 := (Finset.card_le_card h4).trans ((Finset.card_insert_le _ _).trans
    (Nat.add_le_add_right Finset.card_image_le 1))
  rw [Fintype.card_subtype] at h1
  have h6 : sc.N = sc.nodes.length := rfl
  omega

private theorem rate_ge {N : ℕ} (hN : 0 < N) : 4 / (N : ℝ) ^ 2 ≤ 2 - 2 * Real.cos (Real.pi / N) := by
  have hp := Real.pi_pos
  have h1 : (1 : ℝ) ≤ N := by exact_mod_cast hN
  have h2 : Real.pi / N ≤ Real.pi := div_le_self hp.le h1
  have h0 : 0 ≤ Real.pi / N := by positivity
  have h3 := Real.cos_le_one_sub_mul_cos_sq (x := Real.pi / N) (by rw [abs_of_nonneg h0]; exact h2)
  have h4 : 2 / Real.pi ^ 2 * (Real.pi / N) ^ 2 = 2 / (N : ℝ) ^ 2 := by
    field_simp
  rw [h4] at h3
  have h5 : 4 / (N : ℝ) ^ 2 = 2 * (2 / (N : ℝ) ^ 2) := by ring
  linarith

/-- C188: on every network of at most 2000 nodes on which some flow circulates,
`subcomponent_extraction_type_two("gradient")` with the default tolerance and at least as many coefficients as nodes
returns exactly the gradient component. -/
theorem C188_type_two (hw : sc.WellFormed) (hN : sc.nodes.length ≤ 2000)
    (hcyc : ∃ z : Fin sc.E → ℝ, z ≠ 0 ∧ sc.getDivergence z = 0) (st : FilterSt sc.E) (f g : Fin sc.E → ℝ)
    (hg : sc.getComponentFlow lib f "gradient" false = .ok g) (L : Int) (hL : (sc.nodes.length : Int) ≤ L) :
    ∃ st', LSFilter.typeTwo lib sc st f "gradient" L = (.ok (), st') ∧ RecordsExactly st'.history g := by
  obtain ⟨z, hz, hd⟩ := hcyc
  have hE : 0 < sc.E := by
    rcases Nat.eq_zero_or_pos sc.E with h | h
    · exact absurd (funext fun i => absurd (i.isLt.trans_eq h) (Nat.not_lt_zero _)) hz
    · exact h
  have hd' : sc.B1.mulVec z = 0 := hd
  refine C53_gradient st f g hg (1 / 10 ^ 6) (by unfold machineEps; norm_num) ⟨z, hz, ?_⟩ (fun lam hl hc => ?_) L
    (le_trans (by exact_mod_cast C188_distinct hw hE) hL)
  · unfold SC.L1l
    rw [← mulVec_mulVec, hd', mulVec_zero, zero_smul]
  · have h1 := C185_bound hw hl hc.1.ne'
    have h2 := nodes_pos hw hE
    have h3 := rate_ge h2
    have h4 : (sc.N : ℝ) ≤ 2000 := by exact_mod_cast hN
    have h5 : (1 : ℝ) ≤ sc.N := by exact_mod_cast h2
    have h6 : 1 / 10 ^ 6 ≤ 4 / (sc.N : ℝ) ^ 2 := by
      rw [div_le_div_iff₀ (by norm_num) (by positivity)]
      nlinarith
    linarith [hc.2]

/-- C188: if no flow circulates, there is a flow that is its own gradient component and of which nothing is returned. -/
theorem C188_forest (lib : NumLib) (hw : sc.WellFormed) (hE : 0 < sc.E) (hN : sc.nodes.length ≤ 2000)
    (hcyc : ¬ ∃ z : Fin sc.E → ℝ, z ≠ 0 ∧ sc.getDivergence z = 0) (L : Int) (hL : (sc.nodes.length : Int) ≤ L) :
    ∃ f : Fin sc.E → ℝ, f ≠ 0 ∧ sc.getComponentFlow lib f "gradient" false = .ok f ∧
      ∀ st, ∃ st', LSFilter.typeTwo lib sc st f "gradient" L = (.ok (), st') ∧
        st'.history.get? "f_estimated" = some (.vec 0) := by
  refine C53_without_zero_eigenvalue lib sc hE ?_ (1 / 10 ^ 6) (by unfold machineEps; norm_num) (fun lam hl hc => ?_) L
    (le_trans (by exact_mod_cast C188_distinct hw hE) hL)
  · rintro ⟨z, hz, he⟩
    refine hcyc ⟨z, hz, ?_⟩
    rw [zero_smul] at he
    change sc.B1.mulVec z = 0
    have h1 : sc.B1.mulVec z ⬝ᵥ sc.B1.mulVec z = 0 := by
      rw [dotProduct_mulVec, ← mulVec_transpose, mulVec_mulVec]
      change sc.L1l.mulVec z ⬝ᵥ z = 0
      rw [he, zero_dotProduct]
    exact dotProduct_self_eq_zero.1 h1
  · have h1 := C185_bound hw hl hc.1.ne'
    have h2 := nodes_pos hw hE
    have h3 := rate_ge h2
    have h4 : (sc.N : ℝ) ≤ 2000 := by exact_mod_cast hN
    have h5 : (1 : ℝ) ≤ sc.N := by exact_mod_cast h2
    have h6 : 1 / 10 ^ 6 ≤ 4 / (sc.N : ℝ) ^ 2 := by
      rw [div_le_div_iff₀ (by norm_num) (by positivity)]
      nlinarith
    linarith [hc.2]

/-- C188: on every network of at most 99 nodes without filled triangles `subcomponent_extraction_type_one` with at least
as many coefficients as nodes returns exactly the harmonic and the gradient component, and nothing for the curl. -/
theorem C188_type_one (hw : sc.WellFormed) (hT : sc.triangles = []) (hE : 0 < sc.E) (hN : sc.nodes.length ≤ 99)
    (st : FilterSt sc.E) (f g c h : Fin sc.E → ℝ) (hp : HodgeParts lib sc f g c h) (L : Int)
    (hL : (sc.nodes.length : Int) ≤ L) :
    (∃ st', LSFilter.typeOne lib sc st f "harmonic" L = (.ok (), st') ∧ RecordsExactly st'.history h) ∧
    (∃ st', LSFilter.typeOne lib sc st f "gradient" L = (.ok (), st') ∧ RecordsExactly st'.history g) ∧
    (∃ st', LSFilter.typeOne lib sc st f "curl" L = (.ok (), st') ∧ RecordsExactly st'.history c) ∧ c = 0 := by
  have hu : sc.L1u = 0 := by
    ext i j
    unfold SC.L1u
    rw [Matrix.mul_apply]
    exact Finset.sum_eq_zero fun k _ => absurd k.2 (by simp [hT])
  have hsame : sc.L1 = sc.L1l := by rw [SC.L1, hu, add_zero]
  have hgap : NoSmallEigenvalue sc.L1 (1 / 1000) := C185_hollow hw hT hE hN
  have hL' : (sc.L1.charpoly.roots.toFinset.card : Int) ≤ L := by
    rw [hsame]
    exact le_trans (by exact_mod_cast C188_distinct hw hE) hL
  have hns : NoSharedEigenvalue sc := by
    rintro lam h0 - ⟨v, hv, he⟩
    rw [hu, zero_mulVec] at he
    rcases smul_eq_zero.1 he.symm with h1 | h1
    · exact h0 h1
    · exact hv h1
  obtain ⟨h1, h2⟩ := C54_gradient_curl (lib := lib) hw hE hgap hns st f g c hp.grad hp.curl L hL'
  refine ⟨C54_harmonic hw hE hgap st f h hp.harm L hL', h1, h2, ?_⟩
  obtain ⟨-, ⟨⟨w, hw'⟩, -⟩, -⟩ := hp.proj
  rw [← hw']
  ext i
  rw [mulVec, dotProduct, Pi.zero_apply]
  exact Finset.sum_eq_zero fun k _ => absurd k.2 (by simp [hT])

/-- A ring of 99 edges meets the hypotheses of `C188_type_two` and `C188_type_one`. -/
example : ∃ sc : SC ℝ, sc.WellFormed ∧ sc.triangles = [] ∧ 0 < sc.E ∧ sc.nodes.length = 99 ∧
    ∃ z : Fin sc.E → ℝ, z ≠ 0 ∧ sc.getDivergence z = 0 := by
  obtain ⟨sc, s, h, e⟩ := ring_exists 99 (by norm_num)
  have hs := h.size
  have : sc.edges.length = 99 := e
  refine ⟨sc, h.wellFormed, h.hollow, h.nonempty, by omega, s, fun h0 => ?_,
    (C181_harmonic_space h s).2 ⟨1, (one_smul _ _).symm⟩⟩
  have h1 := congrFun h0 ⟨0, h.nonempty⟩
  rcases h.joins ⟨0, h.nonempty⟩ with ⟨-, e⟩ | ⟨-, e⟩ <;> rw [e] at h1 <;> norm_num at h1

/-- A chain of 98 edges meets those of `C188_forest`. -/
example : ∃ sc : SC ℝ, sc.WellFormed ∧ 0 < sc.E ∧ sc.nodes.length = 99 ∧
    ¬ ∃ z : Fin sc.E → ℝ, z ≠ 0 ∧ sc.getDivergence z = 0 := by
  obtain ⟨sc, s, h, e⟩ := chain_exists 98 (by norm_num)
  have hs := h.size
  have : sc.edges.length = 98 := e
  exact ⟨sc, h.wellFormed, h.nonempty, by omega, fun ⟨z, hz, hd⟩ => hz (C182_harmonic_space h z hd)⟩

end Pytspl
