import Verif.Props.Eigen
import Verif.Lemmas.Concrete
import Mathlib.LinearAlgebra.Matrix.Charpoly.Coeff
import Mathlib.RingTheory.Polynomial.RationalRoot
import Mathlib.RingTheory.PrincipalIdealDomain
import Mathlib.LinearAlgebra.Matrix.NonsingularInverse
import Mathlib.Algebra.BigOperators.Fin

/-!
# Property C144: the three kinds of eigenvectors are an orthonormal basis on every complex

No gap in the spectrum is assumed here: eigenvalues below the tolerance are allowed, and so are complexes
on which the default tolerance counts too many eigenvectors as harmonic.
-/

namespace Pytspl

open Matrix

variable {n : ℕ} {lib : NumLib} {sc : SC ℝ}

theorem machineEps_le : machineEps ≤ 1 / 1000 := by unfold machineEps; norm_num

/-! ## Integer matrices -/

/-- a rational eigenvalue of a matrix of integers is an integer -/
private theorem int_of_rat_eigenvalue (A : Matrix (Fin n) (Fin n) ℝ) (Z : Matrix (Fin n) (Fin n) ℤ)
    (hA : A = Z.map (Int.cast : ℤ → ℝ)) (q : ℚ) (h : IsEigenvalue A q) : ∃ z : ℤ, q = z := by
  obtain ⟨v, hv, hl⟩ := h
  have hdet : (scalar (Fin n) (q : ℝ) - A).det = 0 := by
    apply Matrix.exists_mulVec_eq_zero_iff.mp
    refine ⟨v, hv, ?_⟩
    rw [sub_mulVec, hl, scalar_apply, ← smul_one_eq_diagonal, smul_mulVec, one_mulVec, sub_self]
  have hroot : A.charpoly.eval (q : ℝ) = 0 := by
    rw [Matrix.eval_charpoly]; exact hdet
  have hm : A = Z.map (Int.castRingHom ℝ) := hA
  rw [hm, charpoly_map, Polynomial.eval_map] at hroot
  have hint : IsIntegral ℤ (q : ℚ) := by
    refine ⟨Z.charpoly, charpoly_monic Z, ?_⟩
    have h2 : (algebraMap ℚ ℝ) (Polynomial.eval₂ (algebraMap ℤ ℚ) q Z.charpoly) = 0 := by
      rw [Polynomial.hom_eval₂]
      rw [← hroot]
      congr 1
    exact (algebraMap ℚ ℝ).injective (by rw [h2, map_zero])
  obtain ⟨z, hz⟩ := IsIntegrallyClosed.algebraMap_eq_of_integral hint
  exact ⟨z, by rw [← hz]; simp⟩

private theorem upper_int (hb : sc.Built) :
    ∃ Z : Matrix (Fin sc.E) (Fin sc.E) ℤ, sc.L1u = Z.map (Int.cast : ℤ → ℝ) := by
  have h : ∀ i j, ∃ z : ℤ, sc.B2 i j = z := by
    intro i j
    obtain ⟨a, b, c, ia, ib, ic, -, -, -, -, hB⟩ := trianglesToB2_ok_entry hb.b2 j
    rw [hB i]
    split_ifs
    · exact ⟨1, by simp⟩
    · exact ⟨-1, by simp⟩
    · exact ⟨1, by simp⟩
    · exact ⟨0, by simp⟩
  choose z hz using h
  refine ⟨Matrix.of fun i k => ∑ j, z i j * z k j, ?_⟩
  ext i k
  rw [SC.L1u, Matrix.mul_apply]
  simp only [map_apply, of_apply, transpose_apply]
  push_cast
  exact Finset.sum_congr rfl fun j _ => by rw [hz, hz]

/-! ## What the calls return -/

/-- the eigenvalues after small ones are replaced by 0 -/
private noncomputable def snapped (w : Fin n → ℝ) : Fin n → ℝ :=
  fun i => if |w i| < machineEps then 0 else w i

private theorem snapped_iff {A U : Matrix (Fin n) (Fin n) ℝ} {w : Fin n → ℝ} (h : IsEig A U w) (hA : SymmPSD A)
    {tol : ℝ} (ht : machineEps ≤ tol) (i : Fin n) :
    (snapped w i ≤ tol ↔ w i ≤ tol) ∧ (tol ≤ snapped w i ↔ tol ≤ w i) ∧ (tol < snapped w i ↔ tol < w i) ∧
    |w i - snapped w i| < machineEps ∧ (machineEps ≤ w i → snapped w i = w i) := by
  have h0 := h.nonneg hA i
  have he := machineEps_pos
  unfold snapped
  rw [abs_of_nonneg h0]
  split
  · rename_i hlt
    refine ⟨⟨fun _ => by linarith, fun _ => by linarith⟩, ⟨fun _ => by linarith, fun _ => by linarith⟩,
      ⟨fun _ => by linarith, fun _ => by linarith⟩, by rwa [sub_zero, abs_of_nonneg h0], fun _ => by linarith⟩
  · simp [he]

private structure Picked (lib : NumLib) (sc : SC ℝ) (tol : ℝ) (eh ec eg : EigPairs sc.E) : Prop where
  harm : eh = selectPairs (lib.eigh _ sc.L1).2 (snapped (lib.eigh _ sc.L1).1) (fun x => x ≤ tol)
  curl : ec = selectPairs (lib.eigh _ sc.L1u).2 (snapped (lib.eigh _ sc.L1u).1) (fun x => tol ≤ x)
  grad : eg = selectPairs (lib.eigh _ sc.L1l).2 (snapped (lib.eigh _ sc.L1l).1) (fun x => tol < x)

private theorem EigParts.picked {tol : ℝ} {eh ec eg : EigPairs sc.E} (hp : EigParts lib sc tol eh ec eg) :
    Picked lib sc tol eh ec eg := by
  have hE : 0 < sc.E := by
    by_contra h0
    have h0' : sc.E = 0 := by omega
    have := hp.harm
    simp only [SC.getComponentEigenpair, if_true, getHarmonicEigenpair, getEigendecomposition, h0',
      bind, Except.bind] at this
    cases this
  obtain ⟨h1, h2, h3⟩ := hp
  have h1' : getHarmonicEigenpair lib (.ndarray sc.L1) tol = .ok eh := h1
  have h2' : getCurlEigenpair lib (.ndarray sc.L1u) tol = .ok ec := h2
  have h3' : getGradientEigenpair lib (.ndarray sc.L1l) tol = .ok eg := h3
  rw [getHarmonicEigenpair, getEigendecomposition_dense lib hE] at h1'
  rw [getCurlEigenpair, getEigendecomposition_dense lib hE] at h2'
  rw [getGradientEigenpair, getEigendecomposition_dense lib hE] at h3'
  exact ⟨(Except.ok.inj h1').symm, (Except.ok.inj h2').symm, (Except.ok.inj h3').symm⟩

/-! ## Counts -/

private theorem card_roots {A U : Matrix (Fin n) (Fin n) ℝ} {w : Fin n → ℝ} (h : IsEig A U w)
    (p : ℝ → Prop) [DecidablePred p] :
    Fintype.card {i // p (w i)} = Multiset.card (A.charpoly.roots.filter p) := by
  rw [h.roots_eq, Multiset.filter_map, Multiset.card_map, Fintype.card_subtype]
  rfl

/-- C144: the numbers of harmonic, curl and gradient eigenvectors add up to the number of edges if and only
if the tolerance is not itself an eigenvalue of the upper Laplacian. -/
theorem C144_counts (hw : sc.WellFormed) (tol : ℝ) (ht : machineEps ≤ tol) (eh ec eg : EigPairs sc.E)
    (hp : EigParts lib sc tol eh ec eg) :
    sc.E ≤ eh.num + ec.num + eg.num ∧
    (eh.num + ec.num + eg.num = sc.E ↔ ¬ IsEigenvalue sc.L1u tol) := by
  have hb := hp.picked
  have htp : 0 < tol := lt_of_lt_of_le machineEps_pos ht
  have iH := lib.isEig (symmPSD_L1 sc)
  have iC := lib.isEig (symmPSD_L1u sc)
  have iG := lib.isEig (symmPSD_L1l sc)
  have e1 : eh.num = Fintype.card {i // (lib.eigh _ sc.L1).1 i ≤ tol} := by
    rw [hb.harm, sel_num]
    exact Fintype.card_congr (Equiv.subtypeEquivRight fun i => (snapped_iff iH (symmPSD_L1 sc) ht i).1)
  have e2 : ec.num = Fintype.card {i // tol ≤ (lib.eigh _ sc.L1u).1 i} := by
    rw [hb.curl, sel_num]
    exact Fintype.card_congr (Equiv.subtypeEquivRight fun i => (snapped_iff iC (symmPSD_L1u sc) ht i).2.1)
  have e3 : eg.num = Fintype.card {i // tol < (lib.eigh _ sc.L1l).1 i} := by
    rw [hb.grad, sel_num]
    exact Fintype.card_congr (Equiv.subtypeEquivRight fun i => (snapped_iff iG (symmPSD_L1l sc) ht i).2.2.1)
  have hr := congrArg (fun s => Multiset.card (Multiset.filter (fun x : ℝ => tol < x) s))
    (roots_of_mul_eq_zero (C12_lower_upper_annihilate sc hw).1)
  simp only [Multiset.filter_add, Multiset.card_add] at hr
  have h0 : Multiset.filter (fun x : ℝ => tol < x) (Multiset.replicate sc.E 0) = 0 := by
    rw [Multiset.filter_eq_nil]
    intro a ha
    rw [Multiset.eq_of_mem_replicate ha]
    exact not_lt.mpr htp.le
  rw [h0, Multiset.card_zero, zero_add, ← card_roots iG, ← card_roots iC] at hr
  have hL : (sc.L1l + sc.L1u) = sc.L1 := rfl
  rw [hL, ← card_roots iH] at hr
  have hcompl : Fintype.card {i // (lib.eigh _ sc.L1).1 i ≤ tol} +
      Fintype.card {i // tol < (lib.eigh _ sc.L1).1 i} = sc.E := by
    have := Fintype.card_subtype_compl (fun i => (lib.eigh sc.E sc.L1).1 i ≤ tol)
    have hle := Fintype.card_subtype_le (fun i => (lib.eigh sc.E sc.L1).1 i ≤ tol)
    rw [Fintype.card_fin] at this hle
    simp only [not_le] at this
    omega
  have hsub : Fintype.card {i // tol ≤ (lib.eigh _ sc.L1u).1 i} =
      Fintype.card {i // tol < (lib.eigh _ sc.L1u).1 i} +
      Fintype.card {i // (lib.eigh _ sc.L1u).1 i = tol} := by
    rw [Fintype.card_subtype, Fintype.card_subtype, Fintype.card_subtype, ← Finset.card_union_of_disjoint]
    · congr 1
      ext i
      simp only [Finset.mem_filter, Finset.mem_univ, true_and, Finset.mem_union]
      rw [le_iff_lt_or_eq, eq_comm (a := tol)]
    · rw [Finset.disjoint_filter]
      intro i _ h1 h2
      linarith
  have heig : Fintype.card {i // (lib.eigh _ sc.L1u).1 i = tol} = 0 ↔ ¬ IsEigenvalue sc.L1u tol := by
    rw [Fintype.card_eq_zero_iff]
    constructor
    · rintro hem ⟨v, hv, hl⟩
      apply hv
      rw [iC.expand v]
      apply Finset.sum_eq_zero
      intro i _
      have hne : (lib.eigh _ sc.L1u).1 i ≠ tol := fun h => hem.false ⟨i, h⟩
      have : ((lib.eigh _ sc.L1u).1 i - tol) * ((lib.eigh _ sc.L1u).2.transpose.mulVec v i) = 0 := by
        have h1 : (fun k => (lib.eigh _ sc.L1u).2 k i) ⬝ᵥ sc.L1u.mulVec v =
            (lib.eigh _ sc.L1u).1 i * ((fun k => (lib.eigh _ sc.L1u).2 k i) ⬝ᵥ v) := by
          rw [dot_mulVec_transpose, (symmPSD_L1u sc).1, iC.col_eig, smul_dotProduct, smul_eq_mul]
        rw [hl, dotProduct_smul, smul_eq_mul] at h1
        have h2 : (lib.eigh _ sc.L1u).2.transpose.mulVec v i =
          (fun k => (lib.eigh _ sc.L1u).2 k i) ⬝ᵥ v := rfl
        rw [h2]
        linarith
      rw [(mul_eq_zero.mp this).resolve_left (sub_ne_zero.mpr hne), zero_smul]
    · intro h
      refine ⟨fun ⟨i, hi⟩ => h ⟨_, iC.col_ne_zero i, ?_⟩⟩
      rw [iC.col_eig, hi]
  rw [← heig]
  simp only [SC.E] at *
  omega

/-- C144: no number such as 1e-3, the default tolerance, is an eigenvalue of the upper Laplacian: rational
eigenvalues are integers. -/
theorem C144_tolerances (hb : sc.Built) (q : ℚ) (hq : ∀ z : ℤ, q ≠ z) : ¬ IsEigenvalue sc.L1u (q : ℝ) := by
  intro h
  obtain ⟨Z, hZ⟩ := upper_int hb
  obtain ⟨z, hz⟩ := int_of_rat_eigenvalue _ Z hZ q h
  exact hq z hz

/-- the default tolerance is not an eigenvalue of the upper Laplacian -/
theorem default_not_eigenvalue (hb : sc.Built) : ¬ IsEigenvalue sc.L1u (1 / 1000) := by
  have h := C144_tolerances hb (1 / 1000) (by
    intro z hz
    have h1 : (1 : ℚ) = 1000 * z := by rw [← hz]; norm_num
    have h2 : (1 : ℤ) = 1000 * z := by exact_mod_cast h1
    omega)
  have e : ((1 / 1000 : ℚ) : ℝ) = 1 / 1000 := by norm_num
  rwa [e] at h

/-! ## Spectrum -/

/-- C144: the eigenvalues of the three kinds together are the spectrum of the Hodge Laplacian with values below machine
epsilon replaced by 0. -/
theorem C144_spectrum (hw : sc.WellFormed) (tol : ℝ) (ht : machineEps ≤ tol) (hne : ¬ IsEigenvalue sc.L1u tol)
    (eh ec eg : EigPairs sc.E) (hp : EigParts lib sc tol eh ec eg) :
    (List.ofFn eh.vals ++ List.ofFn ec.vals ++ List.ofFn eg.vals : Multiset ℝ) =
      sc.L1.charpoly.roots.map fun x => if x < machineEps then 0 else x := by
  have hb := hp.picked
  have htp : 0 < tol := lt_of_lt_of_le machineEps_pos ht
  have he := machineEps_pos
  have iH := lib.isEig (symmPSD_L1 sc)
  have iC := lib.isEig (symmPSD_L1u sc)
  have iG := lib.isEig (symmPSD_L1l sc)
  set s : ℝ → ℝ := fun x => if x < machineEps then 0 else x with hs
  have conv : ∀ {A U : Matrix (Fin sc.E) (Fin sc.E) ℝ} {w : Fin sc.E → ℝ}, IsEig A U w → SymmPSD A →
      (Finset.univ.val.map (snapped w) : Multiset ℝ) = A.charpoly.roots.map s := by
    intro A U w h hA
    rw [h.roots_eq, Multiset.map_map]
    refine Multiset.map_congr rfl fun i _ => ?_
    simp only [snapped, Function.comp, hs, abs_of_nonneg (h.nonneg hA i)]
  have nn : ∀ {A U : Matrix (Fin sc.E) (Fin sc.E) ℝ} {w : Fin sc.E → ℝ}, IsEig A U w → SymmPSD A →
      ∀ x ∈ A.charpoly.roots, 0 ≤ x := by
    intro A U w h hA x hx
    rw [h.roots_eq] at hx
    obtain ⟨i, -, rfl⟩ := Multiset.mem_map.mp hx
    exact h.nonneg hA i
  have e1 : (List.ofFn eh.vals : Multiset ℝ) = (sc.L1.charpoly.roots.filter (fun x => ¬ tol < x)).map s := by
    rw [hb.harm, ← Fin.univ_val_map, sel_vals, conv iH (symmPSD_L1 sc), Multiset.filter_map]
    congr 1
    refine Multiset.filter_congr fun x hx => ?_
    have := nn iH (symmPSD_L1 sc) x hx
    simp only [Function.comp, hs]
    split_ifs <;> constructor <;> intro <;> linarith
  have big : ∀ S : Multiset ℝ, (S.filter (fun x => tol < x)).map s = S.filter fun x => tol < x := by
    intro S
    conv_rhs => rw [← Multiset.map_id (S.filter fun x => tol < x)]
    refine Multiset.map_congr rfl fun x hx => ?_
    have := (Multiset.mem_filter.mp hx).2
    simp only [hs, id]
    rw [if_neg (by linarith)]
  have e3 : (List.ofFn eg.vals : Multiset ℝ) = sc.L1l.charpoly.roots.filter (fun x => tol < x) := by
    rw [← big, hb.grad, ← Fin.univ_val_map, sel_vals, conv iG (symmPSD_L1l sc), Multiset.filter_map]
    congr 1
    refine Multiset.filter_congr fun x hx => ?_
    simp only [Function.comp, hs]
    split_ifs <;> constructor <;> intro <;> linarith
  have e2 : (List.ofFn ec.vals : Multiset ℝ) = sc.L1u.charpoly.roots.filter (fun x => tol < x) := by
    rw [← big, hb.curl, ← Fin.univ_val_map, sel_vals, conv iC (symmPSD_L1u sc), Multiset.filter_map]
    congr 1
    refine Multiset.filter_congr fun x hx => ?_
    have hx' : x ≠ tol := by
      rw [iC.roots_eq] at hx
      obtain ⟨i, -, rfl⟩ := Multiset.mem_map.mp hx
      intro h
      exact hne ⟨_, iC.col_ne_zero i, by rw [iC.col_eig, h]⟩
    simp only [Function.comp, hs]
    split_ifs
    · constructor <;> intro <;> linarith
    · exact ⟨fun h => lt_of_le_of_ne h (Ne.symm hx'), le_of_lt⟩
  have hr := congrArg (Multiset.filter (fun x : ℝ => tol < x))
    (roots_of_mul_eq_zero (C12_lower_upper_annihilate sc hw).1)
  rw [Multiset.filter_add, Multiset.filter_add] at hr
  have h0 : Multiset.filter (fun x : ℝ => tol < x) (Multiset.replicate sc.E 0) = 0 := by
    rw [Multiset.filter_eq_nil]
    intro a ha
    rw [Multiset.eq_of_mem_replicate ha]
    exact not_lt.mpr htp.le
  rw [h0, zero_add] at hr
  have hL : (sc.L1l + sc.L1u) = sc.L1 := rfl
  rw [hL] at hr
  rw [← Multiset.coe_add, ← Multiset.coe_add, e1, e2, e3, add_assoc,
    add_comm (Multiset.filter _ sc.L1u.charpoly.roots), hr, ← big, ← Multiset.map_add, add_comm]
  congr 1
  exact Multiset.filter_add_not _ _

/-! ## Basis -/

/-- C144: what kind of eigenvectors the blocks contain: the curl and gradient ones are exact, with eigenvalues
above the tolerance; the harmonic ones belong to eigenvalues up to the tolerance, reported to within machine
epsilon. -/
theorem C144_kinds (hw : sc.WellFormed) (tol : ℝ) (ht : machineEps ≤ tol) (hne : ¬ IsEigenvalue sc.L1u tol)
    (eh ec eg : EigPairs sc.E) (hp : EigParts lib sc tol eh ec eg) :
    (∀ j, ∃ d, |d| < machineEps ∧ eh.vals j ≤ tol ∧ eh.vals j + d ≤ tol ∧
      sc.L1.mulVec (fun k => eh.vecs k j) = (eh.vals j + d) • fun k => eh.vecs k j) ∧
    (∀ j, sc.getDivergence (fun k => ec.vecs k j) = 0 ∧ tol < ec.vals j ∧
      sc.L1.mulVec (fun k => ec.vecs k j) = ec.vals j • fun k => ec.vecs k j) ∧
    (∀ j, sc.getCurl (fun k => eg.vecs k j) = 0 ∧ tol < eg.vals j ∧
      sc.L1.mulVec (fun k => eg.vecs k j) = eg.vals j • fun k => eg.vecs k j) := by
  have hb := hp.picked
  have htp : 0 < tol := lt_of_lt_of_le machineEps_pos ht
  have iH := lib.isEig (symmPSD_L1 sc)
  have iC := lib.isEig (symmPSD_L1u sc)
  have iG := lib.isEig (symmPSD_L1l sc)
  have h12 := hw.b1_mul_b2
  refine ⟨?_, ?_, ?_⟩
  · rw [hb.harm]
    intro j
    have h2 := sel_cond (U := (lib.eigh _ sc.L1).2) (w := snapped (lib.eigh _ sc.L1).1)
      (cond := fun x => x ≤ tol) j
    set i := (selIdx (snapped (lib.eigh _ sc.L1).1) (fun x => x ≤ tol))[j] with hi
    have hs := snapped_iff iH (symmPSD_L1 sc) ht i
    refine ⟨(lib.eigh _ sc.L1).1 i - snapped (lib.eigh _ sc.L1).1 i, hs.2.2.2.1, h2, ?_, ?_⟩
    · have e : (selectPairs (lib.eigh _ sc.L1).2 (snapped (lib.eigh _ sc.L1).1) fun x => x ≤ tol).vals j =
        snapped (lib.eigh _ sc.L1).1 i := rfl
      rw [e, add_sub_cancel]
      exact hs.1.mp h2
    · have e : (selectPairs (lib.eigh _ sc.L1).2 (snapped (lib.eigh _ sc.L1).1) fun x => x ≤ tol).vals j =
        snapped (lib.eigh _ sc.L1).1 i := rfl
      rw [e, add_sub_cancel]
      exact iH.col_eig i
  · rw [hb.curl]
    intro j
    have h2 := sel_cond (U := (lib.eigh _ sc.L1u).2) (w := snapped (lib.eigh _ sc.L1u).1)
      (cond := fun x => tol ≤ x) j
    obtain ⟨i, e0, ev⟩ : ∃ i, (selectPairs (lib.eigh _ sc.L1u).2 (snapped (lib.eigh _ sc.L1u).1)
        (fun x => tol ≤ x)).vals j = snapped (lib.eigh _ sc.L1u).1 i ∧ (fun k => (selectPairs (lib.eigh _ sc.L1u).2
        (snapped (lib.eigh _ sc.L1u).1) (fun x => tol ≤ x)).vecs k j) = fun k => (lib.eigh _ sc.L1u).2 k i :=
      ⟨(selIdx (snapped (lib.eigh _ sc.L1u).1) (fun x => tol ≤ x))[j], rfl, rfl⟩
    generalize selectPairs (lib.eigh _ sc.L1u).2 (snapped (lib.eigh _ sc.L1u).1) (fun x => tol ≤ x) = P at *
    have hs := snapped_iff iC (symmPSD_L1u sc) ht i
    have h4 : tol ≤ (lib.eigh _ sc.L1u).1 i := hs.2.1.mp (e0 ▸ h2)
    have e : P.vals j = (lib.eigh _ sc.L1u).1 i := e0.trans <| hs.2.2.2.2 (by linarith)
    have h1 : sc.L1u.mulVec (fun k => P.vecs k j) = P.vals j • fun k => P.vecs k j := by
      rw [e, ev]; exact iC.col_eig i
    have h3 : tol < P.vals j := by
      refine lt_of_le_of_ne (by rw [e]; exact h4) fun h => hne ⟨_, iC.col_ne_zero i, ?_⟩
      rw [h, e]; exact iC.col_eig i
    have hd : sc.getDivergence (fun k => P.vecs k j) = 0 := by
      have h4 : P.vals j • sc.B1.mulVec (fun k => P.vecs k j) = 0 := by
        rw [← mulVec_smul, ← h1, SC.L1u, mulVec_mulVec, ← Matrix.mul_assoc, h12, Matrix.zero_mul,
          zero_mulVec]
      exact (smul_eq_zero.mp h4).resolve_left (by linarith)
    refine ⟨hd, h3, ?_⟩
    unfold SC.getDivergence at hd
    rw [SC.L1, add_mulVec, SC.L1l, ← mulVec_mulVec, hd, mulVec_zero, zero_add, h1]
  · rw [hb.grad]
    intro j
    have h3 := sel_cond (U := (lib.eigh _ sc.L1l).2) (w := snapped (lib.eigh _ sc.L1l).1)
      (cond := fun x => tol < x) j
    obtain ⟨i, e0, ev⟩ : ∃ i, (selectPairs (lib.eigh _ sc.L1l).2 (snapped (lib.eigh _ sc.L1l).1)
        (fun x => tol < x)).vals j = snapped (lib.eigh _ sc.L1l).1 i ∧ (fun k => (selectPairs (lib.eigh _ sc.L1l).2
        (snapped (lib.eigh _ sc.L1l).1) (fun x => tol < x)).vecs k j) = fun k => (lib.eigh _ sc.L1l).2 k i :=
      ⟨(selIdx (snapped (lib.eigh _ sc.L1l).1) (fun x => tol < x))[j], rfl, rfl⟩
    generalize selectPairs (lib.eigh _ sc.L1l).2 (snapped (lib.eigh _ sc.L1l).1) (fun x => tol < x) = P at *
    have hs := snapped_iff iG (symmPSD_L1l sc) ht i
    have h4 : tol < (lib.eigh _ sc.L1l).1 i := hs.2.2.1.mp (e0 ▸ h3)
    have e : P.vals j = (lib.eigh _ sc.L1l).1 i := e0.trans <| hs.2.2.2.2 (by linarith)
    have h1 : sc.L1l.mulVec (fun k => P.vecs k j) = P.vals j • fun k => P.vecs k j := by
      rw [e, ev]; exact iG.col_eig i
    have hd : sc.getCurl (fun k => P.vecs k j) = 0 := by
      have h4 : P.vals j • sc.B2.transpose.mulVec (fun k => P.vecs k j) = 0 := by
        rw [← mulVec_smul, ← h1, SC.L1l, mulVec_mulVec, ← Matrix.mul_assoc, ← transpose_mul, h12,
          transpose_zero, Matrix.zero_mul, zero_mulVec]
      exact (smul_eq_zero.mp h4).resolve_left (by linarith)
    refine ⟨hd, h3, ?_⟩
    unfold SC.getCurl at hd
    rw [SC.L1, add_mulVec, SC.L1u, ← mulVec_mulVec _ sc.B2, hd, mulVec_zero, add_zero, h1]

/-- C144: the three blocks together are an orthonormal basis: every block is orthonormal, different blocks are
orthogonal, and every flow is the sum of its parts in the three blocks. -/
theorem C144_basis (hw : sc.WellFormed) (tol : ℝ) (ht : machineEps ≤ tol) (hne : ¬ IsEigenvalue sc.L1u tol)
    (eh ec eg : EigPairs sc.E) (hp : EigParts lib sc tol eh ec eg) :
    (eh.vecs.transpose * eh.vecs = 1 ∧ ec.vecs.transpose * ec.vecs = 1 ∧ eg.vecs.transpose * eg.vecs = 1) ∧
    (eh.vecs.transpose * ec.vecs = 0 ∧ eh.vecs.transpose * eg.vecs = 0 ∧ ec.vecs.transpose * eg.vecs = 0) ∧
    ∀ f : Fin sc.E → ℝ, eh.vecs.mulVec (eh.vecs.transpose.mulVec f) + ec.vecs.mulVec (ec.vecs.transpose.mulVec f) +
      eg.vecs.mulVec (eg.vecs.transpose.mulVec f) = f := by
  have hb := hp.picked
  have htp : 0 < tol := lt_of_lt_of_le machineEps_pos ht
  obtain ⟨kh, kc, kg⟩ := C144_kinds hw tol ht hne eh ec eg hp
  have hcount := ((C144_counts hw tol ht eh ec eg hp).2).mpr hne
  have orth : eh.vecs.transpose * eh.vecs = 1 ∧ ec.vecs.transpose * ec.vecs = 1 ∧
      eg.vecs.transpose * eg.vecs = 1 := by
    have key : ∀ {A U : Matrix (Fin sc.E) (Fin sc.E) ℝ} {w : Fin sc.E → ℝ} (h : IsEig A U w) (s : Fin sc.E → ℝ)
        (cond : ℝ → Prop) [DecidablePred cond],
        (selectPairs U s cond).vecs.transpose * (selectPairs U s cond).vecs = 1 := by
      intro A U w h s cond _
      have h2 : IsEig (U * diagonal s * U.transpose) U s :=
        ⟨h.orth, by rw [Matrix.mul_assoc, h.orth, Matrix.mul_one]⟩
      exact sel_orth h2
    refine ⟨?_, ?_, ?_⟩
    · rw [hb.harm]; exact key (lib.isEig (symmPSD_L1 sc)) _ _
    · rw [hb.curl]; exact key (lib.isEig (symmPSD_L1u sc)) _ _
    · rw [hb.grad]; exact key (lib.isEig (symmPSD_L1l sc)) _ _
  have hs := (symmPSD_L1 sc).1
  have diff : ∀ (u v : Fin sc.E → ℝ) (lam mu : ℝ), lam < mu → sc.L1.mulVec u = lam • u →
      sc.L1.mulVec v = mu • v → u ⬝ᵥ v = 0 := by
    intro u v lam mu hl hu hv
    have h1 : mu * (u ⬝ᵥ v) = lam * (u ⬝ᵥ v) := by
      rw [← smul_eq_mul, ← dotProduct_smul, ← hv, dot_mulVec_transpose, hs, hu, smul_dotProduct, smul_eq_mul]
    have h2 : (mu - lam) * (u ⬝ᵥ v) = 0 := by linarith
    exact (mul_eq_zero.mp h2).resolve_left (by linarith)
  have cross : eh.vecs.transpose * ec.vecs = 0 ∧ eh.vecs.transpose * eg.vecs = 0 ∧
      ec.vecs.transpose * eg.vecs = 0 := by
    refine ⟨?_, ?_, ?_⟩
    · ext a b
      obtain ⟨d, -, -, h1, h2⟩ := kh a
      exact diff _ _ _ _ (by linarith [(kc b).2.1]) h2 (kc b).2.2
    · ext a b
      obtain ⟨d, -, -, h1, h2⟩ := kh a
      exact diff _ _ _ _ (by linarith [(kg b).2.1]) h2 (kg b).2.2
    · ext a b
      have h1 := (kc a).1
      have h2 := (kg b).1
      have hpos : 0 < eg.vals b := by linarith [(kg b).2.1]
      have h3 := (kg b).2.2
      unfold SC.getCurl at h2
      unfold SC.getDivergence at h1
      rw [SC.L1, add_mulVec, SC.L1u, ← mulVec_mulVec _ sc.B2, h2, mulVec_zero, add_zero, SC.L1l,
        ← mulVec_mulVec] at h3
      have h4 : eg.vals b * ((fun k => ec.vecs k a) ⬝ᵥ (fun k => eg.vecs k b)) = 0 := by
        rw [← smul_eq_mul, ← dotProduct_smul, ← h3, dot_mulVec_transpose, transpose_transpose, h1,
          zero_dotProduct]
      exact (mul_eq_zero.mp h4).resolve_left hpos.ne'
  refine ⟨orth, cross, fun f => ?_⟩
  set V : Matrix (Fin sc.E) (Fin eh.num ⊕ Fin ec.num ⊕ Fin eg.num) ℝ :=
    Matrix.of fun i => Sum.elim (eh.vecs i) (Sum.elim (ec.vecs i) (eg.vecs i)) with hV
  have hVV : V.transpose * V = 1 := by
    have t1 : ec.vecs.transpose * eh.vecs = 0 := by
      rw [← transpose_transpose eh.vecs, ← transpose_mul, cross.1, transpose_zero]
    have t2 : eg.vecs.transpose * eh.vecs = 0 := by
      rw [← transpose_transpose eh.vecs, ← transpose_mul, cross.2.1, transpose_zero]
    have t3 : eg.vecs.transpose * ec.vecs = 0 := by
      rw [← transpose_transpose ec.vecs, ← transpose_mul, cross.2.2, transpose_zero]
    ext a b
    rcases a with a | a | a <;> rcases b with b | b | b
    · have := congrFun (congrFun orth.1 a) b
      exact Eq.trans this (by simp [Matrix.one_apply])
    · have := congrFun (congrFun cross.1 a) b
      exact Eq.trans this (by simp)
    · have := congrFun (congrFun cross.2.1 a) b
      exact Eq.trans this (by simp)
    · have := congrFun (congrFun t1 a) b
      exact Eq.trans this (by simp)
    · have := congrFun (congrFun orth.2.1 a) b
      exact Eq.trans this (by simp [Matrix.one_apply])
    · have := congrFun (congrFun cross.2.2 a) b
      exact Eq.trans this (by simp)
    · have := congrFun (congrFun t2 a) b
      exact Eq.trans this (by simp)
    · have := congrFun (congrFun t3 a) b
      exact Eq.trans this (by simp)
    · have := congrFun (congrFun orth.2.2 a) b
      exact Eq.trans this (by simp [Matrix.one_apply])
  have hcard : Fintype.card (Fin eh.num ⊕ Fin ec.num ⊕ Fin eg.num) = Fintype.card (Fin sc.E) := by
    simp only [Fintype.card_sum, Fintype.card_fin]
    omega
  have hVV' : V * V.transpose = 1 := (mul_eq_one_comm_of_card_eq _ _ _ hcard).mp hVV
  have h1 : V.mulVec (V.transpose.mulVec f) = f := by rw [mulVec_mulVec, hVV', one_mulVec]
  conv_rhs => rw [← h1]
  ext i
  change _ = ∑ s, V i s * V.transpose.mulVec f s
  rw [Fintype.sum_sum_type, Fintype.sum_sum_type, ← add_assoc]
  rfl

/-- C144 (default tolerance): the embeddings of a flow carry all of its energy and rebuild it, on every complex. -/
theorem C144_embeddings (hw : sc.WellFormed) (f : Fin sc.E → ℝ) (eh ec eg : EigPairs sc.E)
    (hp : EigParts lib sc (1 / 1000) eh ec eg) :
    eh.num + ec.num + eg.num = sc.E ∧
    ∃ (ah : Fin eh.num → ℝ) (ac : Fin ec.num → ℝ) (ag : Fin eg.num → ℝ),
      sc.getSimplicialEmbeddings lib f = .ok (⟨_, ah⟩, ⟨_, ac⟩, ⟨_, ag⟩) ∧
      eh.vecs.mulVec ah + ec.vecs.mulVec ac + eg.vecs.mulVec ag = f ∧
      ah ⬝ᵥ ah + ac ⬝ᵥ ac + ag ⬝ᵥ ag = f ⬝ᵥ f := by
  have hne := default_not_eigenvalue hw.built
  obtain ⟨-, -, hsum⟩ := C144_basis hw _ machineEps_le hne eh ec eg hp
  refine ⟨((C144_counts hw _ machineEps_le eh ec eg hp).2).mpr hne, eh.vecs.transpose.mulVec f,
    ec.vecs.transpose.mulVec f, eg.vecs.transpose.mulVec f, ?_, hsum f, ?_⟩
  · have h1 : getHarmonicEigenpair lib (.ndarray sc.L1) (1 / 1000) = .ok eh := hp.harm
    have h2 : getCurlEigenpair lib (.ndarray sc.L1u) (1 / 1000) = .ok ec := hp.curl
    have h3 : getGradientEigenpair lib (.ndarray sc.L1l) (1 / 1000) = .ok eg := hp.grad
    unfold SC.getSimplicialEmbeddings
    rw [h1, h2, h3]
    rfl
  · have key : ∀ {m : ℕ} (V : Matrix (Fin sc.E) (Fin m) ℝ),
        V.transpose.mulVec f ⬝ᵥ V.transpose.mulVec f = f ⬝ᵥ V.mulVec (V.transpose.mulVec f) := by
      intro m V
      conv_rhs => rw [dot_mulVec_transpose]
    rw [key, key, key, ← dotProduct_add, ← dotProduct_add, hsum f]

/-- C144 (default tolerance): the harmonic eigenvectors always span at least the harmonic space: a flow without
divergence and curl is rebuilt from them alone. -/
theorem C144_harmonic (hw : sc.WellFormed) (f : Fin sc.E → ℝ) (hd : sc.getDivergence f = 0)
    (hc : sc.getCurl f = 0) (eh : EigPairs sc.E) (hp : sc.getComponentEigenpair lib "harmonic" = .ok eh) :
    eh.vecs.mulVec (eh.vecs.transpose.mulVec f) = f := by
  have hE : 0 < sc.E := by
    by_contra h0
    have h0' : sc.E = 0 := by omega
    have := hp
    simp only [SC.getComponentEigenpair, if_true, getHarmonicEigenpair, getEigendecomposition, h0',
      bind, Except.bind] at this
    cases this
  obtain ⟨eh', ec, eg, hq⟩ := EigParts.exists lib sc (1 / 1000) hE
  obtain rfl : eh' = eh := Except.ok.inj (hq.harm.symm.trans hp)
  have hne := default_not_eigenvalue hw.built
  obtain ⟨-, kc, kg⟩ := C144_kinds hw _ machineEps_le hne eh' ec eg hq
  obtain ⟨-, -, hsum⟩ := C144_basis hw _ machineEps_le hne eh' ec eg hq
  have hL := (C12_hodge_kernel sc f).mpr ⟨hd, hc⟩
  have key : ∀ (v : Fin sc.E → ℝ) (lam : ℝ), (1 / 1000 : ℝ) < lam → sc.L1.mulVec v = lam • v → v ⬝ᵥ f = 0 := by
    intro v lam hl hv
    have h1 : lam * (v ⬝ᵥ f) = 0 := by
      rw [← smul_eq_mul, ← smul_dotProduct, ← hv, dotProduct_comm, dot_mulVec_transpose, (symmPSD_L1 sc).1, hL,
        zero_dotProduct]
    exact (mul_eq_zero.mp h1).resolve_left (by linarith)
  have z1 : ec.vecs.transpose.mulVec f = 0 := by
    ext j; exact key _ _ (kc j).2.1 (kc j).2.2
  have z2 : eg.vecs.transpose.mulVec f = 0 := by
    ext j; exact key _ _ (kg j).2.1 (kg j).2.2
  have := hsum f
  rwa [z1, z2, mulVec_zero, mulVec_zero, add_zero, add_zero] at this

/-! ## Concrete cases -/

/-- the path with 2000 edges, where the gap hypothesis of C27 - C30 fails, is covered -/
example : ∃ (lib : NumLib) (sc : SC ℝ) (eh ec eg : EigPairs sc.E), sc.WellFormed ∧ sc.E = 2000 ∧
    EigParts lib sc (1 / 1000) eh ec eg ∧ ¬ NoSmallEigenvalue sc.L1 (1 / 1000) := by
  obtain ⟨lib⟩ := NumLib.exists
  obtain ⟨sc, hw, h1, h2, h3⟩ := path_wellFormed 2000
  have hE : sc.E = 2000 := by simp [SC.E, h2, pathEdges]
  obtain ⟨eh, ec, eg, hp⟩ := EigParts.exists lib sc (1 / 1000) (by omega)
  refine ⟨lib, sc, eh, ec, eg, hw, hE, hp, fun hgap => ?_⟩
  obtain ⟨-, eh', he, hpos, hdiv⟩ := C31_default_tolerance_fails (lib := lib) 2000 le_rfl hw h1 h2 h3
  obtain rfl : eh = eh' := Except.ok.inj (hp.harm.symm.trans he)
  exact hdiv ⟨0, hpos⟩ ((C28_kinds hw _ machineEps_le hgap eh ec eg hp).1 ⟨0, hpos⟩).1

/-- the exclusion is needed: with tolerance 3 on the filled triangle beside the hollow one the curl eigenvector is
counted twice -/
theorem C144_integer_tolerance (eh ec eg : EigPairs twoTri.E) (hp : EigParts lib twoTri 3 eh ec eg) :
    twoTri.E < eh.num + ec.num + eg.num := by
  obtain ⟨h1, h2⟩ := C144_counts twoTri_wellFormed 3 (by unfold machineEps; norm_num) eh ec eg hp
  refine lt_of_le_of_ne h1 fun h => h2.mp h.symm ?_
  have h : twoTriB2 * twoTriB2.transpose * twoTriB2 = 3 • twoTriB2 := by decide +kernel
  have h' := congrArg (fun M : Matrix (Fin 6) (Fin 1) ℤ => M.map (Int.castRingHom ℝ)) h
  simp only [Matrix.map_mul] at h'
  have e : twoTri.L1u = twoTriB2.map (Int.castRingHom ℝ) * twoTriB2.transpose.map (Int.castRingHom ℝ) := rfl
  refine ⟨fun i => twoTriB2.map (Int.castRingHom ℝ) i 0, fun h0 => ?_, ?_⟩
  · have : (1 : ℝ) = 0 := by
      refine Eq.trans ?_ (congrFun h0 (0 : Fin 6))
      simp [twoTriB2]
    exact one_ne_zero this
  · ext i
    have h2 := congrFun (congrFun h' i) 0
    rw [e]
    refine Eq.trans h2 ?_
    change ((((3 : ℕ) • twoTriB2 i 0 : ℤ)) : ℝ) = 3 * ((twoTriB2 i 0 : ℤ) : ℝ)
    push_cast [nsmul_eq_mul]
    rfl

end Pytspl
