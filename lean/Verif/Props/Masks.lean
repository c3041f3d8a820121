import Verif.Model.BaseFilter
import Verif.Props.EveryTolerance
import Verif.Lemmas.PyList
import Mathlib.Data.List.Sort

/-!
# C49, C144: the component coefficient masks
-/

namespace Pytspl

open Matrix

variable {lib : NumLib} {sc : SC ℝ}

/-- the mask before sorting -/
noncomputable def maskFn (component : String) (h c i : ℕ) : ℝ :=
  if component = "harmonic" then (if i < h then 1 else 0)
  else if component = "curl" then (if h ≤ i ∧ i < h + c then 1 else 0)
  else (if h + c ≤ i then 1 else 0)

/-- the eigenvalues of the three components, one after another -/
noncomputable def allVals {n : ℕ} (eh ec eg : EigPairs n) : List ℝ :=
  List.ofFn eh.vals ++ List.ofFn ec.vals ++ List.ofFn eg.vals

private theorem allVals_length (hw : sc.WellFormed)
    {eh ec eg : EigPairs sc.E} (hp : EigParts lib sc (1 / 1000) eh ec eg) :
    (allVals eh ec eg).length = sc.E := by
  have := ((C144_counts hw _ machineEps_le eh ec eg hp).2).mpr (default_not_eigenvalue hw.built)
  simp only [allVals, List.length_append, List.length_ofFn]; exact this

/-- what `get_component_coefficients` returns when there are as many eigenvectors as edges -/
theorem coeffs_of_length {eh ec eg : EigPairs sc.E} (hlen : (allVals eh ec eg).length = sc.E)
    (hp : EigParts lib sc (1 / 1000) eh ec eg) (component : String)
    (hc : component = "harmonic" ∨ component = "curl" ∨ component = "gradient") :
    sc.getComponentCoefficients lib component =
      .ok ((lib.argsort (allVals eh ec eg)).map (maskFn component eh.num ec.num)) := by
  have hmem : ∀ i ∈ lib.argsort (allVals eh ec eg), i < sc.E := by
    intro i hi
    have := (lib.argsort_perm (allVals eh ec eg)).mem_iff.1 hi
    rwa [List.mem_range, hlen] at this
  rw [SC.getComponentCoefficients, hp.harm, hp.curl, hp.grad]
  rcases hc with rfl | rfl | rfl
  · simp only [bind, Except.bind, if_true, pure, Except.pure]
    refine mapM_ok _ _ _ fun i hi => ?_
    rw [List.getElem?_map, List.getElem?_range (hmem i hi)]
    simp [maskFn]
  · simp only [bind, Except.bind, if_true, pure, Except.pure,
      if_neg (show ¬ ("curl" = "harmonic") by decide)]
    refine mapM_ok _ _ _ fun i hi => ?_
    rw [List.getElem?_map, List.getElem?_range (hmem i hi)]
    simp [maskFn]
  · simp only [bind, Except.bind, if_true, pure, Except.pure,
      if_neg (show ¬ ("gradient" = "harmonic") by decide), if_neg (show ¬ ("gradient" = "curl") by decide)]
    refine mapM_ok _ _ _ fun i hi => ?_
    rw [List.getElem?_map, List.getElem?_range (hmem i hi)]
    simp [maskFn]

private theorem coeffs_eq (hw : sc.WellFormed)
    {eh ec eg : EigPairs sc.E} (hp : EigParts lib sc (1 / 1000) eh ec eg) (component : String)
    (hc : component = "harmonic" ∨ component = "curl" ∨ component = "gradient") :
    sc.getComponentCoefficients lib component =
      .ok ((lib.argsort (allVals eh ec eg)).map (maskFn component eh.num ec.num)) :=
  coeffs_of_length (allVals_length hw hp) hp component hc

/-- the sorted concatenation is the list of Hodge eigenvalues, those below machine epsilon replaced by 0 -/
private theorem sorted_vals (hw : sc.WellFormed)
    {eh ec eg : EigPairs sc.E} (hp : EigParts lib sc (1 / 1000) eh ec eg) :
    ((lib.argsort (allVals eh ec eg)).map fun i => (allVals eh ec eg)[i]?.getD 0) =
      List.ofFn fun i => if |(lib.eigh sc.E sc.L1).1 i| < machineEps then 0 else (lib.eigh sc.E sc.L1).1 i := by
  have hspec := C144_spectrum hw _ machineEps_le (default_not_eigenvalue hw.built) eh ec eg hp
  have hE := lib.isEig (symmPSD_L1 sc)
  rw [hE.roots_eq, Multiset.map_map] at hspec
  have hcomp : (fun x : ℝ => if x < machineEps then 0 else x) ∘ (lib.eigh sc.E sc.L1).1 =
      fun i => if |(lib.eigh sc.E sc.L1).1 i| < machineEps then 0 else (lib.eigh sc.E sc.L1).1 i := by
    funext i
    simp only [Function.comp, abs_of_nonneg (hE.nonneg (symmPSD_L1 sc) i)]
  rw [hcomp, Fin.univ_val_map] at hspec
  have hperm : (allVals eh ec eg).Perm
      (List.ofFn fun i => if |(lib.eigh sc.E sc.L1).1 i| < machineEps then 0 else (lib.eigh sc.E sc.L1).1 i) := by
    rw [← Multiset.coe_eq_coe]; exact hspec
  have h1 : ((lib.argsort (allVals eh ec eg)).map fun i => (allVals eh ec eg)[i]?.getD 0).Perm
      (allVals eh ec eg) := by
    refine ((lib.argsort_perm (allVals eh ec eg)).map _).trans ?_
    have : ((List.range (allVals eh ec eg).length).map fun i => (allVals eh ec eg)[i]?.getD 0) =
        allVals eh ec eg := by
      apply List.ext_getElem
      · simp
      · intro i h1 h2; simp [h2]
    rw [this]
  refine (h1.trans hperm).eq_of_pairwise ?_ (lib.argsort_sorted _) ?_
  · intro a b _ _ h1 h2; exact le_antisymm h1 h2
  · rw [List.pairwise_ofFn]
    intro i j hij
    have hm := (lib.eigh_spec sc.E sc.L1 (symmPSD_L1 sc).1).1 hij.le
    have hi := hE.nonneg (symmPSD_L1 sc) i
    have hj := hE.nonneg (symmPSD_L1 sc) j
    simp only [abs_of_nonneg hi, abs_of_nonneg hj]
    split <;> split <;> linarith

/-- sums over the frequencies and a mask do not depend on how ties are broken: they are the sums over the
eigenvalues of the components, one component after another -/
theorem coeffs_sum (hw : sc.WellFormed)
    {eh ec eg : EigPairs sc.E} (hp : EigParts lib sc (1 / 1000) eh ec eg) (component : String)
    (hc : component = "harmonic" ∨ component = "curl" ∨ component = "gradient") :
    ∃ al, sc.getComponentCoefficients lib component = .ok al ∧ al.length = sc.E ∧
      ∀ F : ℝ → ℝ → ℝ, ((List.finRange sc.E).map fun i : Fin sc.E =>
          F (if |(lib.eigh sc.E sc.L1).1 i| < machineEps then 0 else (lib.eigh sc.E sc.L1).1 i)
            (al[(i : ℕ)]?.getD 0)).sum =
        ((List.range sc.E).map fun s => F ((allVals eh ec eg)[s]?.getD 0)
          (maskFn component eh.num ec.num s)).sum := by
  have hperm := lib.argsort_perm (allVals eh ec eg)
  rw [allVals_length hw hp] at hperm
  have hal : (lib.argsort (allVals eh ec eg)).length = sc.E := by rw [hperm.length_eq]; simp
  refine ⟨_, coeffs_eq hw hp component hc, by simp [hal], fun F => ?_⟩
  rw [← (hperm.map _).sum_eq]
  congr 1
  have hs := sorted_vals hw hp
  apply List.ext_getElem
  · simp [hal]
  · intro i h1 h2
    have h3 : i < (lib.argsort (allVals eh ec eg)).length := by simpa using h2
    have h4 : i < sc.E := by rw [hal] at h3; exact h3
    have e := congrArg (fun l : List ℝ => l[i]?) hs
    simp only [List.getElem?_map, List.getElem?_ofFn, h4, dif_pos, List.getElem?_eq_getElem h3,
      Option.map_some, Option.some.injEq] at e
    simp only [List.getElem_map, List.getElem_finRange, List.getElem?_map, List.getElem?_eq_getElem h3,
      Option.map_some, Option.getD_some, e, Fin.cast_mk]

/-- the power sums of the frequencies weighted by a mask do not depend on how ties are broken -/
theorem coeffs_moment (hw : sc.WellFormed)
    {eh ec eg : EigPairs sc.E} (hp : EigParts lib sc (1 / 1000) eh ec eg) (component : String)
    (hc : component = "harmonic" ∨ component = "curl" ∨ component = "gradient") :
    ∃ al, sc.getComponentCoefficients lib component = .ok al ∧ al.length = sc.E ∧
      ∀ k : ℕ, ((List.finRange sc.E).map fun i : Fin sc.E =>
          (if |(lib.eigh sc.E sc.L1).1 i| < machineEps then 0 else (lib.eigh sc.E sc.L1).1 i) ^ k *
            al[(i : ℕ)]?.getD 0).sum =
        ((List.range sc.E).map fun s => (allVals eh ec eg)[s]?.getD 0 ^ k *
          maskFn component eh.num ec.num s).sum := by
  obtain ⟨al, h1, h2, h3⟩ := coeffs_sum hw hp component hc
  exact ⟨al, h1, h2, fun k => h3 fun x y => x ^ k * y⟩

private theorem sum_mask (h c g n : ℕ) (hn : h + c + g = n) :
    ((List.range n).map (maskFn "harmonic" h c)).sum = h ∧
    ((List.range n).map (maskFn "curl" h c)).sum = c ∧
    ((List.range n).map (maskFn "gradient" h c)).sum = g := by
  subst hn
  have e : ∀ F : ℕ → ℝ, ((List.range (h + c + g)).map F).sum =
      (∑ i ∈ Finset.range h, F i) + (∑ i ∈ Finset.range c, F (h + i)) +
        ∑ i ∈ Finset.range g, F (h + c + i) := by
    intro F
    rw [← Finset.sum_range_add, ← Finset.sum_range_add]
    rfl
  simp only [e, maskFn, if_true, if_neg (show ¬ ("curl" = "harmonic") by decide),
    if_neg (show ¬ ("gradient" = "harmonic") by decide), if_neg (show ¬ ("gradient" = "curl") by decide)]
  have s1 : ∀ (k : ℕ) (F : ℕ → ℝ), (∀ i < k, F i = 1) → ∑ i ∈ Finset.range k, F i = k := by
    intro k F hF
    rw [Finset.sum_congr rfl fun i hi => hF i (Finset.mem_range.1 hi)]; simp
  have s0 : ∀ (k : ℕ) (F : ℕ → ℝ), (∀ i < k, F i = 0) → ∑ i ∈ Finset.range k, F i = 0 := by
    intro k F hF
    exact Finset.sum_eq_zero fun i hi => hF i (Finset.mem_range.1 hi)
  refine ⟨?_, ?_, ?_⟩
  · rw [s1 h _ fun i hi => if_pos hi, s0 c _ fun i hi => if_neg (by omega),
      s0 g _ fun i hi => if_neg (by omega)]
    simp
  · rw [s0 h _ fun i hi => if_neg (by omega), s1 c _ fun i hi => if_pos (by omega),
      s0 g _ fun i hi => if_neg (by omega)]
    simp
  · rw [s0 h _ fun i hi => if_neg (by omega), s0 c _ fun i hi => if_neg (by omega),
      s1 g _ fun i hi => if_pos (by omega)]
    simp

private theorem kinds (hw : sc.WellFormed) (hgap : NoSmallEigenvalue sc.L1 (1 / 1000))
    {eh ec eg : EigPairs sc.E} (hp : EigParts lib sc (1 / 1000) eh ec eg) :
    (∀ j, eh.vals j = 0) ∧ (∀ j, 0 < ec.vals j ∧ IsEigenvalue sc.L1u (ec.vals j)) ∧
    (∀ j, 0 < eg.vals j ∧ IsEigenvalue sc.L1l (eg.vals j)) := by
  obtain ⟨k1, k2, k3⟩ := C28_kinds hw _ machineEps_le hgap eh ec eg hp
  obtain ⟨-, o2, o3⟩ := C28_orthonormal hw _ machineEps_le hgap eh ec eg hp
  have hne : ∀ {k : ℕ} (V : Matrix (Fin sc.E) (Fin k) ℝ), V.transpose * V = 1 → ∀ j,
      (fun i => V i j) ≠ 0 := by
    intro k V hV j h0
    have h1 := congrFun (congrFun hV j) j
    have h2 : (V.transpose * V) j j = (fun i => V i j) ⬝ᵥ (fun i => V i j) := rfl
    rw [h2, h0] at h1
    simp at h1
  refine ⟨fun j => (k1 j).2.2, fun j => ⟨by linarith [(k2 j).2.2], _, hne _ o2 j, ?_⟩,
    fun j => ⟨by linarith [(k3 j).2.2], _, hne _ o3 j, ?_⟩⟩
  · have hd := (k2 j).1
    unfold SC.getDivergence at hd
    rw [← (k2 j).2.1, SC.L1, add_mulVec, SC.L1l, ← mulVec_mulVec _ sc.B1.transpose, hd, mulVec_zero,
      zero_add]
  · have hd := (k3 j).1
    unfold SC.getCurl at hd
    rw [← (k3 j).2.1, SC.L1, add_mulVec, SC.L1u, ← mulVec_mulVec _ sc.B2, hd, mulVec_zero, add_zero]

/-- C49: the three masks.  At every position exactly one mask is 1 and the others are 0; the harmonic
one exactly at the zero eigenvalues of the Hodge Laplacian, the curl (gradient) one only at non-zero
eigenvalues of the upper (lower) Laplacian; and each mask has as many ones as its component has
dimensions. -/
theorem C49_masks (hw : sc.WellFormed) (hgap : NoSmallEigenvalue sc.L1 (1 / 1000))
    (U : Matrix (Fin sc.E) (Fin sc.E) ℝ) (w : Fin sc.E → ℝ)
    (hU : getEigendecomposition lib (.ndarray sc.L1) = .ok (U, w)) :
    ∃ mh mc mg : List ℝ,
      sc.getComponentCoefficients lib "harmonic" = .ok mh ∧
      sc.getComponentCoefficients lib "curl" = .ok mc ∧
      sc.getComponentCoefficients lib "gradient" = .ok mg ∧
      mh.length = sc.E ∧ mc.length = sc.E ∧ mg.length = sc.E ∧
      (∀ i : Fin sc.E,
        (mh[(i : ℕ)]? = some 1 ∧ mc[(i : ℕ)]? = some 0 ∧ mg[(i : ℕ)]? = some 0 ∧ w i = 0) ∨
        (mh[(i : ℕ)]? = some 0 ∧ mc[(i : ℕ)]? = some 1 ∧ mg[(i : ℕ)]? = some 0 ∧
          0 < w i ∧ IsEigenvalue sc.L1u (w i)) ∨
        (mh[(i : ℕ)]? = some 0 ∧ mc[(i : ℕ)]? = some 0 ∧ mg[(i : ℕ)]? = some 1 ∧
          0 < w i ∧ IsEigenvalue sc.L1l (w i))) ∧
      mg.sum = sc.B1.rank ∧ mc.sum = sc.B2.rank ∧
      mh.sum = ((sc.E - sc.B1.rank - sc.B2.rank : ℕ) : ℝ) := by
  have hE : 0 < sc.E := by
    by_contra h0
    have h0' : sc.E = 0 := by omega
    simp only [getEigendecomposition, h0', if_true] at hU
    cases hU
  rw [getEigendecomposition_dense lib hE, snap_eq lib (symmPSD_L1 sc) machineEps_le hgap] at hU
  have hw' : (lib.eigh sc.E sc.L1).1 = w := congrArg Prod.snd (Except.ok.inj hU)
  obtain ⟨eh, ec, eg, hp⟩ := EigParts.exists lib sc (1 / 1000) hE
  obtain ⟨c0, c1, c2, c3⟩ := C27_counts hw _ machineEps_le hgap eh ec eg hp
  obtain ⟨k1, k2, k3⟩ := kinds hw hgap hp
  have hlen := allVals_length hw hp
  have hperm := lib.argsort_perm (allVals eh ec eg)
  rw [hlen] at hperm
  have hal : (lib.argsort (allVals eh ec eg)).length = sc.E := by rw [hperm.length_eq]; simp
  have hs := sorted_vals hw hp
  rw [snap_eq lib (symmPSD_L1 sc) machineEps_le hgap, hw'] at hs
  refine ⟨_, _, _, coeffs_eq hw hp "harmonic" (by simp), coeffs_eq hw hp "curl" (by simp),
    coeffs_eq hw hp "gradient" (by simp), by simp [hal], by simp [hal], by simp [hal], ?_, ?_, ?_, ?_⟩
  · intro i
    have hi : (i : ℕ) < (lib.argsort (allVals eh ec eg)).length := by rw [hal]; exact i.isLt
    set s := (lib.argsort (allVals eh ec eg))[(i : ℕ)] with hsdef
    have hsE : s < sc.E := by
      have := hperm.mem_iff.1 (List.getElem_mem hi)
      rwa [List.mem_range] at this
    have hwi : w i = (allVals eh ec eg)[s]?.getD 0 := by
      have h1 := congrArg (fun l : List ℝ => l[(i : ℕ)]?) hs
      simp only [List.getElem?_map, List.getElem?_ofFn, i.isLt, dif_pos] at h1
      rw [List.getElem?_eq_getElem hi] at h1
      simp only [Option.map_some, Option.some.injEq] at h1
      exact h1.symm
    simp only [List.getElem?_map, List.getElem?_eq_getElem hi, Option.map_some, Option.some.injEq,
      ← hsdef]
    have hsl : s < (allVals eh ec eg).length := by rw [hlen]; exact hsE
    rw [List.getElem?_eq_getElem hsl, Option.getD_some] at hwi
    rcases lt_or_ge s eh.num with h1 | h1
    · left
      refine ⟨by simp [maskFn, h1], by simp [maskFn, h1], by simp [maskFn]; omega, ?_⟩
      rw [hwi]
      simp only [allVals]
      rw [List.getElem_append_left (by simp; omega), List.getElem_append_left (by simpa using h1),
        List.getElem_ofFn]
      exact k1 _
    · right
      rcases lt_or_ge s (eh.num + ec.num) with h2 | h2
      · left
        have e : w i = ec.vals ⟨s - eh.num, by omega⟩ := by
          rw [hwi]
          simp only [allVals]
          rw [List.getElem_append_left (by simpa using h2), List.getElem_append_right (by simpa using h1),
            List.getElem_ofFn]
          simp
        rw [e]
        exact ⟨by simp [maskFn]; omega, by simp [maskFn]; omega, by simp [maskFn]; omega, k2 _⟩
      · right
        have e : w i = eg.vals ⟨s - (eh.num + ec.num), by omega⟩ := by
          rw [hwi]
          simp only [allVals]
          rw [List.getElem_append_right (by simpa using h2), List.getElem_ofFn]
          simp
        rw [e]
        exact ⟨by simp [maskFn]; omega, by simp [maskFn]; omega, by simp [maskFn]; omega, k3 _⟩
  · rw [(hperm.map _).sum_eq, (sum_mask _ _ _ _ c0).2.2, c1]
  · rw [(hperm.map _).sum_eq, (sum_mask _ _ _ _ c0).2.1, c2]
  · rw [(hperm.map _).sum_eq, (sum_mask _ _ _ _ c0).1, c3]

/-- C144: on every complex with an edge the three masks of `get_component_coefficients` have one entry per edge, and
at every position exactly one of them is 1 and the others are 0: the harmonic one exactly at the eigenvalues of the
Hodge Laplacian up to 1e-3, the curl (gradient) one only at larger eigenvalues of the upper (lower) Laplacian. -/
theorem C144_masks (hw : sc.WellFormed)
    (U : Matrix (Fin sc.E) (Fin sc.E) ℝ) (w : Fin sc.E → ℝ)
    (hU : getEigendecomposition lib (.ndarray sc.L1) = .ok (U, w)) :
    ∃ mh mc mg : List ℝ,
      sc.getComponentCoefficients lib "harmonic" = .ok mh ∧
      sc.getComponentCoefficients lib "curl" = .ok mc ∧
      sc.getComponentCoefficients lib "gradient" = .ok mg ∧
      mh.length = sc.E ∧ mc.length = sc.E ∧ mg.length = sc.E ∧
      ∀ i : Fin sc.E,
        (mh[(i : ℕ)]? = some 1 ∧ mc[(i : ℕ)]? = some 0 ∧ mg[(i : ℕ)]? = some 0 ∧ w i ≤ 1 / 1000) ∨
        (mh[(i : ℕ)]? = some 0 ∧ mc[(i : ℕ)]? = some 1 ∧ mg[(i : ℕ)]? = some 0 ∧
          1 / 1000 < w i ∧ IsEigenvalue sc.L1u (w i)) ∨
        (mh[(i : ℕ)]? = some 0 ∧ mc[(i : ℕ)]? = some 0 ∧ mg[(i : ℕ)]? = some 1 ∧
          1 / 1000 < w i ∧ IsEigenvalue sc.L1l (w i)) := by
  have hE : 0 < sc.E := by
    by_contra h0
    have h0' : sc.E = 0 := by omega
    simp only [getEigendecomposition, h0', if_true] at hU
    cases hU
  rw [getEigendecomposition_dense lib hE] at hU
  have hw' : (fun i => if |(lib.eigh sc.E sc.L1).1 i| < machineEps then 0 else (lib.eigh sc.E sc.L1).1 i) = w :=
    congrArg Prod.snd (Except.ok.inj hU)
  obtain ⟨eh, ec, eg, hp⟩ := EigParts.exists lib sc (1 / 1000) hE
  obtain ⟨k1, k2, k3⟩ := C144_kinds hw _ machineEps_le (default_not_eigenvalue hw.built) eh ec eg hp
  obtain ⟨⟨-, o2, o3⟩, -, -⟩ := C144_basis hw _ machineEps_le (default_not_eigenvalue hw.built) eh ec eg hp
  have hne : ∀ {k : ℕ} (V : Matrix (Fin sc.E) (Fin k) ℝ), V.transpose * V = 1 → ∀ j,
      (fun i => V i j) ≠ 0 := by
    intro k V hV j h0
    have h1 := congrFun (congrFun hV j) j
    have h2 : (V.transpose * V) j j = (fun i => V i j) ⬝ᵥ (fun i => V i j) := rfl
    rw [h2, h0] at h1
    simp at h1
  have k2' : ∀ j, 1 / 1000 < ec.vals j ∧ IsEigenvalue sc.L1u (ec.vals j) := fun j => by
    refine ⟨(k2 j).2.1, _, hne _ o2 j, ?_⟩
    have hd := (k2 j).1
    unfold SC.getDivergence at hd
    rw [← (k2 j).2.2, SC.L1, add_mulVec, SC.L1l, ← mulVec_mulVec _ sc.B1.transpose, hd, mulVec_zero,
      zero_add]
  have k3' : ∀ j, 1 / 1000 < eg.vals j ∧ IsEigenvalue sc.L1l (eg.vals j) := fun j => by
    refine ⟨(k3 j).2.1, _, hne _ o3 j, ?_⟩
    have hd := (k3 j).1
    unfold SC.getCurl at hd
    rw [← (k3 j).2.2, SC.L1, add_mulVec, SC.L1u, ← mulVec_mulVec _ sc.B2, hd, mulVec_zero, add_zero]
  have hlen := allVals_length hw hp
  have hcount := hlen
  simp only [allVals, List.length_append, List.length_ofFn] at hcount
  have hperm := lib.argsort_perm (allVals eh ec eg)
  rw [hlen] at hperm
  have hal : (lib.argsort (allVals eh ec eg)).length = sc.E := by rw [hperm.length_eq]; simp
  have hs := sorted_vals hw hp
  rw [hw'] at hs
  refine ⟨_, _, _, coeffs_eq hw hp "harmonic" (by simp), coeffs_eq hw hp "curl" (by simp),
    coeffs_eq hw hp "gradient" (by simp), by simp [hal], by simp [hal], by simp [hal], fun i => ?_⟩
  have hi : (i : ℕ) < (lib.argsort (allVals eh ec eg)).length := by rw [hal]; exact i.isLt
  set s := (lib.argsort (allVals eh ec eg))[(i : ℕ)] with hsdef
  have hsE : s < sc.E := by
    have := hperm.mem_iff.1 (List.getElem_mem hi)
    rwa [List.mem_range] at this
  have hwi : w i = (allVals eh ec eg)[s]?.getD 0 := by
    have h1 := congrArg (fun l : List ℝ => l[(i : ℕ)]?) hs
    simp only [List.getElem?_map, List.getElem?_ofFn, i.isLt, dif_pos] at h1
    rw [List.getElem?_eq_getElem hi] at h1
    simp only [Option.map_some, Option.some.injEq] at h1
    exact h1.symm
  simp only [List.getElem?_map, List.getElem?_eq_getElem hi, Option.map_some, Option.some.injEq,
    ← hsdef]
  have hsl : s < (allVals eh ec eg).length := by rw [hlen]; exact hsE
  rw [List.getElem?_eq_getElem hsl, Option.getD_some] at hwi
  rcases lt_or_ge s eh.num with h1 | h1
  · left
    refine ⟨by simp [maskFn, h1], by simp [maskFn, h1], by simp [maskFn]; omega, ?_⟩
    rw [hwi]
    simp only [allVals]
    rw [List.getElem_append_left (by simp; omega), List.getElem_append_left (by simpa using h1),
      List.getElem_ofFn]
    obtain ⟨d, -, h, -⟩ := k1 ⟨s, h1⟩
    exact h
  · right
    rcases lt_or_ge s (eh.num + ec.num) with h2 | h2
    · left
      have e : w i = ec.vals ⟨s - eh.num, by omega⟩ := by
        rw [hwi]
        simp only [allVals]
        rw [List.getElem_append_left (by simpa using h2), List.getElem_append_right (by simpa using h1),
          List.getElem_ofFn]
        simp
      rw [e]
      exact ⟨by simp [maskFn]; omega, by simp [maskFn]; omega, by simp [maskFn]; omega, k2' _⟩
    · right
      have e : w i = eg.vals ⟨s - (eh.num + ec.num), by omega⟩ := by
        rw [hwi]
        simp only [allVals]
        rw [List.getElem_append_right (by simpa using h2), List.getElem_ofFn]
        simp
      rw [e]
      exact ⟨by simp [maskFn]; omega, by simp [maskFn]; omega, by simp [maskFn]; omega, k3' _⟩

/-- C49: any other name is rejected. -/
theorem C49_names (component : String) (h1 : component ≠ "harmonic") (h2 : component ≠ "curl")
    (h3 : component ≠ "gradient") : sc.getComponentCoefficients lib component = .error .valueError := by
  by_cases hE : 0 < sc.E
  · obtain ⟨eh, ec, eg, hp⟩ := EigParts.exists lib sc (1 / 1000) hE
    rw [SC.getComponentCoefficients, hp.harm, hp.curl, hp.grad]
    simp [h1, h2, h3, bind, Except.bind]
  · have h0 : sc.E = 0 := by omega
    simp [SC.getComponentCoefficients, SC.getComponentEigenpair, getHarmonicEigenpair,
      getEigendecomposition, h0, bind, Except.bind]

/-- the hypotheses hold for a filled triangle beside a hollow one -/
example (lib : NumLib) : ∃ mh mc mg : List ℝ,
    twoTri.getComponentCoefficients lib "harmonic" = .ok mh ∧
    twoTri.getComponentCoefficients lib "curl" = .ok mc ∧
    twoTri.getComponentCoefficients lib "gradient" = .ok mg ∧ mh.length = 6 := by
  have hg : NoSmallEigenvalue twoTri.L1 (1 / 1000) := by
    intro lam v hv h hl
    rcases twoTri_eigen hv h with rfl | rfl
    · linarith [hl.1]
    · linarith [hl.2]
  obtain ⟨mh, mc, mg, h1, h2, h3, h4, -⟩ := C49_masks (lib := lib) twoTri_wellFormed hg _ _
    (getEigendecomposition_dense lib (show 0 < twoTri.E by decide) _ _)
  exact ⟨mh, mc, mg, h1, h2, h3, h4⟩

end Pytspl
