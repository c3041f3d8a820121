import Verif.Props.Chebyshev
import Verif.Props.LibIndependence
import Verif.Props.GaussianProcess

/-!
# C176: whether the ideal filters depend on the eigensolver
-/

namespace Pytspl

open Matrix

variable {lib : NumLib} {sc : SC ℝ} {n : ℕ}

/-! ## Rotating the eigenvectors of one matrix -/

/-- the reflection that exchanges the unit vectors `e` and `u` -/
private noncomputable def reflect (e u : Fin n → ℝ) : Matrix (Fin n) (Fin n) ℝ :=
  1 - (2 / ((e - u) ⬝ᵥ (e - u))) • vecMulVec (e - u) (e - u)

private theorem reflect_symm (e u : Fin n → ℝ) : (reflect e u).transpose = reflect e u := by
  rw [reflect, transpose_sub, transpose_one, transpose_smul, transpose_vecMulVec]

private theorem reflect_orth (e u : Fin n → ℝ) : (reflect e u).transpose * reflect e u = 1 := by
  rw [reflect_symm, reflect]
  set w := e - u
  have h : vecMulVec w w * vecMulVec w w = (w ⬝ᵥ w) • vecMulVec w w := by
    rw [vecMulVec_mul_vecMulVec]
    ext i j
    simp [vecMulVec_apply]; ring
  rw [Matrix.sub_mul, Matrix.one_mul, Matrix.mul_sub, Matrix.mul_one, smul_mul_smul_comm, h, smul_smul]
  by_cases h0 : w ⬝ᵥ w = 0
  · simp [h0]
  · have : 2 / (w ⬝ᵥ w) * (2 / (w ⬝ᵥ w)) * (w ⬝ᵥ w) = 2 / (w ⬝ᵥ w) + 2 / (w ⬝ᵥ w) := by field_simp; ring
    rw [this, add_smul]
    abel

private theorem reflect_apply {e u : Fin n → ℝ} (he : e ⬝ᵥ e = 1) (hu : u ⬝ᵥ u = 1) : (reflect e u).mulVec e = u := by
  rw [reflect, sub_mulVec, one_mulVec, smul_mulVec]
  have hv : (vecMulVec (e - u) (e - u)).mulVec e = ((e - u) ⬝ᵥ e) • (e - u) := by
    funext i
    simp only [mulVec, vecMulVec_apply, dotProduct, Pi.smul_apply, smul_eq_mul, Finset.sum_mul]
    refine Finset.sum_congr rfl fun j _ => by ring
  have h1 : (e - u) ⬝ᵥ (e - u) = 2 * ((e - u) ⬝ᵥ e) := by
    rw [sub_dotProduct, dotProduct_sub, dotProduct_sub, sub_dotProduct, he, hu, dotProduct_comm e u]
    ring
  rw [hv, smul_smul, h1]
  by_cases h0 : (e - u) ⬝ᵥ e = 0
  · have h2 : e - u = 0 := by
      rw [h0, mul_zero] at h1
      exact dotProduct_self_eq_zero.1 h1
    rw [h2, smul_zero, sub_zero]
    exact sub_eq_zero.1 h2
  · have h2 : 2 / (2 * ((e - u) ⬝ᵥ e)) * ((e - u) ⬝ᵥ e) = 1 := by field_simp
    rw [h2, one_smul]
    abel

private theorem reflect_comm {e u w : Fin n → ℝ} {lam : ℝ} (h : ∀ i, (e - u) i ≠ 0 → w i = lam) :
    diagonal w * reflect e u = reflect e u * diagonal w := by
  rw [reflect, Matrix.mul_sub, Matrix.sub_mul, Matrix.mul_one, Matrix.one_mul, Matrix.mul_smul, Matrix.smul_mul]
  congr 2
  ext i j
  rw [diagonal_mul, mul_diagonal, vecMulVec_apply]
  by_cases hi : (e - u) i = 0
  · rw [hi]; ring
  · by_cases hj : (e - u) j = 0
    · rw [hj]; ring
    · rw [h i hi, h j hj]; ring

/-- a numerical library that returns the same eigenvalues, but other eigenvectors of one matrix -/
noncomputable def NumLib.rotate (lib : NumLib) {E : ℕ} (A₀ H : Matrix (Fin E) (Fin E) ℝ) (h1 : H.transpose * H = 1)
    (h2 : diagonal (lib.eigh E A₀).1 * H = H * diagonal (lib.eigh E A₀).1) : NumLib where
  eigh n A := ((lib.eigh n A).1, (lib.eigh n A).2 *
    (open Classical in
      if h : ∃ e : n = E, A.submatrix (Fin.cast e.symm) (Fin.cast e.symm) = A₀ then
        H.submatrix (Fin.cast h.1) (Fin.cast h.1) else 1))
  eigh_spec n A hA := by
    obtain ⟨g1, g2, g3⟩ := lib.eigh_spec n A hA
    refine ⟨g1, ?_, ?_⟩
    · split_ifs with h
      · obtain ⟨rfl, h⟩ := h
        change ((lib.eigh n A).2 * H).transpose * ((lib.eigh n A).2 * H) = 1
        rw [transpose_mul, Matrix.mul_assoc, ← Matrix.mul_assoc _ _ H, g2, Matrix.one_mul, h1]
      · simpa using g2
    · split_ifs with h
      · obtain ⟨rfl, h⟩ := h
        change A * ((lib.eigh n A).2 * H) = (lib.eigh n A).2 * H * diagonal (lib.eigh n A).1
        have h' : A = A₀ := h
        subst h'
        rw [← Matrix.mul_assoc, g3, Matrix.mul_assoc, h2, Matrix.mul_assoc]
      · simpa using g3
  lstsq := lib.lstsq
  lstsq_min := lib.lstsq_min
  lstsq_least := lib.lstsq_least
  argsort := lib.argsort
  argsort_perm := lib.argsort_perm
  argsort_sorted := lib.argsort_sorted

private theorem rotate_eigh (lib : NumLib) {E : ℕ} (A₀ H : Matrix (Fin E) (Fin E) ℝ) (h1 : H.transpose * H = 1)
    (h2 : diagonal (lib.eigh E A₀).1 * H = H * diagonal (lib.eigh E A₀).1) :
    ((lib.rotate A₀ H h1 h2).eigh E A₀).2 = (lib.eigh E A₀).2 * H := by
  have h : ∃ e : E = E, A₀.submatrix (Fin.cast e.symm) (Fin.cast e.symm) = A₀ := ⟨rfl, rfl⟩
  show (lib.eigh E A₀).2 * _ = _
  rw [dif_pos h]
  rfl

/-! ## The masks have a position of the right kind -/

private theorem mask_position (hw : sc.WellFormed) (hE : 0 < sc.E) (hgap : NoSmallEigenvalue sc.L1 (1 / 1000)) {lam : ℝ}
    (hl : 1 / 1000 < lam) (component : String)
    (hk : (component = "curl" ∧ IsEigenvalue sc.L1u lam) ∨ (component = "gradient" ∧ IsEigenvalue sc.L1l lam)) :
    ∃ al, sc.getComponentCoefficients lib component = .ok al ∧
      ∃ k : Fin sc.E, (lib.eigh sc.E sc.L1).1 k = lam ∧ al[(k : ℕ)]?.getD 0 = 1 := by
  obtain ⟨eh, ec, eg, hp⟩ := EigParts.exists lib sc (1 / 1000) hE
  obtain ⟨c0, -⟩ := C27_counts hw _ machineEps_le hgap eh ec eg hp
  obtain ⟨al, h1, h2, h3⟩ := coeffs_sum hw hp component (by tauto)
  refine ⟨al, h1, ?_⟩
  obtain ⟨hgl, hgu⟩ := lower_gap hw hgap
  have hsnap := snap_eq lib (symmPSD_L1 sc) machineEps_le hgap
  -- a slot of the component with this eigenvalue
  obtain ⟨s, hs, hv, hm⟩ : ∃ s < sc.E, (allVals eh ec eg)[s]?.getD 0 = lam ∧
      maskFn component eh.num ec.num s = 1 := by
    rcases hk with ⟨rfl, v, hv, hev⟩ | ⟨rfl, v, hv, hev⟩
    · obtain ⟨i, hi⟩ := (lib.isEig (symmPSD_L1u sc)).mem_of_eigen hv hev
      have hc : getCurlEigenpair lib (.ndarray sc.L1u) (1 / 1000) = .ok ec := hp.curl
      rw [getCurlEigenpair, getEigendecomposition_dense lib hE, snap_eq lib (symmPSD_L1u sc) machineEps_le hgu] at hc
      have hc' := Except.ok.inj hc
      have hmem : lam ∈ List.ofFn ec.vals := by
        rw [← Multiset.mem_coe, ← Fin.univ_val_map, ← hc', sel_vals, Multiset.mem_filter]
        exact ⟨Multiset.mem_map.2 ⟨i, Finset.mem_univ_val i, hi⟩, hl.le⟩
      obtain ⟨j, hj⟩ := List.mem_ofFn.1 hmem
      refine ⟨eh.num + j, by omega, ?_, ?_⟩
      · rw [allVals, List.getElem?_append_left (by simp), List.getElem?_append_right (by simp)]
        simp [hj]
      · simp [maskFn]
    · obtain ⟨i, hi⟩ := (lib.isEig (symmPSD_L1l sc)).mem_of_eigen hv hev
      have hc : getGradientEigenpair lib (.ndarray sc.L1l) (1 / 1000) = .ok eg := hp.grad
      rw [getGradientEigenpair, getEigendecomposition_dense lib hE, snap_eq lib (symmPSD_L1l sc) machineEps_le hgl] at hc
      have hc' := Except.ok.inj hc
      have hmem : lam ∈ List.ofFn eg.vals := by
        rw [← Multiset.mem_coe, ← Fin.univ_val_map, ← hc', sel_vals, Multiset.mem_filter]
        exact ⟨Multiset.mem_map.2 ⟨i, Finset.mem_univ_val i, hi⟩, hl⟩
      obtain ⟨j, hj⟩ := List.mem_ofFn.1 hmem
      refine ⟨eh.num + ec.num + j, by omega, ?_, ?_⟩
      · rw [allVals, List.getElem?_append_right (by simp)]
        simp [hj]
      · simp [maskFn]
  have h4 := h3 fun x y => if x = lam ∧ y = 1 then 1 else 0
  have h5 : (1 : ℝ) ≤ ((List.range sc.E).map fun s => if (allVals eh ec eg)[s]?.getD 0 = lam ∧
      maskFn component eh.num ec.num s = 1 then (1 : ℝ) else 0).sum := by
    refine List.single_le_sum (fun x hx => ?_) 1 (List.mem_map.2 ⟨s, List.mem_range.2 hs, by rw [if_pos ⟨hv, hm⟩]⟩)
    obtain ⟨t, -, rfl⟩ := List.mem_map.1 hx
    split_ifs <;> norm_num
  rw [← h4] at h5
  by_contra hne
  push Not at hne
  have h6 : ((List.finRange sc.E).map fun i : Fin sc.E =>
      if (if |(lib.eigh sc.E sc.L1).1 i| < machineEps then 0 else (lib.eigh sc.E sc.L1).1 i) = lam ∧
        al[(i : ℕ)]?.getD 0 = 1 then (1 : ℝ) else 0).sum = 0 := by
    apply List.sum_eq_zero
    intro x hx
    obtain ⟨i, -, rfl⟩ := List.mem_map.1 hx
    rw [if_neg]
    rintro ⟨a, b⟩
    have := congrFun hsnap i
    rw [this] at a
    exact hne i a b
  rw [h6] at h5
  norm_num at h5

/-- the masks depend on the eigenvalues and on how the sort breaks ties, not on the eigenvectors -/
private theorem coeffs_same (hw : sc.WellFormed) (hE : 0 < sc.E) (hgap : NoSmallEigenvalue sc.L1 (1 / 1000))
    {lib lib' : NumLib} (hs : lib'.argsort = lib.argsort) {component : String}
    (hc : component = "harmonic" ∨ component = "curl" ∨ component = "gradient") :
    sc.getComponentCoefficients lib' component = sc.getComponentCoefficients lib component := by
  obtain ⟨eh, ec, eg, hp⟩ := EigParts.exists lib sc (1 / 1000) hE
  obtain ⟨eh', h1, s1, -⟩ := C129_eigenpairs lib lib' sc _ _ eh hp.harm
  obtain ⟨ec', h2, s2, -⟩ := C129_eigenpairs lib lib' sc _ _ ec hp.curl
  obtain ⟨eg', h3, s3, -⟩ := C129_eigenpairs lib lib' sc _ _ eg hp.grad
  have hp' : EigParts lib' sc (1 / 1000) eh' ec' eg' := ⟨h1, h2, h3⟩
  obtain ⟨c0, -⟩ := C27_counts hw _ machineEps_le hgap eh ec eg hp
  obtain ⟨c0', -⟩ := C27_counts hw _ machineEps_le hgap eh' ec' eg' hp'
  have n1 : eh.num = eh'.num := by simpa using congrArg List.length s1
  have n2 : ec.num = ec'.num := by simpa using congrArg List.length s2
  rw [coeffs_of_length (by simp only [allVals, List.length_append, List.length_ofFn]; omega) hp' component hc,
    coeffs_of_length (by simp only [allVals, List.length_append, List.length_ofFn]; omega) hp component hc, hs]
  have ha : allVals eh' ec' eg' = allVals eh ec eg := by rw [allVals, allVals, ← s1, ← s2, ← s3]
  rw [ha, ← n1, ← n2]

private theorem ideal_of_mask (hE : 0 < sc.E) {mask : List ℝ} (hm : mask.length = sc.E) :
    Cheb.getIdealFrequency lib sc mask = .ok ((lib.eigh sc.E sc.L1).2 *
      diagonal (fun i : Fin sc.E => mask[(i : ℕ)]?.getD 0) * (lib.eigh sc.E sc.L1).2.transpose) := by
  unfold Cheb.getIdealFrequency
  have hP : sc.getPMatrix "L1" = .ok sc.L1 := by simp [SC.getPMatrix]
  simp only [hP, bind, Except.bind, getEigendecomposition_dense lib hE]
  rw [if_neg (by omega)]
  rfl

/-- a correct library can return any eigenvector at any position of its eigenvalue -/
private theorem exists_rotated (lib : NumLib) {v : Fin sc.E → ℝ} (hv : v ⬝ᵥ v = 1) {lam : ℝ}
    (he : sc.L1.mulVec v = lam • v) {k : Fin sc.E} (hk : (lib.eigh sc.E sc.L1).1 k = lam) :
    ∃ lib' : NumLib, lib'.argsort = lib.argsort ∧ ∀ m : Fin sc.E → ℝ,
      ((lib'.eigh sc.E sc.L1).2 * diagonal m * (lib'.eigh sc.E sc.L1).2.transpose).mulVec v = m k • v := by
  have hI := lib.isEig (symmPSD_L1 sc)
  set U := (lib.eigh sc.E sc.L1).2 with hU
  set w := (lib.eigh sc.E sc.L1).1 with hw
  let e : Fin sc.E → ℝ := Pi.single k 1
  let u : Fin sc.E → ℝ := U.transpose.mulVec v
  have hUu : U.mulVec u = v := by
    show U.mulVec (U.transpose.mulVec v) = v
    rw [mulVec_mulVec, hI.orth', one_mulVec]
  have he1 : e ⬝ᵥ e = 1 := by simp [e]
  have hu1 : u ⬝ᵥ u = 1 := by
    have : u ⬝ᵥ u = v ⬝ᵥ U.mulVec u := by
      conv_lhs => rw [dotProduct_comm]
      show u ⬝ᵥ U.transpose.mulVec v = _
      rw [dotProduct_mulVec, ← mulVec_transpose, transpose_transpose, dotProduct_comm]
    rw [this, hUu, hv]
  have hsupp : ∀ i, (e - u) i ≠ 0 → w i = lam := by
    intro i hi
    by_cases hik : i = k
    · rw [hik]; exact hk
    · have hui : u i ≠ 0 := by
        intro h0
        apply hi
        rw [Pi.sub_apply, h0, sub_zero]
        exact Pi.single_eq_of_ne hik 1
      have h1 : (diagonal w).mulVec u = lam • u := by
        have h2 : U.mulVec ((diagonal w).mulVec u) = U.mulVec (lam • u) := by
          rw [mulVec_mulVec, ← hI.eig, ← mulVec_mulVec, hUu, he, mulVec_smul, hUu]
        have inv : ∀ x : Fin sc.E → ℝ, U.transpose.mulVec (U.mulVec x) = x := fun x => by
          rw [mulVec_mulVec, hI.orth, one_mulVec]
        have h3 := congrArg (U.transpose.mulVec) h2
        rwa [inv, inv] at h3
      have h2 := congrFun h1 i
      rw [mulVec_diagonal, Pi.smul_apply, smul_eq_mul] at h2
      exact mul_right_cancel₀ hui h2
  have ho := reflect_orth e u
  refine ⟨lib.rotate sc.L1 (reflect e u) ho (reflect_comm hsupp), rfl, fun m => ?_⟩
  rw [rotate_eigh, ← hU]
  have hHe : (reflect e u).mulVec e = u := reflect_apply he1 hu1
  have hHu : (reflect e u).transpose.mulVec u = e := by
    have h3 := congrArg ((reflect e u).transpose.mulVec) hHe
    rw [mulVec_mulVec, ho, one_mulVec] at h3
    exact h3.symm
  have h1 : (U * reflect e u).transpose.mulVec v = e := by
    rw [transpose_mul, ← mulVec_mulVec]
    exact hHu
  have h2 : (diagonal m).mulVec e = m k • e := by
    funext i
    rw [mulVec_diagonal, Pi.smul_apply, smul_eq_mul]
    by_cases hik : i = k
    · rw [hik]
    · rw [show e i = 0 from Pi.single_eq_of_ne hik 1, mul_zero, mul_zero]
  rw [← mulVec_mulVec, h1, ← mulVec_mulVec, h2, mulVec_smul, ← mulVec_mulVec, hHe, hUu]

/-! ## C176 -/

/-- C176, what holds of it: the harmonic ideal filter is the same for every correct library, and if no non-zero
frequency belongs to both a gradient and a curl flow, so are the other two. -/
theorem C176_ideal_partial (lib lib' : NumLib) (hw : sc.WellFormed) (hE : 0 < sc.E)
    (hgap : NoSmallEigenvalue sc.L1 (1 / 1000)) {Hh Hc Hg Hh' Hc' Hg' : Matrix (Fin sc.E) (Fin sc.E) ℝ}
    (h : IdealFilters lib sc Hh Hc Hg) (h' : IdealFilters lib' sc Hh' Hc' Hg') :
    Hh = Hh' ∧ (NoSharedEigenvalue sc → Hc = Hc' ∧ Hg = Hg') := by
  have ext : ∀ A B : Matrix (Fin sc.E) (Fin sc.E) ℝ, (∀ f, A.mulVec f = B.mulVec f) → A = B := by
    intro A B hAB
    exact Matrix.toLin'.injective (LinearMap.ext fun f => by simpa using hAB f)
  have harm : ∀ (lib : NumLib) {Hh Hc Hg : Matrix (Fin sc.E) (Fin sc.E) ℝ}, IdealFilters lib sc Hh Hc Hg →
      ∀ f h, sc.getComponentFlow lib f "harmonic" false = .ok h → Hh.mulVec f = h := by
    intro lib Hh Hc Hg hI f h hh
    obtain ⟨H1, H2, H3, hI', -, -, -, -, -, hf⟩ := C65_harmonic lib hw hE hgap
    obtain ⟨m, a, b⟩ := hI.harm
    obtain ⟨m', a', b'⟩ := hI'.harm
    rw [a] at a'
    obtain rfl := Except.ok.inj a'
    rw [b] at b'
    obtain rfl := Except.ok.inj b'
    exact hf f h hh
  refine ⟨ext _ _ fun f => ?_, fun hns => ⟨ext _ _ fun f => ?_, ext _ _ fun f => ?_⟩⟩
  · obtain ⟨g, c, y, hp⟩ := HodgeParts.exists lib sc f
    rw [harm lib h f y hp.harm, harm lib' h' f y (by rw [C129_flows lib' lib]; exact hp.harm)]
  · have a := (C65_gradient_curl lib hw hE hgap hns Hh Hc Hg h f).1
    have b := (C65_gradient_curl lib' hw hE hgap hns Hh' Hc' Hg' h' f).1
    rw [C129_flows lib lib', b] at a
    exact (Except.ok.inj a).symm
  · have a := (C65_gradient_curl lib hw hE hgap hns Hh Hc Hg h f).2
    have b := (C65_gradient_curl lib' hw hE hgap hns Hh' Hc' Hg' h' f).2
    rw [C129_flows lib lib', b] at a
    exact (Except.ok.inj a).symm

/-- the hypotheses hold for a complete graph on four nodes with one filled triangle -/
example (lib lib' : NumLib) : ∃ Hh Hc Hg Hh' Hc' Hg', IdealFilters lib k4Tri Hh Hc Hg ∧
    IdealFilters lib' k4Tri Hh' Hc' Hg' ∧ Hh = Hh' ∧ Hc = Hc' ∧ Hg = Hg' := by
  obtain ⟨Hh, Hc, Hg, h, -⟩ := C65_harmonic lib k4Tri_wellFormed (by decide) k4Tri_gap
  obtain ⟨Hh', Hc', Hg', h', -⟩ := C65_harmonic lib' k4Tri_wellFormed (by decide) k4Tri_gap
  obtain ⟨a, b⟩ := C176_ideal_partial lib lib' k4Tri_wellFormed (by decide) k4Tri_gap h h'
  exact ⟨Hh, Hc, Hg, Hh', Hc', Hg', h, h', a, b k4Tri_noShared⟩

/-- C176: whenever a non-zero frequency belongs to both a gradient and a curl flow, the ideal filters depend on the
eigensolver: there is a gradient flow that the ideal gradient filter keeps with one correct library, and removes with
another, whose ideal curl filter keeps it. -/
theorem C176_shared (hw : sc.WellFormed) (hE : 0 < sc.E) (hgap : NoSmallEigenvalue sc.L1 (1 / 1000)) {lam : ℝ}
    (hne : lam ≠ 0) (h1 : IsEigenvalue sc.L1l lam) (h2 : IsEigenvalue sc.L1u lam) :
    ∃ v : Fin sc.E → ℝ, v ≠ 0 ∧ (∀ lib : NumLib, sc.getComponentFlow lib v "gradient" false = .ok v) ∧
      (∃ (lib : NumLib) (Hh Hc Hg : Matrix (Fin sc.E) (Fin sc.E) ℝ), IdealFilters lib sc Hh Hc Hg ∧
        Hg.mulVec v = v ∧ Hc.mulVec v = 0) ∧
      (∃ (lib : NumLib) (Hh Hc Hg : Matrix (Fin sc.E) (Fin sc.E) ℝ), IdealFilters lib sc Hh Hc Hg ∧
        Hg.mulVec v = 0 ∧ Hc.mulVec v = v) := by
  obtain ⟨lib⟩ := NumLib.exists
  obtain ⟨a1, a2⟩ := C12_lower_upper_annihilate sc hw
  obtain ⟨v₀, hv₀, hvl₀⟩ := id h1
  -- a unit eigenvector
  obtain ⟨v, hv1, hvl⟩ : ∃ v : Fin sc.E → ℝ, v ⬝ᵥ v = 1 ∧ sc.L1l.mulVec v = lam • v := by
    have hpos : 0 < v₀ ⬝ᵥ v₀ := lt_of_le_of_ne (dot_self_nonneg v₀) fun h0 => hv₀ (dotProduct_self_eq_zero.1 h0.symm)
    refine ⟨(1 / √(v₀ ⬝ᵥ v₀)) • v₀, ?_, ?_⟩
    · rw [smul_dotProduct, dotProduct_smul, smul_eq_mul, smul_eq_mul]
      have := Real.mul_self_sqrt hpos.le
      have hs := (Real.sqrt_pos.2 hpos).ne'
      field_simp
      linarith
    · rw [mulVec_smul, hvl₀, smul_comm]
  have hv0 : v ≠ 0 := fun h0 => by rw [h0] at hv1; simp at hv1
  have hvu : sc.L1u.mulVec v = 0 := by
    have : sc.L1u.mulVec (sc.L1l.mulVec v) = 0 := by rw [mulVec_mulVec, a2, zero_mulVec]
    rw [hvl, mulVec_smul] at this
    exact (smul_eq_zero.1 this).resolve_left hne
  have hv : sc.L1.mulVec v = lam • v := by rw [SC.L1, add_mulVec, hvl, hvu, add_zero]
  have hlam : 1 / 1000 < lam := by
    have hnn : 0 ≤ lam := by
      obtain ⟨i, hi⟩ := (lib.isEig (symmPSD_L1 sc)).mem_of_eigen hv0 hv
      rw [← hi]; exact (lib.isEig (symmPSD_L1 sc)).nonneg (symmPSD_L1 sc) i
    by_contra hle
    exact hgap lam v hv0 hv ⟨lt_of_le_of_ne hnn hne.symm, not_lt.1 hle⟩
  refine ⟨v, hv0, fun lib => ?_, ?_⟩
  · obtain ⟨g, c, h, hp⟩ := HodgeParts.exists lib sc v
    have : v = g := by
      refine gradient_eq_of_proj hp.grad (IsProj.self ⟨lam⁻¹ • sc.B1.mulVec v, ?_⟩)
      rw [mulVec_smul, mulVec_mulVec]
      rw [SC.L1l] at hvl
      rw [hvl, smul_smul, inv_mul_cancel₀ hne, one_smul]
    rw [hp.grad, ← this]
  have hU : ∀ lib : NumLib, getEigendecomposition lib (.ndarray sc.L1) = .ok ((lib.eigh sc.E sc.L1).2, (lib.eigh sc.E sc.L1).1) := by
    intro lib
    have := getEigendecomposition_dense lib hE sc.L1 machineEps
    rwa [snap_eq lib (symmPSD_L1 sc) machineEps_le hgap] at this
  obtain ⟨mh, mc, mg, m1, m2, m3, l1, l2, l3, hm, -⟩ := C49_masks hw hgap _ _ (hU lib)
  have build : ∀ k : Fin sc.E, (lib.eigh sc.E sc.L1).1 k = lam → ∃ (lib' : NumLib)
      (Hh Hc Hg : Matrix (Fin sc.E) (Fin sc.E) ℝ), IdealFilters lib' sc Hh Hc Hg ∧
        Hg.mulVec v = mg[(k : ℕ)]?.getD 0 • v ∧ Hc.mulVec v = mc[(k : ℕ)]?.getD 0 • v := by
    intro k hk
    obtain ⟨lib', hs, hI⟩ := exists_rotated lib hv1 hv hk
    exact ⟨lib', _, _, _,
      ⟨⟨mh, by rw [coeffs_same hw hE hgap hs (by simp)]; exact m1, ideal_of_mask hE l1⟩,
        ⟨mc, by rw [coeffs_same hw hE hgap hs (by simp)]; exact m2, ideal_of_mask hE l2⟩,
        ⟨mg, by rw [coeffs_same hw hE hgap hs (by simp)]; exact m3, ideal_of_mask hE l3⟩⟩, hI _, hI _⟩
  constructor
  · obtain ⟨al, q1, k, q2, q3⟩ := mask_position (lib := lib) hw hE hgap hlam "gradient" (.inr ⟨rfl, h1⟩)
    rw [m3] at q1
    obtain rfl := Except.ok.inj q1
    obtain ⟨lib', Hh, Hc, Hg, r1, r2, r3⟩ := build k q2
    refine ⟨lib', Hh, Hc, Hg, r1, by rw [r2, q3, one_smul], ?_⟩
    rcases hm k with ⟨-, -, b, -⟩ | ⟨-, -, b, -⟩ | ⟨-, b, -, -⟩
    · rw [b] at q3; simp at q3
    · rw [b] at q3; simp at q3
    · rw [r3, b]; simp
  · obtain ⟨al, q1, k, q2, q3⟩ := mask_position (lib := lib) hw hE hgap hlam "curl" (.inl ⟨rfl, h2⟩)
    rw [m2] at q1
    obtain rfl := Except.ok.inj q1
    obtain ⟨lib', Hh, Hc, Hg, r1, r2, r3⟩ := build k q2
    refine ⟨lib', Hh, Hc, Hg, r1, ?_, by rw [r3, q3, one_smul]⟩
    rcases hm k with ⟨-, b, -, -⟩ | ⟨-, -, b, -⟩ | ⟨-, b, -, -⟩
    · rw [b] at q3; simp at q3
    · rw [r2, b]; simp
    · rw [b] at q3; simp at q3

/-- C176 is false: on a filled triangle beside a hollow one (where 3 is a frequency of both kinds) two correct
libraries give different ideal gradient filters, and one of them removes a gradient flow. -/
theorem C176_counterexample : ∃ (v : Fin twoTri.E → ℝ) (lib lib' : NumLib)
    (Hh Hc Hg Hh' Hc' Hg' : Matrix (Fin twoTri.E) (Fin twoTri.E) ℝ), v ≠ 0 ∧
    twoTri.getComponentFlow lib v "gradient" false = .ok v ∧
    IdealFilters lib twoTri Hh Hc Hg ∧ IdealFilters lib' twoTri Hh' Hc' Hg' ∧ Hg ≠ Hg' ∧ Hg'.mulVec v = 0 := by
  obtain ⟨v, h0, hg, ⟨lib, Hh, Hc, Hg, a1, a2, -⟩, ⟨lib', Hh', Hc', Hg', b1, b2, -⟩⟩ :=
    C176_shared twoTri_wellFormed (by decide) twoTri_gap (lam := 3) (by norm_num) twoTri_lower_three twoTri_upper_three
  refine ⟨v, lib, lib', _, _, _, _, _, _, h0, hg lib, a1, b1, fun h => ?_, b2⟩
  rw [h, b2] at a2
  exact h0 a2.symm

end Pytspl
