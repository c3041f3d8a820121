import Verif.Lemmas.EigProj
import Verif.Props.PolyFilters
import Verif.Lemmas.ConcreteEig

/-!
# C53, C54: when the least-squares designs extract a component exactly
-/

namespace Pytspl

open Matrix Polynomial

variable {lib : NumLib} {sc : SC ℝ} {E : ℕ}

/-- What an exact extraction leaves behind: the stored estimate is `g`, and the last stored error is 0
unless `g` is zero (then the relative error is 0/0). -/
def RecordsExactly (d : HDict E) (g : Fin E → ℝ) : Prop :=
  d.get? "f_estimated" = some (.vec g) ∧
    ∃ errs, d.get? "extracted_component_error" = some (.errs errs) ∧
      (g ≠ 0 → errs.getLast? = some (some 0))

private theorem records_of_applied (st : FilterSt E) (hst : st.Valid) {P U : Matrix (Fin E) (Fin E) ℝ}
    {f g : Fin E → ℝ} {eigenvals alpha : List ℝ} {L : Int} {a : Applied E}
    (h : applyFilter lib f g P U eigenvals alpha L = .ok a) (hg : a.H.mulVec f = g) :
    RecordsExactly (setHistory st a.design).history g := by
  obtain ⟨hL, hlen⟩ := applyFilter_pos lib h
  rw [applyFilter_eq lib f g P _ eigenvals alpha L hL hlen] at h
  have ha := (Except.ok.inj h).symm
  obtain ⟨-, g2, -, g4, -⟩ := setHistory_get st hst a.design
  refine ⟨?_, a.errs, ?_, ?_⟩
  · rw [FilterSt.history, setHistory_cur, g2]
    have : a.fEst = a.H.mulVec f := by rw [ha]
    rw [Applied.design, this, hg]
  · rw [FilterSt.history, setHistory_cur, g4]; rfl
  · intro hne
    have e : a.errs.getLast? = some (calculateErrorNRMSE (a.H.mulVec f) g) := by
      rw [ha]
      simp only [List.getLast?_map]
      rw [show L.toNat = (L.toNat - 1) + 1 by omega, List.range_succ]
      simp
    rw [e, hg]
    obtain ⟨e, e', h1, -, -, -, h2, -⟩ := C47_nrmse g hne g g 1 one_ne_zero
    rw [h1, h2.2 rfl]

/-! ## C53 -/

theorem npUnique_zero {l : List ℝ} (h0 : (0 : ℝ) ∈ l) (hn : ∀ x ∈ l, 0 ≤ x) (i : ℕ)
    (hi : i < (npUnique l).length) : (npUnique l)[i] = 0 ↔ i = 0 := by
  have hs : (npUnique l).Pairwise (· < ·) := Finset.sortedLT_sort _ |>.pairwise
  have hmem : ∀ x, x ∈ npUnique l ↔ x ∈ l := by intro x; simp [npUnique]
  obtain ⟨j, hj, hj0⟩ := List.getElem_of_mem ((hmem 0).2 h0)
  have hj' : j = 0 := by
    by_contra hne
    have h1 := List.pairwise_iff_getElem.1 hs 0 j (by omega) hj (by omega)
    have h2 := hn _ ((hmem _).1 (List.getElem_mem (show 0 < (npUnique l).length by omega)))
    rw [hj0] at h1
    linarith
  subst hj'
  constructor
  · intro h
    by_contra hne
    have h1 := List.pairwise_iff_getElem.1 hs 0 i hj hi (by omega)
    rw [hj0, h] at h1
    exact lt_irrefl _ h1
  · rintro rfl; exact hj0

theorem snap_twice {P : Matrix (Fin E) (Fin E) ℝ} (hP : SymmPSD P) {tol : ℝ}
    (ht : machineEps ≤ tol) (hgap : ∀ lam, IsEigenvalue P lam → ¬ (0 < lam ∧ lam < tol))
    {U : Matrix (Fin E) (Fin E) ℝ} {w : Fin E → ℝ}
    (hU : getEigendecomposition lib (.ndarray P) = .ok (U, w)) :
    (List.ofFn w).map (fun x => if |x| < tol then 0 else x) = List.ofFn (lib.eigh E P).1 := by
  obtain ⟨-, -, rfl⟩ := eig_ok hU
  rw [List.map_ofFn]
  congr 1
  funext i
  have h := lib.isEig hP
  have h0 := h.nonneg hP i
  have hg := hgap _ ⟨_, h.col_ne_zero i, h.col_eig i⟩
  have : (lib.eigh E P).1 i = 0 ∨ tol ≤ (lib.eigh E P).1 i := by
    rcases eq_or_lt_of_le h0 with h1 | h1
    · exact .inl h1.symm
    · right; by_contra hlt; exact hg ⟨h1, by linarith⟩
  have he := machineEps_pos
  simp only [Function.comp]
  rcases this with h1 | h1
  · rw [h1]; simp
  · rw [if_neg (show ¬ |(lib.eigh E P).1 i| < machineEps by rw [abs_of_nonneg h0]; linarith),
      if_neg (by rw [abs_of_nonneg h0]; linarith)]

theorem card_unique {P : Matrix (Fin E) (Fin E) ℝ} (hP : SymmPSD P) :
    (npUnique (List.ofFn (lib.eigh E P).1)).length = P.charpoly.roots.toFinset.card := by
  rw [npUnique, Finset.length_sort, (lib.isEig hP).roots_eq]
  congr 1
  ext x
  simp

private theorem image_card_le (l : List ℝ) : (Finset.univ.image fun i : Fin l.length => l[i]).card ≤
    l.length := by
  refine Finset.card_image_le.trans ?_
  simp

/-- the fitted filter of a type-two design, when the smallest distinct eigenvalue is treated as zero -/
private theorem typeTwo_poly {P U : Matrix (Fin E) (Fin E) ℝ} (hP : SymmPSD P) (f t : Fin E → ℝ)
    {L : Int} (hL : (P.charpoly.roots.toFinset.card : Int) ≤ L) (hE : 0 < E) (φ : ℝ → ℝ)
    (hφ : ∀ (i : ℕ) (hi : i < (npUnique (List.ofFn (lib.eigh E P).1)).length),
      φ ((npUnique (List.ofFn (lib.eigh E P).1))[i]) = if i = 0 then 0 else 1) :
    ∃ a, applyFilter lib f t P U (npUnique (List.ofFn (lib.eigh E P).1))
        ([0] ++ List.replicate ((npUnique (List.ofFn (lib.eigh E P).1)).length - 1) 1) L = .ok a ∧
      a.H * (lib.eigh E P).2 = (lib.eigh E P).2 * diagonal fun i => φ ((lib.eigh E P).1 i) := by
  set ev := npUnique (List.ofFn (lib.eigh E P).1) with hev
  have hlen0 : 0 < ev.length := by
    have : (lib.eigh E P).1 ⟨0, hE⟩ ∈ ev := by simp [hev, npUnique]
    exact List.length_pos_of_mem this
  have hcard : (ev.length : Int) ≤ L := by rw [hev, card_unique hP]; exact hL
  have hlen : ([(0 : ℝ)] ++ List.replicate (ev.length - 1) 1).length = ev.length := by simp; omega
  refine ⟨_, applyFilter_eq lib f t P _ _ _ L (by omega) hlen, ?_⟩
  rw [(lib.isEig hP).aeval_mul]
  congr 2
  funext k
  have hk : (lib.eigh E P).1 k ∈ ev := by simp [hev, npUnique]
  obtain ⟨i, hi, he⟩ := List.getElem_of_mem hk
  have := polyAt_exact lib (fun i : Fin ev.length => ev[i])
    (fun i => ([(0 : ℝ)] ++ List.replicate (ev.length - 1) 1)[(i : ℕ)]?.getD 0) φ ?_
    (L := L.toNat) (by omega) ((image_card_le ev).trans (by omega)) ⟨i, hi⟩
  · simp only [Fin.getElem_fin, he] at this
    exact this
  · intro j
    rw [Fin.getElem_fin, hφ j j.isLt]
    rcases j with ⟨j, hj⟩
    cases j with
    | zero => simp
    | succ j =>
      simp only [List.cons_append, List.nil_append, List.getElem?_cons_succ, Nat.add_eq_zero_iff,
        one_ne_zero, and_false, if_false]
      rw [List.getElem?_replicate, if_pos (by omega)]
      rfl

private theorem typeTwo_proj {P U : Matrix (Fin E) (Fin E) ℝ} (hP : SymmPSD P) (h0 : IsEigenvalue P 0)
    (f t : Fin E → ℝ) {L : Int} (hL : (P.charpoly.roots.toFinset.card : Int) ≤ L) :
    ∃ a, applyFilter lib f t P U (npUnique (List.ofFn (lib.eigh E P).1))
        ([0] ++ List.replicate ((npUnique (List.ofFn (lib.eigh E P).1)).length - 1) 1) L = .ok a ∧
      a.H * (lib.eigh E P).2 =
        (lib.eigh E P).2 * diagonal fun i => if (lib.eigh E P).1 i = 0 then 0 else 1 := by
  have h := lib.isEig hP
  obtain ⟨v, hv, hv0⟩ := h0
  obtain ⟨i0, hi0⟩ := h.mem_of_eigen hv hv0
  refine typeTwo_poly hP f t hL i0.pos (fun x => if x = 0 then 0 else 1) ?_
  intro i hi
  have := npUnique_zero (l := List.ofFn (lib.eigh E P).1) (by rw [List.mem_ofFn]; exact ⟨i0, hi0⟩)
    (by intro x hx; rw [List.mem_ofFn] at hx; obtain ⟨j, rfl⟩ := hx; exact h.nonneg hP j) i hi
  simp only [this]

/-- C53, gradient: if the lower Laplacian has the eigenvalue 0, none strictly between 0 and the
tolerance, and the filter size is at least the number of distinct eigenvalues, then the type-two design
succeeds and its estimate is exactly the gradient component. -/
theorem C53_gradient (st : FilterSt sc.E) (f g : Fin sc.E → ℝ)
    (hg : sc.getComponentFlow lib f "gradient" false = .ok g) (tol : ℝ) (ht : machineEps ≤ tol)
    (h0 : IsEigenvalue sc.L1l 0) (hgap : ∀ lam, IsEigenvalue sc.L1l lam → ¬ (0 < lam ∧ lam < tol))
    (L : Int) (hL : (sc.L1l.charpoly.roots.toFinset.card : Int) ≤ L) :
    ∃ st', LSFilter.typeTwo lib sc st f "gradient" L tol = (.ok (), st') ∧
      RecordsExactly st'.history g := by
  have hP := symmPSD_L1l sc
  have hE : 0 < sc.E := by
    obtain ⟨v, hv, -⟩ := h0
    by_contra h
    apply hv; funext i; exact absurd i.isLt (by omega)
  obtain ⟨a, ha, hH⟩ := typeTwo_proj (lib := lib) (U := (lib.eigh _ sc.L1l).2) hP h0 f g hL
  have hd : LSFilter.typeTwoDesign lib sc f "gradient" L tol = .ok a := by
    unfold LSFilter.typeTwoDesign
    have hU := getEigendecomposition_dense lib hE sc.L1l machineEps
    have hs := snap_twice hP ht hgap hU
    simp only [if_true, bind, Except.bind, hU, hs, SC.getTrueSignal, hg]
    exact ha
  refine ⟨setHistory (resetHistory st) a.design, by rw [LSFilter.typeTwo, hd]; rfl, ?_⟩
  exact records_of_applied _ (resetHistory_valid st) ha (gradient_of_eig (lib.isEig hP) hH hg)

/-- C53, curl: the same for the upper Laplacian. -/
theorem C53_curl (st : FilterSt sc.E) (f c : Fin sc.E → ℝ)
    (hc : sc.getComponentFlow lib f "curl" false = .ok c) (tol : ℝ) (ht : machineEps ≤ tol)
    (h0 : IsEigenvalue sc.L1u 0) (hgap : ∀ lam, IsEigenvalue sc.L1u lam → ¬ (0 < lam ∧ lam < tol))
    (L : Int) (hL : (sc.L1u.charpoly.roots.toFinset.card : Int) ≤ L) :
    ∃ st', LSFilter.typeTwo lib sc st f "curl" L tol = (.ok (), st') ∧
      RecordsExactly st'.history c := by
  have hP := symmPSD_L1u sc
  have hE : 0 < sc.E := by
    obtain ⟨v, hv, -⟩ := h0
    by_contra h
    apply hv; funext i; exact absurd i.isLt (by omega)
  obtain ⟨a, ha, hH⟩ := typeTwo_proj (lib := lib) (U := (lib.eigh _ sc.L1u).2) hP h0 f c hL
  have hd : LSFilter.typeTwoDesign lib sc f "curl" L tol = .ok a := by
    unfold LSFilter.typeTwoDesign
    have hU := getEigendecomposition_dense lib hE sc.L1u machineEps
    have hs := snap_twice hP ht hgap hU
    simp only [if_true, if_neg (show ¬ ("curl" = "gradient") by decide), bind, Except.bind, hU, hs,
      SC.getTrueSignal, hc]
    exact ha
  refine ⟨setHistory (resetHistory st) a.design, by rw [LSFilter.typeTwo, hd]; rfl, ?_⟩
  exact records_of_applied _ (resetHistory_valid st) ha (curl_of_eig (lib.isEig hP) hH hc)

/-- C53, why the zero eigenvalue is needed: if the lower Laplacian has none (as on every tree), some
non-zero flow is its own gradient component but the design returns the zero flow for it. -/
theorem C53_without_zero_eigenvalue (lib : NumLib) (sc : SC ℝ) (hE : 0 < sc.E)
    (h0 : ¬ IsEigenvalue sc.L1l 0) (tol : ℝ) (ht : machineEps ≤ tol)
    (hgap : ∀ lam, IsEigenvalue sc.L1l lam → ¬ (0 < lam ∧ lam < tol))
    (L : Int) (hL : (sc.L1l.charpoly.roots.toFinset.card : Int) ≤ L) :
    ∃ f : Fin sc.E → ℝ, f ≠ 0 ∧ sc.getComponentFlow lib f "gradient" false = .ok f ∧
      ∀ st, ∃ st', LSFilter.typeTwo lib sc st f "gradient" L tol = (.ok (), st') ∧
        st'.history.get? "f_estimated" = some (.vec 0) := by
  have hP := symmPSD_L1l sc
  have h := lib.isEig hP
  have hmono := (lib.eigh_spec sc.E sc.L1l hP.1).1
  set lam := (lib.eigh sc.E sc.L1l).1 with hlam
  set U := (lib.eigh sc.E sc.L1l).2 with hUdef
  let i0 : Fin sc.E := ⟨0, hE⟩
  refine ⟨fun k => U k i0, h.col_ne_zero i0, ?_, ?_⟩
  · obtain ⟨g, c, hh, hp⟩ := HodgeParts.exists lib sc (fun k => U k i0)
    have hne : lam i0 ≠ 0 := by
      intro hz
      exact h0 ⟨_, h.col_ne_zero i0, by rw [h.col_eig i0, hz]⟩
    have : IsProj sc.B1.transpose (fun k => U k i0) (fun k => U k i0) := by
      refine IsProj.self ⟨(lam i0)⁻¹ • sc.B1.mulVec (fun k => U k i0), ?_⟩
      rw [mulVec_smul, mulVec_mulVec]
      have e := h.col_eig i0
      rw [SC.L1l] at e
      rw [e, smul_smul, inv_mul_cancel₀ hne, one_smul]
    rw [hp.grad, ← gradient_eq_of_proj hp.grad this]
  · intro st
    obtain ⟨g, c, hh, hp⟩ := HodgeParts.exists lib sc (fun k => U k i0)
    have hlist : ∀ (i : ℕ) (hi : i < (npUnique (List.ofFn lam)).length),
        (npUnique (List.ofFn lam))[i] = lam i0 ↔ i = 0 := by
      have hs : (npUnique (List.ofFn lam)).Pairwise (· < ·) := Finset.sortedLT_sort _ |>.pairwise
      have hmem : ∀ x, x ∈ npUnique (List.ofFn lam) ↔ ∃ j, lam j = x := by
        intro x; simp [npUnique]
      obtain ⟨j, hj, hj0⟩ := List.getElem_of_mem ((hmem (lam i0)).2 ⟨i0, rfl⟩)
      have hj' : j = 0 := by
        by_contra hne
        have h1 := List.pairwise_iff_getElem.1 hs 0 j (by omega) hj (by omega)
        obtain ⟨k, hk⟩ := (hmem _).1 (List.getElem_mem
          (show 0 < (npUnique (List.ofFn lam)).length by omega))
        have h2 : lam i0 ≤ lam k := hmono (Fin.mk_le_of_le_val (Nat.zero_le _))
        rw [hj0, ← hk] at h1
        linarith
      subst hj'
      intro i hi
      constructor
      · intro he
        by_contra hne
        have h1 := List.pairwise_iff_getElem.1 hs 0 i hj hi (by omega)
        rw [hj0, he] at h1
        exact lt_irrefl _ h1
      · rintro rfl; exact hj0
    obtain ⟨a, ha, hH⟩ := typeTwo_poly (lib := lib) (U := (lib.eigh _ sc.L1l).2) hP
      (fun k => U k i0) g hL hE (fun x => if x = lam i0 then 0 else 1)
      (fun i hi => by simp only [← hlam, hlist i hi])
    have hd : LSFilter.typeTwoDesign lib sc (fun k => U k i0) "gradient" L tol = .ok a := by
      unfold LSFilter.typeTwoDesign
      have hU := getEigendecomposition_dense lib hE sc.L1l machineEps
      have hs := snap_twice hP ht hgap hU
      simp only [if_true, bind, Except.bind, hU, hs, SC.getTrueSignal, hp.grad]
      exact ha
    refine ⟨setHistory (resetHistory st) a.design, by rw [LSFilter.typeTwo, hd]; rfl, ?_⟩
    obtain ⟨-, g2, -⟩ := setHistory_get _ (resetHistory_valid st) a.design
    rw [FilterSt.history, setHistory_cur, g2]
    have hz : a.fEst = 0 := by
      obtain ⟨hL', hlen⟩ := applyFilter_pos lib ha
      have ha' := ha
      rw [applyFilter_eq lib _ _ _ _ _ _ L hL' hlen] at ha'
      have e := (Except.ok.inj ha').symm
      have e1 : a.fEst = a.H.mulVec (fun k => U k i0) := by rw [e]
      rw [e1]
      funext k
      have e2 : a.H.mulVec (fun k => U k i0) k = (a.H * U) k i0 := rfl
      rw [e2, hH, mul_diagonal]
      simp [← hlam]
    rw [Applied.design, hz]

/-- the hypotheses of `C53_gradient` and `C53_curl` hold for a filled triangle beside a hollow one -/
example (lib : NumLib) (st : FilterSt twoTri.E) (f : Fin twoTri.E → ℝ) : ∃ g c st' st'' L,
    twoTri.getComponentFlow lib f "gradient" false = .ok g ∧
    twoTri.getComponentFlow lib f "curl" false = .ok c ∧
    LSFilter.typeTwo lib twoTri st f "gradient" L = (.ok (), st') ∧ RecordsExactly st'.history g ∧
    LSFilter.typeTwo lib twoTri st f "curl" L = (.ok (), st'') ∧ RecordsExactly st''.history c := by
  obtain ⟨g, c, h, hp⟩ := HodgeParts.exists lib twoTri f
  have ht : machineEps ≤ 1 / 10 ^ 6 := by unfold machineEps; norm_num
  obtain ⟨st', r1, r2⟩ := C53_gradient st f g hp.grad (1 / 10 ^ 6) ht twoTri_lower_zero
    (fun lam hl hh => by
      rcases twoTri_lower hl with rfl | rfl
      · linarith [hh.1]
      · linarith [hh.2])
    (max (twoTri.L1l.charpoly.roots.toFinset.card) (twoTri.L1u.charpoly.roots.toFinset.card))
    (le_max_left _ _)
  obtain ⟨st'', s1, s2⟩ := C53_curl st f c hp.curl (1 / 10 ^ 6) ht twoTri_upper_zero
    (fun lam hl hh => by
      rcases twoTri_upper hl with rfl | rfl
      · linarith [hh.1]
      · linarith [hh.2])
    (max (twoTri.L1l.charpoly.roots.toFinset.card) (twoTri.L1u.charpoly.roots.toFinset.card))
    (le_max_right _ _)
  exact ⟨g, c, st', st'', _, hp.grad, hp.curl, r1, r2, s1, s2⟩

/-- the failure of `C53_without_zero_eigenvalue` happens on the path with two edges at the default
tolerance, for every large enough filter size -/
theorem C53_fails_on_path (lib : NumLib) (L : Int)
    (hL : (path2.L1l.charpoly.roots.toFinset.card : Int) ≤ L) :
    ∃ f : Fin path2.E → ℝ, f ≠ 0 ∧ path2.getComponentFlow lib f "gradient" false = .ok f ∧
      ∀ st, ∃ st', LSFilter.typeTwo lib path2 st f "gradient" L = (.ok (), st') ∧
        st'.history.get? "f_estimated" = some (.vec 0) := by
  refine C53_without_zero_eigenvalue lib path2 (by decide) ?_ (1 / 10 ^ 6)
    (by unfold machineEps; norm_num) ?_ L hL
  · intro h
    rcases path2_lower h with h | h <;> norm_num at h
  · intro lam hl hh
    rcases path2_lower hl with rfl | rfl
    · linarith [hh.2]
    · linarith [hh.2]

/-! ## C54 -/

/-- no eigenvalue other than 0 is shared by the lower and the upper Laplacian -/
def NoSharedEigenvalue (sc : SC ℝ) : Prop :=
  ∀ lam, lam ≠ 0 → IsEigenvalue sc.L1l lam → ¬ IsEigenvalue sc.L1u lam

private theorem card_image_roots {P : Matrix (Fin E) (Fin E) ℝ} (hP : SymmPSD P) {l : List ℝ}
    (hl : l = List.ofFn (lib.eigh E P).1) :
    (Finset.univ.image fun i : Fin l.length => l[i]).card = P.charpoly.roots.toFinset.card := by
  subst hl
  rw [(lib.isEig hP).roots_eq]
  congr 1
  ext x
  simp only [Finset.mem_image, Finset.mem_univ, true_and, Fin.getElem_fin, List.getElem_ofFn,
    Multiset.mem_toFinset, Multiset.mem_map, Finset.mem_val]
  constructor
  · rintro ⟨i, hi⟩; exact ⟨_, hi⟩
  · rintro ⟨i, hi⟩; exact ⟨⟨i, by simp⟩, hi⟩

private theorem typeOne_poly {P U : Matrix (Fin E) (Fin E) ℝ} (hP : SymmPSD P) (f t : Fin E → ℝ)
    {L : Int} (hL : (P.charpoly.roots.toFinset.card : Int) ≤ L) (hE : 0 < E) (mask : List ℝ)
    (hm : mask.length = E) (φ : ℝ → ℝ)
    (hφ : ∀ i : Fin E, mask[(i : ℕ)]? = some (φ ((lib.eigh E P).1 i))) :
    ∃ a, applyFilter lib f t P U (List.ofFn (lib.eigh E P).1) mask L = .ok a ∧
      a.H * (lib.eigh E P).2 = (lib.eigh E P).2 * diagonal fun i => φ ((lib.eigh E P).1 i) := by
  have hL0 : 0 < L := by
    have : 0 < P.charpoly.roots.toFinset.card := by
      rw [Finset.card_pos]
      exact ⟨(lib.eigh E P).1 ⟨0, hE⟩, by rw [(lib.isEig hP).roots_eq]; simp⟩
    omega
  set ev := List.ofFn (lib.eigh E P).1 with hev
  refine ⟨_, applyFilter_eq lib f t P _ _ _ L hL0 (by simp [hev, hm]), ?_⟩
  rw [(lib.isEig hP).aeval_mul]
  congr 2
  funext k
  have hi : (k : ℕ) < ev.length := by simp [hev]
  have := polyAt_exact lib (fun i : Fin ev.length => ev[i])
    (fun i => mask[(i : ℕ)]?.getD 0) φ ?_
    (L := L.toNat) (by omega) ((card_image_roots hP hev).le.trans (by omega)) ⟨k, hi⟩
  · simpa [hev] using this
  · intro j
    have hj : (j : ℕ) < E := by simpa [hev] using j.isLt
    rw [hφ ⟨j, hj⟩]
    simp [hev]

private theorem typeOne_ok (st : FilterSt sc.E) {f t : Fin sc.E → ℝ} {component : String} {L : Int}
    {a : Applied sc.E} {mask : List ℝ} (hE : 0 < sc.E) (hgap : NoSmallEigenvalue sc.L1 (1 / 1000))
    (h1 : sc.getComponentFlow lib f component false = .ok t)
    (h2 : sc.getComponentCoefficients lib component = .ok mask)
    (ha : applyFilter lib f t sc.L1 (lib.eigh _ sc.L1).2 (List.ofFn (lib.eigh _ sc.L1).1) mask L = .ok a) :
    LSFilter.typeOne lib sc st f component L = (.ok (), setHistory (resetHistory st) a.design) := by
  have hd : LSFilter.typeOneDesign lib sc f component L = .ok a := by
    unfold LSFilter.typeOneDesign
    have hU := getEigendecomposition_dense lib hE sc.L1 machineEps
    rw [snap_eq lib (symmPSD_L1 sc) machineEps_le hgap] at hU
    simp only [bind, Except.bind, hU, SC.getTrueSignal, h1, h2]
    exact ha
  rw [LSFilter.typeOne, hd]; rfl

private theorem dense_snap (hE : 0 < sc.E) (hgap : NoSmallEigenvalue sc.L1 (1 / 1000)) :
    getEigendecomposition lib (.ndarray sc.L1) =
      .ok ((lib.eigh _ sc.L1).2, (lib.eigh _ sc.L1).1) := by
  have hU := getEigendecomposition_dense lib hE sc.L1 machineEps
  rwa [snap_eq lib (symmPSD_L1 sc) machineEps_le hgap] at hU

/-- C54, harmonic: with no Hodge eigenvalue in `(0, 1e-3]` and at least as many coefficients as there
are distinct Hodge eigenvalues, the type-one design returns exactly the harmonic component. -/
theorem C54_harmonic (hw : sc.WellFormed) (hE : 0 < sc.E) (hgap : NoSmallEigenvalue sc.L1 (1 / 1000))
    (st : FilterSt sc.E) (f h : Fin sc.E → ℝ) (hh : sc.getComponentFlow lib f "harmonic" false = .ok h)
    (L : Int) (hL : (sc.L1.charpoly.roots.toFinset.card : Int) ≤ L) :
    ∃ st', LSFilter.typeOne lib sc st f "harmonic" L = (.ok (), st') ∧
      RecordsExactly st'.history h := by
  have hP := symmPSD_L1 sc
  obtain ⟨mh, mc, mg, m1, -, -, l1, -, -, hm, -⟩ := C49_masks hw hgap _ _ (dense_snap (lib := lib) hE hgap)
  obtain ⟨a, ha, hH⟩ := typeOne_poly (lib := lib) (U := (lib.eigh _ sc.L1).2) hP f h hL hE mh l1
    (fun x => if x = 0 then 1 else 0) (by
      intro i
      rcases hm i with ⟨h1, -, -, h2⟩ | ⟨h1, -, -, h2, -⟩ | ⟨h1, -, -, h2, -⟩
      · rw [h1, if_pos h2]
      · rw [h1, if_neg h2.ne']
      · rw [h1, if_neg h2.ne'])
  exact ⟨_, typeOne_ok st hE hgap hh m1 ha,
    records_of_applied _ (resetHistory_valid st) ha (harmonic_of_eig hw (lib.isEig hP) hH hh)⟩

/-- the eigenbasis of the Hodge Laplacian is one of the lower Laplacian, if the parts share no
eigenvalue -/
theorem lower_eig (hw : sc.WellFormed) (hns : NoSharedEigenvalue sc)
    {U : Matrix (Fin sc.E) (Fin sc.E) ℝ} {w m : Fin sc.E → ℝ} (h : IsEig sc.L1 U w)
    (hm : ∀ i, (m i = 0 ∧ w i = 0) ∨ (m i = 0 ∧ w i ≠ 0 ∧ IsEigenvalue sc.L1u (w i)) ∨
      (m i = 1 ∧ w i ≠ 0 ∧ IsEigenvalue sc.L1l (w i))) :
    IsEig sc.L1l U (fun i => m i * w i) ∧ m = fun i => if m i * w i = 0 then 0 else 1 := by
  constructor
  · refine IsEig.of_cols h.orth fun i => ?_
    obtain ⟨a1, a2⟩ := C12_lower_upper_annihilate sc hw
    have he := h.col_eig i
    rcases hm i with ⟨h1, h2⟩ | ⟨h1, h2, h3⟩ | ⟨h1, h2, h3⟩
    · rw [h2, zero_smul] at he
      have hd := ((C12_hodge_kernel sc _).1 he).1
      unfold SC.getDivergence at hd
      rw [SC.L1l, ← mulVec_mulVec, hd, h1, mulVec_zero, zero_mul, zero_smul]
    · have : sc.L1l.mulVec (fun k => U k i) = 0 := by
        refine other_part_zero (A := sc.L1u) (B := sc.L1l) a1 (lam := w i) ?_ fun hb => hns _ h2 hb h3
        rw [add_comm]; exact he
      rw [this, h1, zero_mul, zero_smul]
    · have h4 : sc.L1u.mulVec (fun k => U k i) = 0 :=
        other_part_zero (A := sc.L1l) (B := sc.L1u) a2 he (hns _ h2 h3)
      rw [SC.L1, add_mulVec, h4, add_zero] at he
      rw [he, h1, one_mul]
  · funext i
    rcases hm i with ⟨h1, h2⟩ | ⟨h1, h2, h3⟩ | ⟨h1, h2, h3⟩
    · rw [h1]; simp
    · rw [h1]; simp
    · rw [h1]; simp [h2]

theorem upper_eig (hw : sc.WellFormed) (hns : NoSharedEigenvalue sc)
    {U : Matrix (Fin sc.E) (Fin sc.E) ℝ} {w m : Fin sc.E → ℝ} (h : IsEig sc.L1 U w)
    (hm : ∀ i, (m i = 0 ∧ w i = 0) ∨ (m i = 1 ∧ w i ≠ 0 ∧ IsEigenvalue sc.L1u (w i)) ∨
      (m i = 0 ∧ w i ≠ 0 ∧ IsEigenvalue sc.L1l (w i))) :
    IsEig sc.L1u U (fun i => m i * w i) ∧ m = fun i => if m i * w i = 0 then 0 else 1 := by
  constructor
  · refine IsEig.of_cols h.orth fun i => ?_
    obtain ⟨a1, a2⟩ := C12_lower_upper_annihilate sc hw
    have he := h.col_eig i
    rcases hm i with ⟨h1, h2⟩ | ⟨h1, h2, h3⟩ | ⟨h1, h2, h3⟩
    · rw [h2, zero_smul] at he
      have hd := ((C12_hodge_kernel sc _).1 he).2
      unfold SC.getCurl at hd
      rw [SC.L1u, ← mulVec_mulVec, hd, h1, mulVec_zero, zero_mul, zero_smul]
    · have h4 : sc.L1l.mulVec (fun k => U k i) = 0 := by
        refine other_part_zero (A := sc.L1u) (B := sc.L1l) a1 (lam := w i) ?_ fun hb => hns _ h2 hb h3
        rw [add_comm]; exact he
      rw [SC.L1, add_mulVec, h4, zero_add] at he
      rw [he, h1, one_mul]
    · have : sc.L1u.mulVec (fun k => U k i) = 0 :=
        other_part_zero (A := sc.L1l) (B := sc.L1u) a2 he (hns _ h2 h3)
      rw [this, h1, zero_mul, zero_smul]
  · funext i
    rcases hm i with ⟨h1, h2⟩ | ⟨h1, h2, h3⟩ | ⟨h1, h2, h3⟩
    · rw [h1]; simp
    · rw [h1]; simp [h2]
    · rw [h1]; simp

/-- C54, gradient and curl: if moreover the lower and the upper Laplacian share no non-zero eigenvalue,
the type-one design returns exactly the gradient and the curl component. -/
theorem C54_gradient_curl (hw : sc.WellFormed) (hE : 0 < sc.E)
    (hgap : NoSmallEigenvalue sc.L1 (1 / 1000)) (hns : NoSharedEigenvalue sc)
    (st : FilterSt sc.E) (f g c : Fin sc.E → ℝ)
    (hg : sc.getComponentFlow lib f "gradient" false = .ok g)
    (hc : sc.getComponentFlow lib f "curl" false = .ok c)
    (L : Int) (hL : (sc.L1.charpoly.roots.toFinset.card : Int) ≤ L) :
    (∃ st', LSFilter.typeOne lib sc st f "gradient" L = (.ok (), st') ∧
      RecordsExactly st'.history g) ∧
    (∃ st', LSFilter.typeOne lib sc st f "curl" L = (.ok (), st') ∧
      RecordsExactly st'.history c) := by
  classical
  have hP := symmPSD_L1 sc
  have hI := lib.isEig hP
  obtain ⟨mh, mc, mg, -, m2, m3, -, l2, l3, hm, -⟩ :=
    C49_masks hw hgap _ _ (dense_snap (lib := lib) hE hgap)
  constructor
  · let φ : ℝ → ℝ := fun x => if x ≠ 0 ∧ IsEigenvalue sc.L1l x then 1 else 0
    have hφ : ∀ i : Fin sc.E, mg[(i : ℕ)]? = some (φ ((lib.eigh _ sc.L1).1 i)) := by
      intro i
      rcases hm i with ⟨-, -, h1, h2⟩ | ⟨-, -, h1, h2, h3⟩ | ⟨-, -, h1, h2, h3⟩
      · rw [h1]; simp [φ, h2]
      · rw [h1]; simp only [φ]; rw [if_neg fun hb => hns _ h2.ne' hb.2 h3]
      · rw [h1]; simp only [φ]; rw [if_pos ⟨h2.ne', h3⟩]
    obtain ⟨a, ha, hH⟩ := typeOne_poly (lib := lib) (U := (lib.eigh _ sc.L1).2) hP f g hL hE mg l3 φ hφ
    obtain ⟨e1, e2⟩ := lower_eig (m := fun i => φ ((lib.eigh _ sc.L1).1 i)) hw hns hI (by
      intro i
      rcases hm i with ⟨-, -, h1, h2⟩ | ⟨-, -, h1, h2, h3⟩ | ⟨-, -, h1, h2, h3⟩ <;>
        rw [hφ i, Option.some.injEq] at h1
      · exact .inl ⟨h1, h2⟩
      · exact .inr (.inl ⟨h1, h2.ne', h3⟩)
      · exact .inr (.inr ⟨h1, h2.ne', h3⟩))
    rw [e2] at hH
    exact ⟨_, typeOne_ok st hE hgap hg m3 ha,
      records_of_applied _ (resetHistory_valid st) ha (gradient_of_eig e1 hH hg)⟩
  · let φ : ℝ → ℝ := fun x => if x ≠ 0 ∧ IsEigenvalue sc.L1u x then 1 else 0
    have hφ : ∀ i : Fin sc.E, mc[(i : ℕ)]? = some (φ ((lib.eigh _ sc.L1).1 i)) := by
      intro i
      rcases hm i with ⟨-, h1, -, h2⟩ | ⟨-, h1, -, h2, h3⟩ | ⟨-, h1, -, h2, h3⟩
      · rw [h1]; simp [φ, h2]
      · rw [h1]; simp only [φ]; rw [if_pos ⟨h2.ne', h3⟩]
      · rw [h1]; simp only [φ]; rw [if_neg fun hb => hns _ h2.ne' h3 hb.2]
    obtain ⟨a, ha, hH⟩ := typeOne_poly (lib := lib) (U := (lib.eigh _ sc.L1).2) hP f c hL hE mc l2 φ hφ
    obtain ⟨e1, e2⟩ := upper_eig (m := fun i => φ ((lib.eigh _ sc.L1).1 i)) hw hns hI (by
      intro i
      rcases hm i with ⟨-, h1, -, h2⟩ | ⟨-, h1, -, h2, h3⟩ | ⟨-, h1, -, h2, h3⟩ <;>
        rw [hφ i, Option.some.injEq] at h1
      · exact .inl ⟨h1, h2⟩
      · exact .inr (.inl ⟨h1, h2.ne', h3⟩)
      · exact .inr (.inr ⟨h1, h2.ne', h3⟩))
    rw [e2] at hH
    exact ⟨_, typeOne_ok st hE hgap hc m2 ha,
      records_of_applied _ (resetHistory_valid st) ha (curl_of_eig e1 hH hc)⟩

/-- C54, why the eigenvalues must be distinct: if the lower and the upper Laplacian share a non-zero
eigenvalue, then for every filter size there is a flow whose type-one gradient estimate is wrong (if the
call returns at all). -/
theorem C54_shared_never_exact (lib : NumLib) (hw : sc.WellFormed) (lam : ℝ) (hne : lam ≠ 0)
    (h1 : IsEigenvalue sc.L1l lam) (h2 : IsEigenvalue sc.L1u lam) (L : Int) :
    ∃ f g : Fin sc.E → ℝ, sc.getComponentFlow lib f "gradient" false = .ok g ∧
      ∀ st st', LSFilter.typeOne lib sc st f "gradient" L = (.ok (), st') →
        st'.history.get? "f_estimated" ≠ some (.vec g) := by
  obtain ⟨a1, a2⟩ := C12_lower_upper_annihilate sc hw
  obtain ⟨v, hv, hvl⟩ := h1
  obtain ⟨z, hz, hzl⟩ := h2
  -- `v` is a gradient flow, `z` a curl flow
  have hvu : sc.L1u.mulVec v = 0 := by
    have : sc.L1u.mulVec (sc.L1l.mulVec v) = 0 := by rw [mulVec_mulVec, a2, zero_mulVec]
    rw [hvl, mulVec_smul] at this
    exact (smul_eq_zero.1 this).resolve_left hne
  have hzz : sc.L1l.mulVec z = 0 := by
    have : sc.L1l.mulVec (sc.L1u.mulVec z) = 0 := by rw [mulVec_mulVec, a1, zero_mulVec]
    rw [hzl, mulVec_smul] at this
    exact (smul_eq_zero.1 this).resolve_left hne
  have hv1 : sc.L1.mulVec v = lam • v := by rw [SC.L1, add_mulVec, hvl, hvu, add_zero]
  have hz1 : sc.L1.mulVec z = lam • z := by rw [SC.L1, add_mulVec, hzl, hzz, zero_add]
  obtain ⟨gv, cv, hhv, hpv⟩ := HodgeParts.exists lib sc v
  obtain ⟨gz, cz, hhz, hpz⟩ := HodgeParts.exists lib sc z
  have egv : v = gv := by
    refine gradient_eq_of_proj hpv.grad (IsProj.self ⟨lam⁻¹ • sc.B1.mulVec v, ?_⟩)
    rw [mulVec_smul, mulVec_mulVec]
    rw [SC.L1l] at hvl
    rw [hvl, smul_smul, inv_mul_cancel₀ hne, one_smul]
  have egz : 0 = gz := by
    refine gradient_eq_of_proj hpz.grad (IsProj.zero ?_)
    have := mulVec_transpose_eq_zero (A := sc.B1.transpose) (x := z) (by
      rw [transpose_transpose]; exact hzz)
    exact this
  have hpoly : ∀ (x t : Fin sc.E → ℝ), sc.L1.mulVec x = lam • x →
      sc.getComponentFlow lib x "gradient" false = .ok t → ∀ st st',
      LSFilter.typeOne lib sc st x "gradient" L = (.ok (), st') →
      ∃ (w : Fin sc.E → ℝ) (al : List ℝ),
        getEigendecomposition lib (.ndarray sc.L1) = .ok ((lib.eigh _ sc.L1).2, w) ∧
        sc.getComponentCoefficients lib "gradient" = .ok al ∧
        st'.history.get? "f_estimated" = some (.vec ((polyAt lib
          (fun i : Fin (List.ofFn w).length => (List.ofFn w)[i]) (fun i => al[(i : ℕ)]?.getD 0)
          L.toNat (L.toNat - 1)).eval lam • x)) := by
    intro x t hx ht st st' h
    obtain ⟨a, ha, rfl⟩ := record_ok h
    obtain ⟨w, t', al, b1, b2, b3, b4⟩ := typeOne_inv ha
    refine ⟨w, al, b1, b3, ?_⟩
    obtain ⟨hL, hlen⟩ := applyFilter_pos lib b4
    rw [applyFilter_eq lib _ _ _ _ _ _ L hL hlen] at b4
    obtain ⟨-, g2, -⟩ := setHistory_get _ (resetHistory_valid st) a.design
    rw [FilterSt.history, setHistory_cur, g2, ← aeval_eig _ _ hx, ← Except.ok.inj b4]
    rfl
  by_contra hcon
  push Not at hcon
  obtain ⟨s1, s1', r1, e1⟩ := hcon v gv hpv.grad
  obtain ⟨s2, s2', r2, e2⟩ := hcon z gz hpz.grad
  obtain ⟨w, al, b1, b2, b3⟩ := hpoly v gv hv1 hpv.grad _ _ r1
  obtain ⟨w', al', b1', b2', b3'⟩ := hpoly z gz hz1 hpz.grad _ _ r2
  rw [b1] at b1'
  rw [b2] at b2'
  have hw' : w = w' := congrArg Prod.snd (Except.ok.inj b1')
  have ha' : al = al' := Except.ok.inj b2'
  subst hw' ha'
  rw [e1] at b3
  rw [e2] at b3'
  simp only [Option.some.injEq, HVal.vec.injEq] at b3 b3'
  rw [← egv] at b3
  rw [← egz] at b3'
  have hp0 := (smul_eq_zero.1 b3'.symm).resolve_right hz
  rw [hp0, zero_smul] at b3
  exact hv b3

private theorem gap_of {n : ℕ} {A : Matrix (Fin n) (Fin n) ℝ}
    (h : ∀ lam, IsEigenvalue A lam → lam = 0 ∨ 1 ≤ lam) : NoSmallEigenvalue A (1 / 1000) := by
  intro lam v hv he hl
  rcases h lam ⟨v, hv, he⟩ with h | h
  · linarith [hl.1]
  · linarith [hl.2]

/-- eigenvalues of the Hodge Laplacian are those of its parts -/
theorem hodge_eigenvalue (hw : sc.WellFormed) {lam : ℝ} (h : IsEigenvalue sc.L1 lam) :
    lam = 0 ∨ IsEigenvalue sc.L1l lam ∨ IsEigenvalue sc.L1u lam := by
  obtain ⟨a1, a2⟩ := C12_lower_upper_annihilate sc hw
  obtain ⟨v, hv, he⟩ := h
  by_cases hu : IsEigenvalue sc.L1u lam
  · exact .inr (.inr hu)
  by_cases hl : IsEigenvalue sc.L1l lam
  · exact .inr (.inl hl)
  left
  have h1 : sc.L1u.mulVec v = 0 := other_part_zero (A := sc.L1l) (B := sc.L1u) a2 he hu
  have h2 : sc.L1l.mulVec v = 0 :=
    other_part_zero (A := sc.L1u) (B := sc.L1l) a1 (by rw [add_comm]; exact he) hl
  rw [SC.L1, add_mulVec, h1, h2, add_zero] at he
  exact (smul_eq_zero.1 he.symm).resolve_right hv

/-- the hypotheses of C54 hold for the complete graph on four nodes with one filled triangle, which has
gradient, curl and harmonic flows -/
theorem k4Tri_gap : NoSmallEigenvalue k4Tri.L1 (1 / 1000) := by
  refine gap_of fun lam h => ?_
  rcases hodge_eigenvalue k4Tri_wellFormed h with h | h | h
  · exact .inl h
  · rcases k4Tri_lower h with h | h
    · exact .inl h
    · right; rw [h]; norm_num
  · rcases k4Tri_upper h with h | h
    · exact .inl h
    · right; rw [h]; norm_num

theorem k4Tri_noShared : NoSharedEigenvalue k4Tri := by
  intro lam hne h1 h2
  rcases k4Tri_lower h1 with h | h
  · exact hne h
  · rcases k4Tri_upper h2 with h' | h'
    · exact hne h'
    · rw [h] at h'; norm_num at h'

example (lib : NumLib) (st : FilterSt k4Tri.E) (f : Fin k4Tri.E → ℝ) : ∃ g c h st1 st2 st3 L,
    HodgeParts lib k4Tri f g c h ∧
    LSFilter.typeOne lib k4Tri st f "gradient" L = (.ok (), st1) ∧ RecordsExactly st1.history g ∧
    LSFilter.typeOne lib k4Tri st f "curl" L = (.ok (), st2) ∧ RecordsExactly st2.history c ∧
    LSFilter.typeOne lib k4Tri st f "harmonic" L = (.ok (), st3) ∧ RecordsExactly st3.history h := by
  obtain ⟨g, c, h, hp⟩ := HodgeParts.exists lib k4Tri f
  obtain ⟨⟨st1, r1, r2⟩, ⟨st2, r3, r4⟩⟩ := C54_gradient_curl k4Tri_wellFormed (by decide) k4Tri_gap
    k4Tri_noShared st f g c hp.grad hp.curl _ le_rfl
  obtain ⟨st3, r5, r6⟩ := C54_harmonic k4Tri_wellFormed (by decide) k4Tri_gap st f h hp.harm _ le_rfl
  exact ⟨g, c, h, st1, st2, st3, _, hp, r1, r2, r3, r4, r5, r6⟩

/-- C54: sharing happens already for a filled triangle (beside a hollow one): the type-one gradient
design is exact for no filter size. -/
theorem C54_fails_on_filled_triangle (lib : NumLib) (L : Int) :
    ∃ f g : Fin twoTri.E → ℝ, twoTri.getComponentFlow lib f "gradient" false = .ok g ∧
      ∀ st st', LSFilter.typeOne lib twoTri st f "gradient" L = (.ok (), st') →
        st'.history.get? "f_estimated" ≠ some (.vec g) :=
  C54_shared_never_exact lib twoTri_wellFormed 3 (by norm_num) twoTri_lower_three twoTri_upper_three L

end Pytspl
