import Verif.Lemmas.EigSelect
import Verif.Props.Hodge
import Verif.Lemmas.Concrete
import Mathlib.Tactic.FieldSimp

/-!
# Properties C25 - C32: eigendecomposition
-/

namespace Pytspl

open Matrix

variable {n : ℕ} {lib : NumLib} {sc : SC ℝ}

/-! ## C26 -/

/-- C26: `get_eigendecomposition` of a symmetric positive semidefinite matrix with at least one row:
orthonormal eigenvectors, ascending non-negative values none of which is strictly between 0 and
machine epsilon, and in every returned direction the reconstruction is off by less than epsilon. -/
theorem C26_eigendecomposition (A : Matrix (Fin n) (Fin n) ℝ) (hA : SymmPSD A) (hn : 0 < n) :
    ∃ U w, getEigendecomposition lib (.ndarray A) = .ok (U, w) ∧
      U.transpose * U = 1 ∧ Monotone w ∧ (∀ i, w i = 0 ∨ machineEps ≤ w i) ∧
      ∀ i, ∃ d, |d| < machineEps ∧
        A.mulVec (fun k => U k i) = (w i + d) • (fun k => U k i) ∧
        (A - U * diagonal w * U.transpose).mulVec (fun k => U k i) = d • fun k => U k i := by
  have h := lib.isEig hA
  refine ⟨_, _, getEigendecomposition_dense lib hn A machineEps, h.orth, ?_, ?_, ?_⟩
  · intro i j hij
    have hm := (lib.eigh_spec n A hA.1).1 hij
    have hi := h.nonneg hA i
    have hj := h.nonneg hA j
    simp only [abs_of_nonneg hi, abs_of_nonneg hj]
    split <;> split <;> linarith
  · intro i
    have hi := h.nonneg hA i
    simp only [abs_of_nonneg hi]
    split
    · exact .inl rfl
    · right; linarith
  · intro i
    have hi := h.nonneg hA i
    have he := machineEps_pos
    set U := (lib.eigh n A).2
    set lam := (lib.eigh n A).1
    set w : Fin n → ℝ := fun i => if |lam i| < machineEps then 0 else lam i with hw
    refine ⟨lam i - w i, ?_, ?_, ?_⟩
    · rw [hw]
      simp only [abs_of_nonneg hi]
      split
      · rw [sub_zero, abs_of_nonneg hi]; assumption
      · simpa using he
    · rw [h.col_eig]; congr 1; ring
    · have h2 : IsEig (U * diagonal w * U.transpose) U w :=
        ⟨h.orth, by rw [Matrix.mul_assoc, h.orth, Matrix.mul_one]⟩
      rw [sub_mulVec, h.col_eig, h2.col_eig, ← sub_smul]

/-- C26: sparse input is refused, and so is the empty matrix; a matrix with rows never raises. -/
theorem C26_rejects (A : Matrix (Fin n) (Fin n) ℝ) (tol : ℝ) :
    getEigendecomposition lib (.csr A) tol = .error .assertionError ∧
    ((∃ e, getEigendecomposition lib (.ndarray A) tol = .error e) ↔ n = 0) ∧
    (n = 0 → getEigendecomposition lib (.ndarray A) tol = .error .valueError) := by
  refine ⟨rfl, ?_, ?_⟩
  · constructor
    · rintro ⟨e, he⟩
      by_contra hn
      simp [getEigendecomposition, hn] at he
    · intro hn
      exact ⟨.valueError, by simp [getEigendecomposition, hn]⟩
  · intro hn
    simp [getEigendecomposition, hn]

theorem symmPSD_L0 (sc : SC ℝ) : SymmPSD sc.L0 := symmPSD_gram' _
theorem symmPSD_L1l (sc : SC ℝ) : SymmPSD sc.L1l := symmPSD_gram _
theorem symmPSD_L1u (sc : SC ℝ) : SymmPSD sc.L1u := symmPSD_gram' _
theorem symmPSD_L1 (sc : SC ℝ) : SymmPSD sc.L1 := (symmPSD_L1l sc).add (symmPSD_L1u sc)

/-- C26 applies to the three edge Laplacians of a complex with an edge -/
example : ∃ sc : SC ℝ, SymmPSD sc.L1 ∧ SymmPSD sc.L1l ∧ SymmPSD sc.L1u ∧ 0 < sc.E := by
  obtain ⟨sc, -, -, -, h2, -⟩ := sample_wellFormed ℝ
  exact ⟨sc, symmPSD_L1 sc, symmPSD_L1l sc, symmPSD_L1u sc, by rw [SC.E, h2]; decide⟩

/-! ## C25 -/

/-- C25 (eigenpairs): unknown names are rejected; known ones are dispatched to the matching Laplacian
and comparison. -/
theorem C25_component_eigenpair_names (component : String) (tol : ℝ) :
    (component ≠ "gradient" ∧ component ≠ "curl" ∧ component ≠ "harmonic" →
      sc.getComponentEigenpair lib component tol = .error .valueError) ∧
    (component = "gradient" → sc.getComponentEigenpair lib component tol =
      getGradientEigenpair lib (.ndarray sc.L1l) tol) ∧
    (component = "curl" → sc.getComponentEigenpair lib component tol =
      getCurlEigenpair lib (.ndarray sc.L1u) tol) ∧
    (component = "harmonic" → sc.getComponentEigenpair lib component tol =
      getHarmonicEigenpair lib (.ndarray sc.L1) tol) := by
  refine ⟨?_, ?_, ?_, ?_⟩
  · rintro ⟨h1, h2, h3⟩
    simp [SC.getComponentEigenpair, h1, h2, h3]
  all_goals rintro rfl; rfl

/-! ## The three eigenpair blocks -/

/-- `eh`, `ec`, `eg` are what `get_component_eigenpair` returns for the three components with
tolerance `tol`. -/
structure EigParts (lib : NumLib) (sc : SC ℝ) (tol : ℝ) (eh ec eg : EigPairs sc.E) : Prop where
  harm : sc.getComponentEigenpair lib "harmonic" tol = .ok eh
  curl : sc.getComponentEigenpair lib "curl" tol = .ok ec
  grad : sc.getComponentEigenpair lib "gradient" tol = .ok eg

/-- the calls succeed as soon as there is an edge -/
theorem EigParts.exists (lib : NumLib) (sc : SC ℝ) (tol : ℝ) (hE : 0 < sc.E) :
    ∃ eh ec eg, EigParts lib sc tol eh ec eg := by
  have h1 : ∃ eh, getHarmonicEigenpair lib (.ndarray sc.L1) tol = .ok eh := by
    rw [getHarmonicEigenpair, getEigendecomposition_dense lib hE]; exact ⟨_, rfl⟩
  have h2 : ∃ ec, getCurlEigenpair lib (.ndarray sc.L1u) tol = .ok ec := by
    rw [getCurlEigenpair, getEigendecomposition_dense lib hE]; exact ⟨_, rfl⟩
  have h3 : ∃ eg, getGradientEigenpair lib (.ndarray sc.L1l) tol = .ok eg := by
    rw [getGradientEigenpair, getEigendecomposition_dense lib hE]; exact ⟨_, rfl⟩
  obtain ⟨eh, h1⟩ := h1
  obtain ⟨ec, h2⟩ := h2
  obtain ⟨eg, h3⟩ := h3
  exact ⟨eh, ec, eg, h1, h2, h3⟩

theorem lower_gap (hw : sc.WellFormed) {tol : ℝ} (hgap : NoSmallEigenvalue sc.L1 tol) :
    NoSmallEigenvalue sc.L1l tol ∧ NoSmallEigenvalue sc.L1u tol := by
  obtain ⟨h12, h21⟩ := C12_lower_upper_annihilate sc hw
  have key : ∀ (A B : Matrix (Fin sc.E) (Fin sc.E) ℝ), B * A = 0 → sc.L1 = A + B →
      NoSmallEigenvalue A tol := by
    intro A B hBA hs lam v hv hA hl
    refine hgap lam v hv ?_ hl
    have hB : B.mulVec v = 0 := by
      have : lam • B.mulVec v = 0 := by
        rw [← mulVec_smul, ← hA, mulVec_mulVec, hBA, zero_mulVec]
      exact (smul_eq_zero.mp this).resolve_left hl.1.ne'
    rw [hs, add_mulVec, hA, hB, add_zero]
  exact ⟨key _ _ h21 rfl, key _ _ h12 (add_comm _ _)⟩

/-- the blocks under the gap hypothesis: the exact eigenpairs with zero / non-zero eigenvalue -/
private structure Blocks (lib : NumLib) (sc : SC ℝ) (tol : ℝ) (eh ec eg : EigPairs sc.E) : Prop where
  harm : eh = selectPairs (lib.eigh _ sc.L1).2 (lib.eigh _ sc.L1).1 (fun x => x ≤ tol)
  curl : ec = selectPairs (lib.eigh _ sc.L1u).2 (lib.eigh _ sc.L1u).1 (fun x => tol ≤ x)
  grad : eg = selectPairs (lib.eigh _ sc.L1l).2 (lib.eigh _ sc.L1l).1 (fun x => tol < x)
  pos : 0 < sc.E

private theorem EigParts.blocks {tol : ℝ} {eh ec eg : EigPairs sc.E} (hw : sc.WellFormed)
    (ht : machineEps ≤ tol) (hgap : NoSmallEigenvalue sc.L1 tol)
    (hp : EigParts lib sc tol eh ec eg) : Blocks lib sc tol eh ec eg := by
  have hE : 0 < sc.E := by
    by_contra h0
    have h0' : sc.E = 0 := by omega
    have := hp.harm
    simp only [SC.getComponentEigenpair, if_true, getHarmonicEigenpair, getEigendecomposition, h0',
      bind, Except.bind] at this
    cases this
  obtain ⟨hgl, hgu⟩ := lower_gap hw hgap
  obtain ⟨h1, h2, h3⟩ := hp
  have h1' : getHarmonicEigenpair lib (.ndarray sc.L1) tol = .ok eh := h1
  have h2' : getCurlEigenpair lib (.ndarray sc.L1u) tol = .ok ec := h2
  have h3' : getGradientEigenpair lib (.ndarray sc.L1l) tol = .ok eg := h3
  rw [getHarmonicEigenpair, getEigendecomposition_dense lib hE,
    snap_eq lib (symmPSD_L1 sc) ht hgap] at h1'
  rw [getCurlEigenpair, getEigendecomposition_dense lib hE,
    snap_eq lib (symmPSD_L1u sc) ht hgu] at h2'
  rw [getGradientEigenpair, getEigendecomposition_dense lib hE,
    snap_eq lib (symmPSD_L1l sc) ht hgl] at h3'
  exact ⟨(Except.ok.inj h1').symm, (Except.ok.inj h2').symm, (Except.ok.inj h3').symm, hE⟩

/-! ## C27 -/

private theorem card_gt {A U : Matrix (Fin n) (Fin n) ℝ} {w : Fin n → ℝ} (h : IsEig A U w)
    (hA : SymmPSD A) {tol : ℝ} (ht : 0 < tol) (hgap : NoSmallEigenvalue A tol) :
    Fintype.card {i // tol < w i} = A.rank ∧ Fintype.card {i // tol ≤ w i} = A.rank ∧
    Fintype.card {i // w i ≤ tol} = n - A.rank := by
  rw [h.rank_eq]
  refine ⟨?_, ?_, ?_⟩
  · apply Fintype.card_congr
    refine Equiv.subtypeEquivRight fun i => ?_
    rcases h.gap hA hgap i with h0 | h0
    · rw [h0]; simp [ht.le]
    · exact ⟨fun _ => by linarith, fun _ => h0⟩
  · apply Fintype.card_congr
    refine Equiv.subtypeEquivRight fun i => ?_
    rcases h.gap hA hgap i with h0 | h0
    · rw [h0]; simp [ht]
    · exact ⟨fun _ => by linarith, fun _ => h0.le⟩
  · have e : Fintype.card {i // w i ≤ tol} = Fintype.card {i // ¬ (w i ≠ 0)} := by
      apply Fintype.card_congr
      refine Equiv.subtypeEquivRight fun i => ?_
      rcases h.gap hA hgap i with h0 | h0
      · rw [h0]; simp [ht.le]
      · constructor
        · intro h1; linarith
        · intro h1; exact absurd (by linarith) h1
    rw [e, Fintype.card_subtype_compl, Fintype.card_fin]

/-- filtering the non-zero values of the three spectra -/
private theorem nonzero_roots (hw : sc.WellFormed) :
    sc.L1l.charpoly.roots.filter (· ≠ 0) + sc.L1u.charpoly.roots.filter (· ≠ 0) =
      sc.L1.charpoly.roots.filter (· ≠ 0) := by
  have := congrArg (Multiset.filter (· ≠ (0 : ℝ)))
    (roots_of_mul_eq_zero (C12_lower_upper_annihilate sc hw).1)
  rw [Multiset.filter_add, Multiset.filter_add] at this
  have h0 : Multiset.filter (· ≠ (0 : ℝ)) (Multiset.replicate sc.E 0) = 0 := by
    rw [Multiset.filter_eq_nil]
    intro a ha
    simp [Multiset.eq_of_mem_replicate ha]
  rw [h0, zero_add] at this
  exact this

private theorem card_nonzero {A U : Matrix (Fin n) (Fin n) ℝ} {w : Fin n → ℝ} (h : IsEig A U w) :
    Multiset.card (A.charpoly.roots.filter (· ≠ 0)) = A.rank := by
  rw [h.roots_eq, h.rank_eq, Multiset.filter_map, Multiset.card_map, Fintype.card_subtype]
  rfl

theorem rank_add (lib : NumLib) (hw : sc.WellFormed) :
    sc.L1.rank = sc.B1.rank + sc.B2.rank := by
  have h := congrArg Multiset.card (nonzero_roots hw)
  rw [Multiset.card_add, card_nonzero (lib.isEig (symmPSD_L1l sc)),
    card_nonzero (lib.isEig (symmPSD_L1u sc)), card_nonzero (lib.isEig (symmPSD_L1 sc))] at h
  rw [← h, SC.L1l, SC.L1u, rank_transpose_mul_self, rank_self_mul_transpose]

/-- C27: the numbers of harmonic, curl and gradient eigenvectors. -/
theorem C27_counts (hw : sc.WellFormed) (tol : ℝ) (ht : machineEps ≤ tol)
    (hgap : NoSmallEigenvalue sc.L1 tol) (eh ec eg : EigPairs sc.E)
    (hp : EigParts lib sc tol eh ec eg) :
    eh.num + ec.num + eg.num = sc.E ∧
    eg.num = sc.B1.rank ∧ ec.num = sc.B2.rank ∧ eh.num = sc.E - sc.B1.rank - sc.B2.rank := by
  have hb := hp.blocks hw ht hgap
  have htp : 0 < tol := lt_of_lt_of_le machineEps_pos ht
  obtain ⟨hgl, hgu⟩ := lower_gap hw hgap
  have k1 := card_gt (lib.isEig (symmPSD_L1 sc)) (symmPSD_L1 sc) htp hgap
  have k2 := card_gt (lib.isEig (symmPSD_L1u sc)) (symmPSD_L1u sc) htp hgu
  have k3 := card_gt (lib.isEig (symmPSD_L1l sc)) (symmPSD_L1l sc) htp hgl
  have e1 : eh.num = sc.E - sc.L1.rank := by rw [hb.harm, sel_num]; exact k1.2.2
  have e2 : ec.num = sc.B2.rank := by
    rw [hb.curl, sel_num, k2.2.1, SC.L1u, rank_self_mul_transpose]
  have e3 : eg.num = sc.B1.rank := by
    rw [hb.grad, sel_num, k3.1, SC.L1l, rank_transpose_mul_self]
  have hr := rank_add lib hw
  have hle : sc.L1.rank ≤ sc.E := by
    have := rank_le_card_width sc.L1
    rwa [Fintype.card_fin] at this
  simp only [SC.E] at *
  omega

/-! ## C28 -/

/-- C28: each block is orthonormal. -/
theorem C28_orthonormal (hw : sc.WellFormed) (tol : ℝ) (ht : machineEps ≤ tol)
    (hgap : NoSmallEigenvalue sc.L1 tol) (eh ec eg : EigPairs sc.E)
    (hp : EigParts lib sc tol eh ec eg) :
    eh.vecs.transpose * eh.vecs = 1 ∧ ec.vecs.transpose * ec.vecs = 1 ∧
    eg.vecs.transpose * eg.vecs = 1 := by
  have hb := hp.blocks hw ht hgap
  refine ⟨?_, ?_, ?_⟩
  · rw [hb.harm]; exact sel_orth (lib.isEig (symmPSD_L1 sc))
  · rw [hb.curl]; exact sel_orth (lib.isEig (symmPSD_L1u sc))
  · rw [hb.grad]; exact sel_orth (lib.isEig (symmPSD_L1l sc))

/-- C28: what kind of eigenvectors the blocks contain. -/
theorem C28_kinds (hw : sc.WellFormed) (tol : ℝ) (ht : machineEps ≤ tol)
    (hgap : NoSmallEigenvalue sc.L1 tol) (eh ec eg : EigPairs sc.E)
    (hp : EigParts lib sc tol eh ec eg) :
    (∀ j, sc.getDivergence (fun k => eh.vecs k j) = 0 ∧ sc.getCurl (fun k => eh.vecs k j) = 0 ∧
      eh.vals j = 0) ∧
    (∀ j, sc.getDivergence (fun k => ec.vecs k j) = 0 ∧
      sc.L1.mulVec (fun k => ec.vecs k j) = ec.vals j • (fun k => ec.vecs k j) ∧ tol < ec.vals j) ∧
    (∀ j, sc.getCurl (fun k => eg.vecs k j) = 0 ∧
      sc.L1.mulVec (fun k => eg.vecs k j) = eg.vals j • (fun k => eg.vecs k j) ∧ tol < eg.vals j) := by
  have hb := hp.blocks hw ht hgap
  have htp : 0 < tol := lt_of_lt_of_le machineEps_pos ht
  obtain ⟨hgl, hgu⟩ := lower_gap hw hgap
  have h12 := hw.b1_mul_b2
  refine ⟨?_, ?_, ?_⟩
  · rw [hb.harm]
    intro j
    have h1 := sel_eig (cond := fun x => x ≤ tol) (lib.isEig (symmPSD_L1 sc)) j
    have h2 := sel_cond (U := (lib.eigh _ sc.L1).2) (w := (lib.eigh _ sc.L1).1)
      (cond := fun x => x ≤ tol) j
    have h3 : (selectPairs (lib.eigh _ sc.L1).2 (lib.eigh _ sc.L1).1 (fun x => x ≤ tol)).vals j = 0 := by
      rcases (lib.isEig (symmPSD_L1 sc)).gap (symmPSD_L1 sc) hgap
        (selIdx (lib.eigh _ sc.L1).1 (fun x => x ≤ tol))[j] with h0 | h0
      · exact h0
      · exact absurd h2 (not_le.mpr h0)
    rw [h3, zero_smul] at h1
    obtain ⟨a, b⟩ := (C12_hodge_kernel sc _).mp h1
    exact ⟨a, b, h3⟩
  · rw [hb.curl]
    intro j
    have h1 := sel_eig (cond := fun x => tol ≤ x) (lib.isEig (symmPSD_L1u sc)) j
    have h2 := sel_cond (U := (lib.eigh _ sc.L1u).2) (w := (lib.eigh _ sc.L1u).1)
      (cond := fun x => tol ≤ x) j
    have h3 : tol < (selectPairs (lib.eigh _ sc.L1u).2 (lib.eigh _ sc.L1u).1 (fun x => tol ≤ x)).vals j := by
      rcases (lib.isEig (symmPSD_L1u sc)).gap (symmPSD_L1u sc) hgu
        (selIdx (lib.eigh _ sc.L1u).1 (fun x => tol ≤ x))[j] with h0 | h0
      · have : (selectPairs (lib.eigh _ sc.L1u).2 (lib.eigh _ sc.L1u).1 (fun x => tol ≤ x)).vals j = 0 := h0
        rw [this] at h2
        linarith
      · exact h0
    generalize selectPairs (lib.eigh _ sc.L1u).2 (lib.eigh _ sc.L1u).1 (fun x => tol ≤ x) = P at *
    have hd : sc.getDivergence (fun k => P.vecs k j) = 0 := by
      have h4 : P.vals j • sc.B1.mulVec (fun k => P.vecs k j) = 0 := by
        rw [← mulVec_smul, ← h1, SC.L1u, mulVec_mulVec, ← Matrix.mul_assoc, h12, Matrix.zero_mul,
          zero_mulVec]
      exact (smul_eq_zero.mp h4).resolve_left (by linarith)
    refine ⟨hd, ?_, h3⟩
    unfold SC.getDivergence at hd
    rw [SC.L1, add_mulVec, SC.L1l, ← mulVec_mulVec, hd, mulVec_zero, zero_add, h1]
  · rw [hb.grad]
    intro j
    have h1 := sel_eig (cond := fun x => tol < x) (lib.isEig (symmPSD_L1l sc)) j
    have h3 := sel_cond (U := (lib.eigh _ sc.L1l).2) (w := (lib.eigh _ sc.L1l).1)
      (cond := fun x => tol < x) j
    generalize selectPairs (lib.eigh _ sc.L1l).2 (lib.eigh _ sc.L1l).1 (fun x => tol < x) = P at *
    have hd : sc.getCurl (fun k => P.vecs k j) = 0 := by
      have h4 : P.vals j • sc.B2.transpose.mulVec (fun k => P.vecs k j) = 0 := by
        rw [← mulVec_smul, ← h1, SC.L1l, mulVec_mulVec, ← Matrix.mul_assoc, ← transpose_mul, h12,
          transpose_zero, Matrix.zero_mul, zero_mulVec]
      exact (smul_eq_zero.mp h4).resolve_left (by linarith)
    refine ⟨hd, ?_, h3⟩
    unfold SC.getCurl at hd
    rw [SC.L1, add_mulVec, SC.L1u, ← mulVec_mulVec _ sc.B2, hd, mulVec_zero, add_zero, h1]

/-- C28: blocks of different kinds are orthogonal. -/
theorem C28_cross_orthogonal (hw : sc.WellFormed) (tol : ℝ) (ht : machineEps ≤ tol)
    (hgap : NoSmallEigenvalue sc.L1 tol) (eh ec eg : EigPairs sc.E)
    (hp : EigParts lib sc tol eh ec eg) :
    eh.vecs.transpose * ec.vecs = 0 ∧ eh.vecs.transpose * eg.vecs = 0 ∧
    ec.vecs.transpose * eg.vecs = 0 := by
  have htp : 0 < tol := lt_of_lt_of_le machineEps_pos ht
  obtain ⟨kh, kc, kg⟩ := C28_kinds hw tol ht hgap eh ec eg hp
  have hs := (symmPSD_L1 sc).1
  have kz : ∀ j, sc.L1.mulVec (fun k => eh.vecs k j) = 0 := fun j =>
    (C12_hodge_kernel sc _).mpr ⟨(kh j).1, (kh j).2.1⟩
  have key : ∀ (u v : Fin sc.E → ℝ) (lam : ℝ), 0 < lam → sc.L1.mulVec u = 0 →
      sc.L1.mulVec v = lam • v → u ⬝ᵥ v = 0 := by
    intro u v lam hl hu hv
    have h1 : lam * (u ⬝ᵥ v) = 0 := by
      rw [← smul_eq_mul, ← dotProduct_smul, ← hv, dotProduct_comm,
        dotProduct_comm _ u, dot_mulVec_transpose, hs, hu, zero_dotProduct]
    exact (mul_eq_zero.mp h1).resolve_left hl.ne'
  refine ⟨?_, ?_, ?_⟩
  · ext a b
    exact key _ _ _ (by linarith [(kc b).2.2]) (kz a) (kc b).2.1
  · ext a b
    exact key _ _ _ (by linarith [(kg b).2.2]) (kz a) (kg b).2.1
  · ext a b
    have h1 := (kc a).1
    have h2 := (kg b).1
    have hpos : 0 < eg.vals b := by linarith [(kg b).2.2]
    have h3 := (kg b).2.1
    unfold SC.getCurl at h2
    unfold SC.getDivergence at h1
    rw [SC.L1, add_mulVec, SC.L1u, ← mulVec_mulVec _ sc.B2, h2, mulVec_zero, add_zero, SC.L1l,
      ← mulVec_mulVec] at h3
    have h4 : eg.vals b * ((fun k => ec.vecs k a) ⬝ᵥ (fun k => eg.vecs k b)) = 0 := by
      rw [← smul_eq_mul, ← dotProduct_smul, ← h3, dot_mulVec_transpose, transpose_transpose, h1,
        zero_dotProduct]
    exact (mul_eq_zero.mp h4).resolve_left hpos.ne'

/-! ## C29 -/

/-- C29: the three groups of eigenvalues together are the spectrum of the Hodge Laplacian (the roots
of its characteristic polynomial with multiplicity). -/
theorem C29_spectrum (hw : sc.WellFormed) (tol : ℝ) (ht : machineEps ≤ tol)
    (hgap : NoSmallEigenvalue sc.L1 tol) (eh ec eg : EigPairs sc.E)
    (hp : EigParts lib sc tol eh ec eg) :
    (List.ofFn eh.vals ++ List.ofFn ec.vals ++ List.ofFn eg.vals : Multiset ℝ) =
      sc.L1.charpoly.roots := by
  have hb := hp.blocks hw ht hgap
  have htp : 0 < tol := lt_of_lt_of_le machineEps_pos ht
  obtain ⟨hgl, hgu⟩ := lower_gap hw hgap
  have hh := lib.isEig (symmPSD_L1 sc)
  have hc := lib.isEig (symmPSD_L1u sc)
  have hg := lib.isEig (symmPSD_L1l sc)
  have e1 : (List.ofFn eh.vals : Multiset ℝ) = sc.L1.charpoly.roots.filter (fun x => ¬ (x ≠ 0)) := by
    rw [hb.harm, ← Fin.univ_val_map, sel_vals, hh.roots_eq]
    apply Multiset.filter_congr
    intro x hx
    obtain ⟨i, -, rfl⟩ := Multiset.mem_map.mp hx
    rcases hh.gap (symmPSD_L1 sc) hgap i with h0 | h0
    · simp [h0, htp.le]
    · constructor
      · intro h; linarith
      · intro h; exact absurd (by linarith) h
  have e2 : (List.ofFn ec.vals : Multiset ℝ) = sc.L1u.charpoly.roots.filter (· ≠ 0) := by
    rw [hb.curl, ← Fin.univ_val_map, sel_vals, hc.roots_eq]
    apply Multiset.filter_congr
    intro x hx
    obtain ⟨i, -, rfl⟩ := Multiset.mem_map.mp hx
    rcases hc.gap (symmPSD_L1u sc) hgu i with h0 | h0
    · simp [h0, htp]
    · exact ⟨fun _ => by linarith, fun _ => h0.le⟩
  have e3 : (List.ofFn eg.vals : Multiset ℝ) = sc.L1l.charpoly.roots.filter (· ≠ 0) := by
    rw [hb.grad, ← Fin.univ_val_map, sel_vals, hg.roots_eq]
    apply Multiset.filter_congr
    intro x hx
    obtain ⟨i, -, rfl⟩ := Multiset.mem_map.mp hx
    rcases hg.gap (symmPSD_L1l sc) hgl i with h0 | h0
    · simp [h0, htp.le]
    · exact ⟨fun _ => by linarith, fun _ => h0⟩
  rw [← Multiset.coe_add, ← Multiset.coe_add, e1, e2, e3, add_assoc, add_comm (Multiset.filter _ sc.L1u.charpoly.roots),
    nonzero_roots hw, add_comm]
  exact Multiset.filter_add_not _ _

/-! ## C30 -/

private theorem proj_image {A U : Matrix (Fin n) (Fin n) ℝ} {w : Fin n → ℝ} (h : IsEig A U w)
    (cond : ℝ → Prop) [DecidablePred cond] (hc : ∀ i, cond (w i) ↔ w i ≠ 0) (f : Fin n → ℝ) :
    (∃ x, A.mulVec x =
      (selectPairs U w cond).vecs.mulVec ((selectPairs U w cond).vecs.transpose.mulVec f)) ∧
    A.mulVec ((selectPairs U w cond).vecs.mulVec ((selectPairs U w cond).vecs.transpose.mulVec f))
      = A.mulVec f := by
  rw [sel_proj]
  constructor
  · refine ⟨∑ i, if cond (w i) then ((w i)⁻¹ * U.transpose.mulVec f i) • (fun k => U k i) else 0, ?_⟩
    rw [mulVec_sum]
    apply Finset.sum_congr rfl
    intro i _
    split
    · rename_i hi
      have := (hc i).mp hi
      rw [mulVec_smul, h.col_eig, smul_smul]
      congr 1
      field_simp
    · rw [mulVec_zero]
  · conv_rhs => rw [h.expand f]
    rw [mulVec_sum, mulVec_sum]
    apply Finset.sum_congr rfl
    intro i _
    split
    · rfl
    · rename_i hi
      rw [mulVec_zero, mulVec_smul, h.col_eig]
      have : w i = 0 := by
        by_contra h0
        exact hi ((hc i).mpr h0)
      rw [this]; simp

/-- C30: the embeddings reproduce the components and carry all the energy. -/
theorem C30_embeddings (hw : sc.WellFormed) (hgap : NoSmallEigenvalue sc.L1 (1 / 1000))
    (f g c h : Fin sc.E → ℝ) (hp : HodgeParts lib sc f g c h) (eh ec eg : EigPairs sc.E)
    (he : EigParts lib sc (1 / 1000) eh ec eg) :
    ∃ (ah : Fin eh.num → ℝ) (ac : Fin ec.num → ℝ) (ag : Fin eg.num → ℝ),
      sc.getSimplicialEmbeddings lib f = .ok (⟨_, ah⟩, ⟨_, ac⟩, ⟨_, ag⟩) ∧
      eh.vecs.mulVec ah = h ∧ ec.vecs.mulVec ac = c ∧ eg.vecs.mulVec ag = g ∧
      ah ⬝ᵥ ah + ac ⬝ᵥ ac + ag ⬝ᵥ ag = f ⬝ᵥ f := by
  have ht : machineEps ≤ 1 / 1000 := by unfold machineEps; norm_num
  have htp : (0 : ℝ) < 1 / 1000 := by norm_num
  have hb := he.blocks hw ht hgap
  obtain ⟨hgl, hgu⟩ := lower_gap hw hgap
  have hO := C28_orthonormal hw _ ht hgap eh ec eg he
  have iH := lib.isEig (symmPSD_L1 sc)
  have iC := lib.isEig (symmPSD_L1u sc)
  have iG := lib.isEig (symmPSD_L1l sc)
  -- gradient
  have pg : eg.vecs.mulVec (eg.vecs.transpose.mulVec f) = g := by
    have := proj_image iG (fun x => 1 / 1000 < x) (fun i => by
      rcases iG.gap (symmPSD_L1l sc) hgl i with h0 | h0
      · simp [h0]
      · exact ⟨fun _ => by linarith, fun _ => h0⟩) f
    rw [← hb.grad] at this
    obtain ⟨⟨x, hx⟩, hy⟩ := this
    refine IsProj.unique ⟨⟨sc.B1.mulVec x, ?_⟩, ?_⟩ hp.proj.1
    · rw [mulVec_mulVec]; exact hx
    · rw [transpose_transpose]
      have hz : sc.L1l.mulVec (eg.vecs.mulVec (eg.vecs.transpose.mulVec f) - f) = 0 := by
        rw [mulVec_sub, hy, sub_self]
      set d := eg.vecs.mulVec (eg.vecs.transpose.mulVec f) - f with hd
      have h0 : sc.B1.mulVec d = 0 := by
        apply dotProduct_self_eq_zero.mp
        rw [dot_mulVec_transpose, mulVec_mulVec]
        have : (sc.B1.transpose * sc.B1).mulVec d = 0 := hz
        rw [this, zero_dotProduct]
      rw [hd, mulVec_sub, sub_eq_zero] at h0
      exact h0
  have pc : ec.vecs.mulVec (ec.vecs.transpose.mulVec f) = c := by
    have := proj_image iC (fun x => 1 / 1000 ≤ x) (fun i => by
      rcases iC.gap (symmPSD_L1u sc) hgu i with h0 | h0
      · simp [h0]
      · exact ⟨fun _ => by linarith, fun _ => h0.le⟩) f
    rw [← hb.curl] at this
    obtain ⟨⟨x, hx⟩, hy⟩ := this
    refine IsProj.unique ⟨⟨sc.B2.transpose.mulVec x, ?_⟩, ?_⟩ hp.proj.2.1
    · rw [mulVec_mulVec]; exact hx
    · have hz : sc.L1u.mulVec (ec.vecs.mulVec (ec.vecs.transpose.mulVec f) - f) = 0 := by
        rw [mulVec_sub, hy, sub_self]
      set d := ec.vecs.mulVec (ec.vecs.transpose.mulVec f) - f with hd
      have h0 : sc.B2.transpose.mulVec d = 0 := by
        apply dotProduct_self_eq_zero.mp
        rw [dot_mulVec_transpose, transpose_transpose, mulVec_mulVec]
        have : (sc.B2 * sc.B2.transpose).mulVec d = 0 := hz
        rw [this, zero_dotProduct]
      rw [hd, mulVec_sub, sub_eq_zero] at h0
      exact h0
  -- harmonic: `U_h U_hᵀ f` and `h` are both the part of `f` in the kernel of `L1`
  have hsum := C18_components_sum f g c h hp
  have hcb := C20_component_behaviour hw f g c h hp
  have hcr := C19_orthogonal hw f g c h hp
  have ph : eh.vecs.mulVec (eh.vecs.transpose.mulVec f) = h := by
    have hL : sc.L1.mulVec (eh.vecs.mulVec (eh.vecs.transpose.mulVec f)) = 0 ∧
        ∀ u, sc.L1.mulVec u = 0 → u ⬝ᵥ (f - eh.vecs.mulVec (eh.vecs.transpose.mulVec f)) = 0 := by
      rw [hb.harm, sel_proj]
      have hz : ∀ i, (lib.eigh _ sc.L1).1 i ≤ 1 / 1000 ↔ (lib.eigh _ sc.L1).1 i = 0 := fun i => by
        rcases iH.gap (symmPSD_L1 sc) hgap i with h0 | h0
        · simp [h0]
        · exact ⟨fun h => by linarith, fun h => by rw [h]; norm_num⟩
      constructor
      · rw [mulVec_sum]
        apply Finset.sum_eq_zero
        intro i _
        split
        · rename_i hi
          rw [mulVec_smul, iH.col_eig, (hz i).mp hi]; simp
        · simp
      · intro u hu
        have hdiff : f - (∑ i, if (lib.eigh _ sc.L1).1 i ≤ 1 / 1000 then
            ((lib.eigh _ sc.L1).2.transpose.mulVec f i) • (fun k => (lib.eigh _ sc.L1).2 k i) else 0) =
            ∑ i, if (lib.eigh _ sc.L1).1 i ≤ 1 / 1000 then 0 else
              ((lib.eigh _ sc.L1).2.transpose.mulVec f i) • (fun k => (lib.eigh _ sc.L1).2 k i) := by
          conv_lhs => lhs; rw [iH.expand f]
          rw [← Finset.sum_sub_distrib]
          apply Finset.sum_congr rfl
          intro i _
          split <;> simp
        rw [hdiff, dotProduct_sum]
        apply Finset.sum_eq_zero
        intro i _
        split
        · simp
        · rename_i hi
          have hne : (lib.eigh _ sc.L1).1 i ≠ 0 := fun h => hi ((hz i).mpr h)
          rw [dotProduct_smul]
          have h4 : (lib.eigh _ sc.L1).1 i * (u ⬝ᵥ (fun k => (lib.eigh _ sc.L1).2 k i)) = 0 := by
            rw [← smul_eq_mul, ← dotProduct_smul, ← iH.col_eig, dot_mulVec_transpose,
              (symmPSD_L1 sc).1, hu, zero_dotProduct]
          rw [(mul_eq_zero.mp h4).resolve_left hne, smul_zero]
    set q := eh.vecs.mulVec (eh.vecs.transpose.mulVec f) with hq
    have hk : sc.L1.mulVec (q - h) = 0 := by rw [mulVec_sub, hL.1, hcb.2.2.2.2, sub_zero]
    have o1 := hL.2 _ hk
    have o2 : (q - h) ⬝ᵥ (f - h) = 0 := by
      have e : f - h = g + c := by rw [← hsum]; abel
      obtain ⟨a, b⟩ := (C12_hodge_kernel sc _).mp hk
      obtain ⟨⟨⟨x, hx⟩, -⟩, ⟨⟨y, hy⟩, -⟩, -⟩ := hp.proj
      unfold SC.getDivergence at a
      unfold SC.getCurl at b
      rw [e, dotProduct_add, ← hx, ← hy, dot_mulVec_transpose, dot_mulVec_transpose,
        transpose_transpose, a, b, zero_dotProduct, zero_dotProduct, add_zero]
    have o3 : (q - h) ⬝ᵥ (q - h) = 0 := by
      have e : q - h = (f - h) - (f - q) := by abel
      conv_lhs => rhs; rw [e]
      rw [dotProduct_sub, o2, o1, sub_zero]
    exact sub_eq_zero.mp (dotProduct_self_eq_zero.mp o3)
  have norm : ∀ {m : ℕ} (V : Matrix (Fin sc.E) (Fin m) ℝ), V.transpose * V = 1 → ∀ x : Fin m → ℝ,
      V.mulVec x ⬝ᵥ V.mulVec x = x ⬝ᵥ x := by
    intro m V hV x
    rw [dot_mulVec_transpose, mulVec_mulVec, hV, one_mulVec]
  refine ⟨eh.vecs.transpose.mulVec f, ec.vecs.transpose.mulVec f, eg.vecs.transpose.mulVec f, ?_,
    ph, pc, pg, ?_⟩
  · have h1 : getHarmonicEigenpair lib (.ndarray sc.L1) (1 / 1000) = .ok eh := he.harm
    have h2 : getCurlEigenpair lib (.ndarray sc.L1u) (1 / 1000) = .ok ec := he.curl
    have h3 : getGradientEigenpair lib (.ndarray sc.L1l) (1 / 1000) = .ok eg := he.grad
    unfold SC.getSimplicialEmbeddings
    rw [h1, h2, h3]
    rfl
  · rw [← norm _ hO.1, ← norm _ hO.2.1, ← norm _ hO.2.2, ph, pc, pg, hcr.2.2.2]
    ring

/-- the hypotheses of C27-C30 are met by a complex with gradient, curl and harmonic flows -/
example : ∃ (lib : NumLib) (sc : SC ℝ) (f g c h : Fin sc.E → ℝ) (eh ec eg : EigPairs sc.E),
    sc.WellFormed ∧ machineEps ≤ (1 / 1000 : ℝ) ∧ NoSmallEigenvalue sc.L1 (1 / 1000) ∧
    EigParts lib sc (1 / 1000) eh ec eg ∧ HodgeParts lib sc f g c h ∧ f ≠ 0 := by
  obtain ⟨lib⟩ := NumLib.exists
  obtain ⟨g, c, h, hp⟩ := HodgeParts.exists lib twoTri (fun _ => 1)
  obtain ⟨eh, ec, eg, he⟩ := EigParts.exists lib twoTri (1 / 1000)
    (by show 0 < List.length _; decide)
  refine ⟨lib, twoTri, _, g, c, h, eh, ec, eg, twoTri_wellFormed, ?_, ?_, he, hp, ?_⟩
  · unfold machineEps; norm_num
  · rintro lam v hv hA ⟨h1, h2⟩
    rcases twoTri_eigen hv hA with h0 | h0
    · linarith
    · rw [h0] at h2; norm_num at h2
  · intro hz
    exact one_ne_zero (congrFun hz (0 : Fin 6))

/-! ## C31 -/

/-- edges of the path 0 - 1 - ... - n -/
def pathEdges (n : ℕ) : List Edge := (List.range n).map fun i : ℕ => ((i : Int), (i : Int) + 1)
/-- nodes of the path 0 - 1 - ... - n -/
def pathNodes (n : ℕ) : List Int := (List.range (n + 1)).map fun i : ℕ => (i : Int)

theorem path_wellFormed (n : ℕ) : ∃ sc : SC ℝ, sc.WellFormed ∧ sc.nodes = pathNodes n ∧
    sc.edges = pathEdges n ∧ sc.triangles = [] := by
  obtain ⟨sc, h, hw⟩ := SC.exists_wellFormed ℝ (pathNodes n) (pathEdges n) [] [] [] (by
      intro e he
      simp only [pathEdges, List.mem_map, List.mem_range] at he
      obtain ⟨i, hi, rfl⟩ := he
      simp only [pathNodes, List.length_map, List.length_range]
      omega) (by
      intro e he
      simp only [pathEdges, List.mem_map, List.mem_range] at he
      obtain ⟨i, hi, rfl⟩ := he
      simp) (by
      intro t ht
      simp at ht)
  obtain ⟨h1, h2, h3, -, -, -⟩ := SC.init_ok h
  exact ⟨sc, hw, h1, h2, h3⟩

private theorem path_telescope (n : ℕ) (v : Int) :
    (((List.range n).map fun i : ℕ => ((if v = (i : Int) + 1 then (1 : ℝ) else 0) -
      (if v = (i : Int) then 1 else 0))).sum) = (if v = n then 1 else 0) - (if v = 0 then 1 else 0) := by
  induction n with
  | zero => simp
  | succ k ih =>
    rw [List.range_succ, List.map_append, List.sum_append, ih]
    simp only [List.map_cons, List.map_nil, List.sum_cons, List.sum_nil, add_zero]
    push_cast
    ring

theorem IsEig.rayleigh {A U : Matrix (Fin n) (Fin n) ℝ} {w : Fin n → ℝ} (h : IsEig A U w) {t : ℝ}
    (ht : ∀ i, t < w i) (x : Fin n → ℝ) (hx : x ≠ 0) : t * (x ⬝ᵥ x) < x ⬝ᵥ A.mulVec x := by
  have h1 : x ⬝ᵥ x = ∑ i, (U.transpose.mulVec x i) ^ 2 := by
    have : x ⬝ᵥ x = U.transpose.mulVec x ⬝ᵥ U.transpose.mulVec x := by
      rw [dot_mulVec_transpose, transpose_transpose, mulVec_mulVec, h.orth', one_mulVec]
    rw [this]
    exact Finset.sum_congr rfl fun i _ => by ring
  have h2 : x ⬝ᵥ A.mulVec x = ∑ i, w i * (U.transpose.mulVec x i) ^ 2 := by
    rw [h.recon, ← mulVec_mulVec, ← mulVec_mulVec, dot_mulVec_transpose]
    refine Finset.sum_congr rfl fun i _ => ?_
    rw [mulVec_diagonal]
    ring
  rw [h1, h2, Finset.mul_sum]
  have hne : ∃ i, U.transpose.mulVec x i ≠ 0 := by
    by_contra hn
    push Not at hn
    apply hx
    rw [h.expand x]
    simp [hn]
  obtain ⟨i, hi⟩ := hne
  apply Finset.sum_lt_sum
  · intro j _
    exact mul_le_mul_of_nonneg_right (ht j).le (sq_nonneg _)
  · exact ⟨i, Finset.mem_univ _, mul_lt_mul_of_pos_right (ht i) (by positivity)⟩

/-- C31, failure: the path with `n ≥ 2000` edges has no harmonic flow except zero, yet
`get_component_eigenpair("harmonic")` with the default tolerance returns at least one
"harmonic" eigenvector, which then has non-zero divergence. -/
theorem C31_default_tolerance_fails (n : ℕ) (hn : 2000 ≤ n) (hw : sc.WellFormed)
    (h1 : sc.nodes = pathNodes n) (h2 : sc.edges = pathEdges n) (h3 : sc.triangles = []) :
    (∀ h : Fin sc.E → ℝ, sc.getDivergence h = 0 → sc.getCurl h = 0 → h = 0) ∧
    ∃ eh, sc.getComponentEigenpair lib "harmonic" = .ok eh ∧ 0 < eh.num ∧
      ∀ j, sc.getDivergence (fun k => eh.vecs k j) ≠ 0 := by
  have hE : sc.E = n := by simp [SC.E, h2, pathEdges]
  have hN : sc.N = n + 1 := by simp [SC.N, h1, pathNodes]
  have hedge : ∀ j : Fin sc.E, sc.edges[j] = (((j : ℕ) : Int), ((j : ℕ) : Int) + 1) := by
    intro j
    simp only [Fin.getElem_fin, h2, pathEdges, List.getElem_map, List.getElem_range]
  have hU : sc.L1u = 0 := by
    ext i j
    unfold SC.L1u
    rw [Matrix.mul_apply]
    apply Finset.sum_eq_zero
    intro k _
    exact absurd k.2 (by simp [h3])
  -- no harmonic flow
  have nil : ∀ h : Fin sc.E → ℝ, sc.getDivergence h = 0 → h = 0 := by
    intro h hd
    ext k
    let p : Fin sc.N → ℝ := fun v => if (k : ℕ) < (v : ℕ) then 1 else 0
    have hp : sc.B1.transpose.mulVec p = fun j => if j = k then 1 else 0 := by
      ext j
      have hj : (j : ℕ) < n := by have := j.2; simp only [SC.E] at hE; omega
      have hlen : sc.nodes.length = n + 1 := hN
      rw [b1_transpose_apply hw.built hw.inRange hw.noLoops, hedge j]
      unfold valueAt
      rw [dif_pos (by constructor <;> simp only [SC.N, hlen] <;> push_cast <;> omega),
        dif_pos (by constructor <;> simp only [SC.N, hlen] <;> push_cast <;> omega)]
      simp only [p, Fin.ext_iff]
      have e1 : (((j : ℕ) : Int) + 1).toNat = (j : ℕ) + 1 := by omega
      have e2 : ((j : ℕ) : Int).toNat = (j : ℕ) := by omega
      simp only [e1, e2]
      by_cases hjk : (j : ℕ) = (k : ℕ)
      · simp [hjk]
      · by_cases hlt : (k : ℕ) < (j : ℕ)
        · simp [hjk, hlt, Nat.lt_succ_of_lt hlt]
        · have : ¬ (k : ℕ) < (j : ℕ) + 1 := by omega
          simp [hjk, hlt, this]
    have hz : h ⬝ᵥ sc.B1.transpose.mulVec p = 0 := by
      unfold SC.getDivergence at hd
      rw [dot_mulVec_transpose, transpose_transpose, hd, zero_dotProduct]
    rw [hp] at hz
    have : h ⬝ᵥ (fun j => if j = k then (1 : ℝ) else 0) = h k := by
      simp [dotProduct]
    rw [this] at hz
    exact hz
  refine ⟨fun h hd _ => nil h hd, ?_⟩
  have hEpos : 0 < sc.E := by rw [hE]; omega
  obtain ⟨eh, ec, eg, he⟩ := EigParts.exists lib sc (1 / 1000) hEpos
  have hh : getHarmonicEigenpair lib (.ndarray sc.L1) (1 / 1000) = .ok eh := he.harm
  rw [getHarmonicEigenpair, getEigendecomposition_dense lib hEpos] at hh
  have heq := Except.ok.inj hh
  have iH := lib.isEig (symmPSD_L1 sc)
  refine ⟨eh, he.harm, ?_, ?_⟩
  · -- some eigenvalue is at most 2/n
    by_contra h0
    have hnum : eh.num = 0 := by omega
    rw [← heq, sel_num, Fintype.card_eq_zero_iff] at hnum
    have hall : ∀ i, 1 / 1000 < (lib.eigh _ sc.L1).1 i := by
      intro i
      by_contra hle
      have hi : (if |(lib.eigh sc.E sc.L1).1 i| < machineEps then 0 else (lib.eigh sc.E sc.L1).1 i)
          ≤ 1 / 1000 := by
        split
        · norm_num
        · exact not_lt.mp hle
      exact hnum.false ⟨i, hi⟩
    have hone : (fun _ : Fin sc.E => (1 : ℝ)) ≠ 0 := by
      intro hz
      have := congrFun hz ⟨0, hEpos⟩
      simp at this
    have hr := iH.rayleigh hall _ hone
    have e1 : (fun _ : Fin sc.E => (1 : ℝ)) ⬝ᵥ (fun _ => 1) = n := by
      simp [dotProduct, hE]
    have e2 : ∀ v : Fin sc.N, sc.B1.mulVec (fun _ => 1) v =
        (if ((v : ℕ) : Int) = n then 1 else 0) - (if ((v : ℕ) : Int) = 0 then 1 else 0) := by
      intro v
      have : sc.B1.mulVec (fun _ => 1) v = ∑ j : Fin sc.E, sc.B1 v j * 1 := rfl
      rw [this, ← path_telescope n]
      have hs := sum_list_fin sc.edges (fun e => ((if ((v : ℕ) : Int) = e.2 then (1 : ℝ) else 0) -
        (if ((v : ℕ) : Int) = e.1 then 1 else 0)))
      rw [h2] at hs
      simp only [pathEdges, List.map_map] at hs
      have hs' : (List.range n).map ((fun e : Edge => ((if ((v : ℕ) : Int) = e.2 then (1 : ℝ) else 0) -
        (if ((v : ℕ) : Int) = e.1 then 1 else 0))) ∘ fun i : ℕ => ((i : Int), (i : Int) + 1)) =
        (List.range n).map fun i : ℕ => ((if ((v : ℕ) : Int) = (i : Int) + 1 then (1 : ℝ) else 0) -
      (if ((v : ℕ) : Int) = (i : Int) then 1 else 0)) := rfl
      rw [← hs', ← List.map_map]
      have hpe : (List.range n).map (fun i : ℕ => ((i : Int), (i : Int) + 1)) = sc.edges := by
        rw [h2]; rfl
      rw [hpe, ← sum_list_fin]
      refine Finset.sum_congr rfl fun j _ => ?_
      rw [hw.built.b1_entry hw.inRange hw.noLoops, mul_one]
    have e3 : (fun _ : Fin sc.E => (1 : ℝ)) ⬝ᵥ sc.L1.mulVec (fun _ => 1) ≤ 2 := by
      rw [SC.L1, hU, add_zero, SC.L1l, ← mulVec_mulVec, dot_mulVec_transpose, transpose_transpose]
      have : sc.B1.mulVec (fun _ => 1) ⬝ᵥ sc.B1.mulVec (fun _ => 1) ≤
          ∑ v : Fin sc.N, ((if v = ⟨n, by simp only [SC.N] at hN ⊢; omega⟩ then (1 : ℝ) else 0) +
            (if v = ⟨0, by simp only [SC.N] at hN ⊢; omega⟩ then (1 : ℝ) else 0)) := by
        refine Finset.sum_le_sum fun v _ => ?_
        rw [e2]
        have c1 : (((v : ℕ) : Int) = n) ↔ v = ⟨n, by simp only [SC.N] at hN ⊢; omega⟩ := by
          rw [Fin.ext_iff]; simp only; omega
        have c2 : (((v : ℕ) : Int) = 0) ↔ v = ⟨0, by simp only [SC.N] at hN ⊢; omega⟩ := by
          rw [Fin.ext_iff]; simp only; omega
        simp only [c1, c2]
        split <;> split <;> norm_num
      refine this.trans ?_
      rw [Finset.sum_add_distrib]
      simp
      norm_num
    rw [e1] at hr
    have hn' : (2000 : ℝ) ≤ n := by exact_mod_cast hn
    linarith
  · -- and no unit vector is divergence free
    intro j hd
    have hz := nil _ hd
    have ho : eh.vecs.transpose * eh.vecs = 1 := by
      rw [← heq]
      exact sel_orth (A := (lib.eigh sc.E sc.L1).2 * diagonal _ * (lib.eigh sc.E sc.L1).2.transpose)
        ⟨iH.orth, by rw [Matrix.mul_assoc, iH.orth, Matrix.mul_one]⟩
    have h1 := congrFun (congrFun ho j) j
    have h2 : (eh.vecs.transpose * eh.vecs) j j =
      (fun k => eh.vecs k j) ⬝ᵥ (fun k => eh.vecs k j) := rfl
    rw [h2, hz, Matrix.one_apply_eq, zero_dotProduct] at h1
    exact zero_ne_one h1

/-- such paths exist, for every length -/
example : ∃ (n : ℕ) (sc : SC ℝ), 2000 ≤ n ∧ sc.WellFormed ∧ sc.nodes = pathNodes n ∧
    sc.edges = pathEdges n ∧ sc.triangles = [] := by
  obtain ⟨sc, h⟩ := path_wellFormed 2000
  exact ⟨2000, sc, le_refl _, h⟩

/-- C31, the part that holds: when no eigenvalue lies in (0, 1e-3], the eigenvectors returned span
exactly the harmonic space: they are harmonic, orthonormal, and every harmonic flow is a combination
of them.  Missing: complexes with an eigenvalue in (0, 1e-3], where the claim is false. -/
theorem C31_harmonic_space_partial (hw : sc.WellFormed) (hgap : NoSmallEigenvalue sc.L1 (1 / 1000))
    (hE : 0 < sc.E) : ∃ eh, sc.getComponentEigenpair lib "harmonic" = .ok eh ∧
      eh.vecs.transpose * eh.vecs = 1 ∧
      ∀ f : Fin sc.E → ℝ, (sc.getDivergence f = 0 ∧ sc.getCurl f = 0) ↔ ∃ a, eh.vecs.mulVec a = f := by
  have ht : machineEps ≤ 1 / 1000 := by unfold machineEps; norm_num
  obtain ⟨eh, ec, eg, he⟩ := EigParts.exists lib sc (1 / 1000) hE
  have hO := (C28_orthonormal hw _ ht hgap eh ec eg he).1
  have hk := (C28_kinds hw _ ht hgap eh ec eg he).1
  refine ⟨eh, he.harm, hO, fun f => ⟨?_, ?_⟩⟩
  · rintro ⟨h1, h2⟩
    have hp : HodgeParts lib sc f 0 0 f := C23_unique hw f 0 0 f (by simp) ⟨0, by simp⟩ ⟨0, by simp⟩ h1 h2
    obtain ⟨ah, ac, ag, -, h3, -⟩ := C30_embeddings hw hgap f 0 0 f hp eh ec eg he
    exact ⟨ah, h3⟩
  · rintro ⟨a, rfl⟩
    have key : ∀ {m : ℕ} (M : Matrix (Fin m) (Fin sc.E) ℝ),
        (∀ j, M.mulVec (fun k => eh.vecs k j) = 0) → M.mulVec (eh.vecs.mulVec a) = 0 := by
      intro m M hM
      have : M * eh.vecs = 0 := by
        ext i j
        exact congrFun (hM j) i
      rw [mulVec_mulVec, this, zero_mulVec]
    exact ⟨key sc.B1 fun j => (hk j).1, key sc.B2.transpose fun j => (hk j).2.1⟩

/-! ## C32 -/

/-- C32, failure: the method raises `AssertionError` on every complex. -/
theorem C32_method_always_raises (sc : SC ℝ) :
    sc.getTotalVariance lib = .error .assertionError := rfl

/-- C32, the part that holds: the free function on a dense symmetric positive semidefinite matrix
returns, for each eigenvector `u` of `get_eigendecomposition`, the quadratic form `uᵀ L u`, and this
is the eigenvalue belonging to `u`.  Missing: the method of `SimplicialComplex`, where the claim is
false. -/
theorem C32_total_variance_partial (A : Matrix (Fin n) (Fin n) ℝ) (hA : SymmPSD A) (hn : 0 < n) :
    ∃ U w r, getEigendecomposition lib (.ndarray A) = .ok (U, w) ∧
      Pytspl.getTotalVariance lib (.ndarray A) = .ok r ∧
      ∀ i, r i = (fun k => U k i) ⬝ᵥ A.mulVec (fun k => U k i) ∧
        A.mulVec (fun k => U k i) = r i • (fun k => U k i) ∧ |r i - w i| < machineEps := by
  have h := lib.isEig hA
  have hd := getEigendecomposition_dense lib hn A machineEps
  refine ⟨_, _, fun i => ((lib.eigh n A).2.transpose * A * (lib.eigh n A).2) i i, hd, ?_, fun i => ?_⟩
  · unfold Pytspl.getTotalVariance
    rw [hd]
    rfl
  · have e := h.diag_conj i (h.col_eig i)
    simp only [e]
    refine ⟨(h.quad i).symm, h.col_eig i, ?_⟩
    have hi := h.nonneg hA i
    simp only [abs_of_nonneg hi]
    split
    · rw [sub_zero, abs_of_nonneg hi]; assumption
    · simpa using machineEps_pos

end Pytspl
