import Verif.Model.LstsqFilters
import Verif.Props.Rcond
import Verif.Props.ExactFilters
import Verif.Props.FilterAccuracy

/-!
# Property C139: what the singular value cut-off costs in the polynomial designs
-/

namespace Pytspl

open Matrix Polynomial

variable {lib : NumLib} {sc : SC ℝ} {m n E L l : ℕ}

private theorem span_dot {A : Matrix (Fin m) (Fin n) ℝ} {V : Matrix (Fin n) (Fin n) ℝ} {s : Fin n → ℝ}
    (hI : IsEig (A.transpose * A) V fun i => s i ^ 2) (S : Finset (Fin n)) (c : Fin n → ℝ) :
    A.mulVec (∑ i ∈ S, c i • fun k => V k i) ⬝ᵥ A.mulVec (∑ i ∈ S, c i • fun k => V k i) =
      ∑ i ∈ S, s i ^ 2 * c i ^ 2 := by
  rw [dot_mulVec_transpose, mulVec_mulVec, mulVec_sum, sum_dotProduct]
  refine Finset.sum_congr rfl fun i hi => ?_
  rw [mulVec_smul, hI.col_eig i, smul_smul, smul_dotProduct, dotProduct_sum, Finset.sum_eq_single i]
  · rw [dotProduct_smul, hI.col_dot, if_pos rfl]
    simp only [smul_eq_mul]
    ring
  · intro j _ hj
    rw [dotProduct_smul, hI.col_dot, if_neg (Ne.symm hj), smul_zero]
  · exact fun h => absurd hi h

/-- The residual of a solution with cut-off against any other choice of the unknowns. -/
theorem LstsqRcond.residual {A : Matrix (Fin m) (Fin n) ℝ} {b : Fin m → ℝ} {rcond F : ℝ} {x : Fin n → ℝ}
    (h : LstsqRcond A b rcond x) (hr : 0 ≤ rcond) (hF0 : 0 ≤ F) (hF : ∑ i, ∑ j, A i j ^ 2 ≤ F ^ 2) (g : Fin n → ℝ) :
    norm2 (A.mulVec x - b) ≤ norm2 (A.mulVec g - b) + rcond * F * norm2 g := by
  obtain ⟨V, s, hs0, hV, hE, keep, hkeep, rfl⟩ := h
  have hI : IsEig (A.transpose * A) V fun i => s i ^ 2 := ⟨hV, hE⟩
  have hAV : ∀ i, A.mulVec (fun k => V k i) ⬝ᵥ A.mulVec (fun k => V k i) = s i ^ 2 := by
    intro i
    rw [dot_mulVec_transpose, mulVec_mulVec, hI.col_eig i, smul_dotProduct, hI.col_dot]
    simp
  have hsF : ∀ i, s i ≤ F := by
    intro i
    refine le_of_sq_le_sq ?_ hF0
    rw [← hAV i]
    refine le_trans ?_ hF
    refine Finset.sum_le_sum fun r _ => ?_
    have hcs := Finset.sum_mul_sq_le_sq_mul_sq Finset.univ (A r) (fun k => V k i)
    have h1 : ∑ k, V k i ^ 2 = 1 := by
      have := hI.col_dot i i
      simp only [if_true] at this
      rw [← this]
      exact Finset.sum_congr rfl fun k _ => sq _
    rw [h1, mul_one] at hcs
    calc A.mulVec (fun k => V k i) r * A.mulVec (fun k => V k i) r
        = (∑ k, A r k * V k i) ^ 2 := (sq _).symm
      _ ≤ _ := hcs
  have hdrop : ∀ i, i ∉ keep → s i ≤ rcond * F := by
    intro i hi
    rw [hkeep] at hi
    push Not at hi
    obtain ⟨j, hj⟩ := hi
    exact hj.trans (mul_le_mul_of_nonneg_left (hsF j) hr)
  have hkept : ∀ i, i ∈ keep → s i ^ 2 ≠ 0 := by
    intro i hi h0
    have := (hkeep i).mp hi i
    rw [pow_eq_zero_iff two_ne_zero] at h0
    rw [h0, mul_zero] at this
    exact lt_irrefl _ this
  set c : Fin n → ℝ := fun i => (fun k => V k i) ⬝ᵥ g with hc
  set a : Fin n → ℝ := fun i => ((fun k => V k i) ⬝ᵥ A.transpose.mulVec b) / s i ^ 2 with ha
  have hg : g = ∑ i, c i • fun k => V k i := hI.expand g
  set x := ∑ i ∈ keep, a i • fun k => V k i with hx
  set z := ∑ i ∈ keep, c i • fun k => V k i with hz
  set d := ∑ i ∈ keepᶜ, c i • fun k => V k i with hd
  have hzd : g = z + d := by rw [hg, hz, hd, Finset.sum_add_sum_compl]
  have horth : ∀ i ∈ keep, A.mulVec (fun k => V k i) ⬝ᵥ (A.mulVec x - b) = 0 := by
    intro i hi
    have e1 : A.mulVec (fun k => V k i) ⬝ᵥ b = a i * s i ^ 2 := by
      rw [dotProduct_comm, dot_mulVec_transpose, dotProduct_comm, ha, div_mul_cancel₀ _ (hkept i hi)]
    have e2 : A.mulVec (fun k => V k i) ⬝ᵥ A.mulVec x = a i * s i ^ 2 := by
      rw [dot_mulVec_transpose, mulVec_mulVec, hI.col_eig i, smul_dotProduct, hx, dotProduct_sum,
        Finset.sum_eq_single i]
      · rw [dotProduct_smul, hI.col_dot, if_pos rfl]
        simp only [smul_eq_mul]
        ring
      · intro j _ hj
        rw [dotProduct_smul, hI.col_dot, if_neg (Ne.symm hj), smul_zero]
      · exact fun h => absurd hi h
    rw [dotProduct_sub, e1, e2, sub_self]
  have hbest : norm2 (A.mulVec x - b) ≤ norm2 (A.mulVec z - b) := by
    have e : A.mulVec z - b = (A.mulVec x - b) + ∑ i ∈ keep, (c i - a i) • A.mulVec (fun k => V k i) := by
      have : z = x + ∑ i ∈ keep, (c i - a i) • fun k => V k i := by
        rw [hx, hz, ← Finset.sum_add_distrib]
        refine Finset.sum_congr rfl fun i _ => ?_
        rw [← add_smul]
        congr 1
        ring
      have e' : A.mulVec (∑ i ∈ keep, (c i - a i) • fun k => V k i) =
          ∑ i ∈ keep, (c i - a i) • A.mulVec (fun k => V k i) := by
        rw [mulVec_sum]
        exact Finset.sum_congr rfl fun i _ => mulVec_smul A (c i - a i) (fun k => V k i)
      rw [this, mulVec_add, e']
      abel
    have h0 : (A.mulVec x - b) ⬝ᵥ ∑ i ∈ keep, (c i - a i) • A.mulVec (fun k => V k i) = 0 := by
      rw [dotProduct_sum]
      refine Finset.sum_eq_zero fun i hi => ?_
      rw [dotProduct_smul, dotProduct_comm, horth i hi, smul_zero]
    refine Real.sqrt_le_sqrt ?_
    rw [e, dot_add_sq, h0]
    have := dot_self_nonneg (∑ i ∈ keep, (c i - a i) • A.mulVec (fun k => V k i))
    linarith
  have hAd : norm2 (A.mulVec d) ≤ rcond * F * norm2 g := by
    have hgg : g ⬝ᵥ g = ∑ i, c i ^ 2 := by
      conv_lhs => rw [hg]
      rw [sum_dotProduct]
      refine Finset.sum_congr rfl fun i _ => ?_
      rw [← hg, smul_dotProduct, sq]
      rfl
    refine Real.sqrt_le_iff.2 ⟨mul_nonneg (mul_nonneg hr hF0) (norm2_nonneg g), ?_⟩
    rw [hd, span_dot hI, mul_pow, norm2_sq, hgg, Finset.mul_sum]
    calc ∑ i ∈ keepᶜ, s i ^ 2 * c i ^ 2 ≤ ∑ i ∈ keepᶜ, (rcond * F) ^ 2 * c i ^ 2 := by
          refine Finset.sum_le_sum fun i hi => ?_
          exact mul_le_mul_of_nonneg_right (pow_le_pow_left₀ (hs0 i) (hdrop i (Finset.mem_compl.1 hi)) 2) (sq_nonneg _)
      _ ≤ ∑ i, (rcond * F) ^ 2 * c i ^ 2 :=
          Finset.sum_le_sum_of_subset_of_nonneg (Finset.subset_univ _) fun i _ _ => by positivity
  calc norm2 (A.mulVec x - b) ≤ norm2 (A.mulVec z - b) := hbest
    _ = norm2 ((A.mulVec g - b) + (-1 : ℝ) • A.mulVec d) := by
        rw [hzd, mulVec_add]
        congr 1
        rw [neg_one_smul]
        abel
    _ ≤ norm2 (A.mulVec g - b) + norm2 ((-1 : ℝ) • A.mulVec d) := norm2_add_le _ _
    _ ≤ _ := by
        rw [norm2_smul, abs_neg, abs_one, one_mul]
        linarith

/-- Nothing is put on a column which is zero. -/
theorem LstsqRcond.zero_column {A : Matrix (Fin m) (Fin n) ℝ} {b : Fin m → ℝ} {rcond : ℝ} {x : Fin n → ℝ}
    (h : LstsqRcond A b rcond x) {j : Fin n} (hj : ∀ i, A i j = 0) : x j = 0 := by
  obtain ⟨V, s, hs0, hV, hE, keep, hkeep, rfl⟩ := h
  have hI : IsEig (A.transpose * A) V fun i => s i ^ 2 := ⟨hV, hE⟩
  rw [Finset.sum_apply]
  refine Finset.sum_eq_zero fun i hi => ?_
  have hne : s i ^ 2 ≠ 0 := by
    intro h0
    have := (hkeep i).mp hi i
    rw [pow_eq_zero_iff two_ne_zero] at h0
    rw [h0, mul_zero] at this
    exact lt_irrefl _ this
  have h1 := congrFun (hI.col_eig i) j
  have h2 : (A.transpose * A).mulVec (fun k => V k i) j = 0 := by
    rw [← mulVec_mulVec]
    have : A.transpose.mulVec (A.mulVec fun k => V k i) j = ∑ r, A r j * A.mulVec (fun k => V k i) r := rfl
    rw [this]
    exact Finset.sum_eq_zero fun r _ => by rw [hj r, zero_mul]
  rw [h2] at h1
  have h3 : V j i = 0 := by
    rcases mul_eq_zero.1 h1.symm with g | g
    · exact absurd g hne
    · exact g
  simp [h3]

/-! ## C139 -/

/-- C139, the fit: pass `l` of a polynomial design stores a polynomial of the matrix of degree at most `l`, and no
polynomial of that degree comes closer to the targets by more than the cut-off times the size of the system times the size
of its coefficients. -/
theorem C139_fit {P H : Matrix (Fin E) (Fin E) ℝ} {f fEst : Fin E → ℝ} {ev al : Fin m → ℝ} (hl : l < L)
    (h : FilterPassRcond P f ev al L l H fEst) :
    ∃ p : ℝ[X], p.natDegree ≤ l ∧ H = aeval P p ∧ fEst = (aeval P p).mulVec f ∧
      ∀ q : ℝ[X], q.natDegree ≤ l →
        Real.sqrt (∑ i, (p.eval (ev i) - al i) ^ 2) ≤ Real.sqrt (∑ i, (q.eval (ev i) - al i) ^ 2) +
          machineEps * (max m L : ℕ) * Real.sqrt (∑ i, ∑ j ∈ Finset.range (l + 1), (ev i ^ j) ^ 2) *
            Real.sqrt (∑ j ∈ Finset.range (l + 1), q.coeff j ^ 2) := by
  obtain ⟨h, hh, rfl, rfl⟩ := h
  have hsys : (Matrix.of fun i (j : Fin L) => if (j : ℕ) ≤ l then ev i ^ (j : ℕ) else 0) = sysAt ev L (l + 1) := by
    refine Matrix.ext fun i j => ?_
    simp only [sysAt, Matrix.of_apply, Nat.lt_succ_iff]
  rw [hsys] at hh
  have hz : ∀ j : Fin L, l < j → h j = 0 := fun j hj => hh.zero_column fun i => by
    simp only [sysAt, Matrix.of_apply]
    rw [if_neg (by omega)]
  refine ⟨coefPoly h, ?_, buildFilter_eq P h, by rw [buildFilter_eq], ?_⟩
  · rw [coefPoly]
    refine natDegree_sum_le_of_forall_le _ _ fun i _ => ?_
    by_cases hi : (i : ℕ) ≤ l
    · exact (natDegree_C_mul_X_pow_le _ _).trans hi
    · rw [hz i (by omega)]; simp
  · intro q hq
    have e : ∀ v : Fin m → ℝ, norm2 v = Real.sqrt (∑ i, v i ^ 2) := fun v => by
      unfold norm2 dotProduct
      congr 1
      exact Finset.sum_congr rfl fun i _ => (sq (v i)).symm
    have hpe : ∀ i, (sysAt ev L (l + 1)).mulVec h i = (coefPoly h).eval (ev i) := by
      intro i
      rw [sys_mulVec, coefPoly, eval_finsetSum]
      refine Finset.sum_congr rfl fun j _ => ?_
      by_cases hj : (j : ℕ) < l + 1
      · simp [hj]
      · rw [hz j (by omega)]; simp
    have hqe : ∀ i, (sysAt ev L (l + 1)).mulVec (fun j => q.coeff j) i = q.eval (ev i) := by
      intro i
      rw [sys_mulVec, eval_eq_sum_range' (n := L) (by omega),
        Finset.sum_range fun j => q.coeff j * ev i ^ j]
      refine Finset.sum_congr rfl fun j _ => ?_
      by_cases hj : (j : ℕ) < l + 1
      · simp [hj]
      · rw [if_neg hj, coeff_eq_zero_of_natDegree_lt (by omega)]; simp
    have hcut : ∀ φ : ℕ → ℝ, ∑ j : Fin L, (if (j : ℕ) < l + 1 then φ j else 0) = ∑ j ∈ Finset.range (l + 1), φ j := by
      intro φ
      rw [← Finset.sum_range fun j => if j < l + 1 then φ j else 0,
        ← Finset.sum_subset (Finset.range_subset_range.2 (show l + 1 ≤ L by omega))]
      · exact Finset.sum_congr rfl fun j hj => if_pos (Finset.mem_range.1 hj)
      · intro j _ hj
        rw [if_neg (by simpa using hj)]
    have hr : 0 ≤ defaultRcond m L := by
      unfold defaultRcond machineEps
      positivity
    have := hh.residual hr (Real.sqrt_nonneg (∑ i, ∑ j ∈ Finset.range (l + 1), (ev i ^ j) ^ 2)) (le_of_eq (by
      rw [Real.sq_sqrt (by positivity)]
      refine Finset.sum_congr rfl fun i _ => ?_
      rw [← hcut fun j => (ev i ^ j) ^ 2]
      refine Finset.sum_congr rfl fun j _ => ?_
      simp only [sysAt, Matrix.of_apply]
      split_ifs <;> simp)) (fun j => q.coeff j)
    rw [e, e] at this
    simp only [Pi.sub_apply, hpe, hqe] at this
    have hn : norm2 (fun j : Fin L => q.coeff j) = Real.sqrt (∑ j ∈ Finset.range (l + 1), q.coeff j ^ 2) := by
      unfold norm2 dotProduct
      congr 1
      rw [← hcut fun j => q.coeff j ^ 2]
      refine Finset.sum_congr rfl fun j _ => ?_
      beta_reduce
      by_cases hj : (j : ℕ) < l + 1
      · rw [if_pos hj, sq]
      · rw [if_neg hj, coeff_eq_zero_of_natDegree_lt (by omega), mul_zero]
    rw [hn] at this
    exact this

private theorem sum_unique (l : List ℝ) (φ : ℝ → ℝ) :
    ∑ i : Fin (npUnique l).length, φ ((npUnique l)[i]) = ∑ x ∈ l.toFinset, φ x := by
  have h1 : ∑ i : Fin (npUnique l).length, φ ((npUnique l)[i]) = ((npUnique l).map φ).sum := by
    rw [← List.sum_ofFn]
    congr 1
    refine List.ext_getElem (by simp) fun i h1 h2 => by simp
  rw [h1, npUnique, ← List.sum_toFinset φ (Finset.sort_nodup _ _), Finset.sort_toFinset]

private theorem type_two_error {pChoice component : String} {P H : Matrix (Fin sc.E) (Fin sc.E) ℝ} {f fEst y : Fin sc.E → ℝ}
    {tol : ℝ} (hsel : component = "gradient" ∧ pChoice = "L1L" ∧ P = sc.L1l ∨ component = "curl" ∧ pChoice = "L1U" ∧ P = sc.L1u)
    (hP : sc.getPMatrix pChoice = .ok P) (hy : IsPassFlow lib sc pChoice f y)
    (ht : machineEps ≤ tol) (h0 : IsEigenvalue P 0) (hgap : ∀ lam, IsEigenvalue P lam → ¬ (0 < lam ∧ lam < tol))
    (hL : 0 < L) (h : LSFilter.TypeTwoRcond lib sc f component L tol H fEst)
    (q : ℝ[X]) (hq : q.natDegree < L) (hq0 : q.eval 0 = 0) (hq1 : ∀ lam, IsEigenvalue P lam → lam ≠ 0 → q.eval lam = 1) :
    norm2 (fEst - y) ≤ machineEps * (max P.charpoly.roots.toFinset.card L : ℕ) *
      Real.sqrt (∑ lam ∈ P.charpoly.roots.toFinset, ∑ j ∈ Finset.range L, (lam ^ j) ^ 2) *
      Real.sqrt (∑ j ∈ Finset.range L, q.coeff j ^ 2) * norm2 f := by
  obtain ⟨lap, U, w, hlap, hU, hpass⟩ := h
  have hlP : lap = P := by
    rcases hsel with ⟨rfl, -, rfl⟩ | ⟨rfl, -, rfl⟩ <;> rcases hlap with ⟨h1, h2⟩ | ⟨h1, h2⟩
    · exact h2
    · exact absurd h1 (by decide)
    · exact absurd h1 (by decide)
    · exact h2
  subst hlP
  have hps := getPMatrix_psd hP
  have hI := lib.isEig hps
  have key : ∀ l : List ℝ, (List.ofFn w).map (fun x => if |x| < tol then 0 else x) = l →
      FilterPassRcond lap f (fun i : Fin (npUnique l).length => (npUnique l)[i])
        (fun i => ([(0 : ℝ)] ++ List.replicate ((npUnique l).length - 1) 1)[(i : ℕ)]?.getD 0) L (L - 1) H fEst := by
    rintro l rfl
    exact hpass
  replace hpass := key _ (snap_twice hps ht hgap hU)
  set w0 := (lib.eigh sc.E lap).1 with hw0
  obtain ⟨i0, hi0⟩ : ∃ i, w0 i = 0 := by
    obtain ⟨v, hv, hv0⟩ := h0
    exact hI.mem_of_eigen hv hv0
  have hsu := npUnique_zero (l := List.ofFn w0) (by rw [List.mem_ofFn]; exact ⟨i0, hi0⟩)
    (by intro x hx; rw [List.mem_ofFn] at hx; obtain ⟨j, rfl⟩ := hx; exact hI.nonneg hps j)
  set ev := npUnique (List.ofFn w0) with hev
  have hal : ∀ i : Fin ev.length, ([(0 : ℝ)] ++ List.replicate (ev.length - 1) 1)[(i : ℕ)]?.getD 0 =
      if ev[i] = 0 then 0 else 1 := by
    rintro ⟨i, hi⟩
    have := hsu i hi
    simp only [Fin.getElem_fin, this]
    cases i with
    | zero => simp
    | succ j =>
      simp only [List.cons_append, List.nil_append, List.getElem?_cons_succ, Nat.add_eq_zero_iff,
        one_ne_zero, and_false, if_false]
      rw [List.getElem?_replicate, if_pos (by omega)]
      rfl
  have hmem : ∀ x, x ∈ ev ↔ ∃ i, w0 i = x := by intro x; simp [hev, npUnique]
  have hset : (List.ofFn w0).toFinset = lap.charpoly.roots.toFinset := by
    rw [hI.roots_eq]
    ext x
    simp
  have hlen : ev.length = lap.charpoly.roots.toFinset.card := card_unique hps
  have hsum : ∑ i : Fin ev.length, ∑ j ∈ Finset.range L, (ev[i] ^ j) ^ 2 =
      ∑ lam ∈ lap.charpoly.roots.toFinset, ∑ j ∈ Finset.range L, (lam ^ j) ^ 2 := by
    rw [← hset]
    exact sum_unique (List.ofFn w0) fun x => ∑ j ∈ Finset.range L, (x ^ j) ^ 2
  obtain ⟨p, -, rfl, rfl, hfit⟩ := C139_fit (by omega) hpass
  have hb := hfit q (by omega)
  rw [show L - 1 + 1 = L by omega, hsum] at hb
  have hq2 : ∑ i : Fin ev.length, (q.eval ev[i] - ([(0 : ℝ)] ++ List.replicate (ev.length - 1) 1)[(i : ℕ)]?.getD 0) ^ 2 = 0 := by
    refine Finset.sum_eq_zero fun i _ => ?_
    rw [hal i]
    obtain ⟨k, hk⟩ := (hmem _).1 (List.getElem_mem i.isLt)
    have hk' : ev[i] = w0 k := hk.symm
    rw [hk']
    by_cases hz : w0 k = 0
    · rw [if_pos hz, hz, hq0]; simp
    · rw [if_neg hz, hq1 _ ⟨_, hI.col_ne_zero k, hI.col_eig k⟩ hz]; simp
  have hmax : ((max ev.length L : ℕ) : ℝ) = (max lap.charpoly.roots.toFinset.card L : ℕ) := by rw [hlen]
  rw [hq2, Real.sqrt_zero, zero_add, hmax] at hb
  refine response_error hP (r := fun x => p.eval x) (fun lam v hv => aeval_eig _ p hv) hy fun lam hlam => ?_
  refine le_trans ?_ hb
  obtain ⟨v, hv, hv0⟩ := hlam
  obtain ⟨k, hk⟩ := hI.mem_of_eigen hv hv0
  obtain ⟨i, hi, he⟩ := List.getElem_of_mem ((hmem lam).2 ⟨k, hk⟩)
  refine Real.le_sqrt_of_sq_le ?_
  rw [sq_abs]
  have h1 := Finset.single_le_sum (f := fun i : Fin ev.length =>
    (p.eval ev[i] - ([(0 : ℝ)] ++ List.replicate (ev.length - 1) 1)[(i : ℕ)]?.getD 0) ^ 2)
    (fun i _ => sq_nonneg _) (Finset.mem_univ (⟨i, hi⟩ : Fin ev.length))
  beta_reduce at h1
  rw [hal ⟨i, hi⟩] at h1
  have h2 : ev[(⟨i, hi⟩ : Fin ev.length)] = lam := he
  rw [h2] at h1
  exact h1

/-- C139, gradient: with the solver's cut-off the estimate of the type-two design for the gradient is off by at most the
machine precision times the number of distinct eigenvalues (or the filter size, if that is larger), the size of the
fitted system and the size of the coefficients of an ideal filter, relative to the flow. -/
theorem C139_gradient {f fEst g : Fin sc.E → ℝ} {H : Matrix (Fin sc.E) (Fin sc.E) ℝ} {tol : ℝ}
    (hg : sc.getComponentFlow lib f "gradient" false = .ok g) (ht : machineEps ≤ tol) (h0 : IsEigenvalue sc.L1l 0)
    (hgap : ∀ lam, IsEigenvalue sc.L1l lam → ¬ (0 < lam ∧ lam < tol)) (hL : 0 < L)
    (h : LSFilter.TypeTwoRcond lib sc f "gradient" L tol H fEst)
    (q : ℝ[X]) (hq : q.natDegree < L) (hq0 : q.eval 0 = 0)
    (hq1 : ∀ lam, IsEigenvalue sc.L1l lam → lam ≠ 0 → q.eval lam = 1) :
    norm2 (fEst - g) ≤ machineEps * (max sc.L1l.charpoly.roots.toFinset.card L : ℕ) *
      Real.sqrt (∑ lam ∈ sc.L1l.charpoly.roots.toFinset, ∑ j ∈ Finset.range L, (lam ^ j) ^ 2) *
      Real.sqrt (∑ j ∈ Finset.range L, q.coeff j ^ 2) * norm2 f :=
  type_two_error (.inl ⟨rfl, rfl, rfl⟩) rfl (.inl ⟨rfl, hg⟩) ht h0 hgap hL h q hq hq0 hq1

/-- C139, curl. -/
theorem C139_curl {f fEst c : Fin sc.E → ℝ} {H : Matrix (Fin sc.E) (Fin sc.E) ℝ} {tol : ℝ}
    (hc : sc.getComponentFlow lib f "curl" false = .ok c) (ht : machineEps ≤ tol) (h0 : IsEigenvalue sc.L1u 0)
    (hgap : ∀ lam, IsEigenvalue sc.L1u lam → ¬ (0 < lam ∧ lam < tol)) (hL : 0 < L)
    (h : LSFilter.TypeTwoRcond lib sc f "curl" L tol H fEst)
    (q : ℝ[X]) (hq : q.natDegree < L) (hq0 : q.eval 0 = 0)
    (hq1 : ∀ lam, IsEigenvalue sc.L1u lam → lam ≠ 0 → q.eval lam = 1) :
    norm2 (fEst - c) ≤ machineEps * (max sc.L1u.charpoly.roots.toFinset.card L : ℕ) *
      Real.sqrt (∑ lam ∈ sc.L1u.charpoly.roots.toFinset, ∑ j ∈ Finset.range L, (lam ^ j) ^ 2) *
      Real.sqrt (∑ j ∈ Finset.range L, q.coeff j ^ 2) * norm2 f :=
  type_two_error (.inr ⟨rfl, rfl, rfl⟩) rfl (.inr (.inl ⟨rfl, hc⟩)) ht h0 hgap hL h q hq hq0 hq1

/-- Passes with the cut-off exist, for every system. -/
theorem FilterPassRcond.exists (P : Matrix (Fin E) (Fin E) ℝ) (f : Fin E → ℝ) (ev al : Fin m → ℝ) (L l : ℕ) :
    ∃ H fEst, FilterPassRcond P f ev al L l H fEst := by
  obtain ⟨h, hh⟩ := LstsqRcond.exists
    (Matrix.of fun i (j : Fin L) => if (j : ℕ) ≤ l then ev i ^ (j : ℕ) else 0) al (defaultRcond m L)
  exact ⟨_, _, h, hh, rfl, rfl⟩

/-- The hypotheses of `C139_gradient` hold for a filled triangle beside a hollow one, where the eigenvalues are 0 and 3:
with size 2 the estimate is off by at most three times the machine precision. -/
example (lib : NumLib) (f : Fin twoTri.E → ℝ) : ∃ g H fEst,
    twoTri.getComponentFlow lib f "gradient" false = .ok g ∧
    LSFilter.TypeTwoRcond lib twoTri f "gradient" 2 (1 / 10 ^ 6) H fEst ∧
    norm2 (fEst - g) ≤ 3 * machineEps * norm2 f := by
  obtain ⟨g, c, h, hp⟩ := HodgeParts.exists lib twoTri f
  have hU := getEigendecomposition_dense lib (show 0 < twoTri.E by decide) twoTri.L1l machineEps
  obtain ⟨H, fEst, hpass⟩ := FilterPassRcond.exists twoTri.L1l f
    (fun i : Fin (npUnique ((List.ofFn (fun i => if |(lib.eigh twoTri.E twoTri.L1l).1 i| < machineEps then 0 else
      (lib.eigh twoTri.E twoTri.L1l).1 i)).map fun x => if |x| < 1 / 10 ^ 6 then 0 else x)).length => (npUnique _)[i])
    (fun i => ([(0 : ℝ)] ++ List.replicate (_ - 1) 1)[(i : ℕ)]?.getD 0) 2 1
  have ht : LSFilter.TypeTwoRcond lib twoTri f "gradient" 2 (1 / 10 ^ 6) H fEst :=
    ⟨_, _, _, .inl ⟨rfl, rfl⟩, hU, hpass⟩
  refine ⟨g, H, fEst, hp.grad, ht, ?_⟩
  have hb := C139_gradient hp.grad (by unfold machineEps; norm_num) twoTri_lower_zero
    (fun lam hl hh => by
      rcases twoTri_lower hl with rfl | rfl
      · linarith [hh.1]
      · linarith [hh.2]) (by norm_num) ht (C (1 / 3) * X)
    ((natDegree_C_mul_le _ _).trans_lt (by rw [natDegree_X]; norm_num)) (by simp) (fun lam hl hne => by
      rcases twoTri_lower hl with rfl | rfl
      · exact absurd rfl hne
      · simp)
  have hsub : twoTri.L1l.charpoly.roots.toFinset ⊆ {0, 3} := by
    intro x hx
    have hI := lib.isEig (symmPSD_L1l twoTri)
    rw [hI.roots_eq] at hx
    simp only [Multiset.mem_toFinset, Multiset.mem_map, Finset.mem_val, Finset.mem_univ, true_and] at hx
    obtain ⟨i, rfl⟩ := hx
    rcases twoTri_lower ⟨_, hI.col_ne_zero i, hI.col_eig i⟩ with h | h <;> rw [h] <;> simp
  have h1 : max twoTri.L1l.charpoly.roots.toFinset.card 2 = 2 :=
    max_eq_right ((Finset.card_le_card hsub).trans Finset.card_le_two)
  have h2 : Real.sqrt (∑ lam ∈ twoTri.L1l.charpoly.roots.toFinset, ∑ j ∈ Finset.range 2, (lam ^ j) ^ 2) ≤ 4 := by
    refine Real.sqrt_le_iff.2 ⟨by norm_num, ?_⟩
    refine (Finset.sum_le_sum_of_subset_of_nonneg hsub fun _ _ _ => by positivity).trans ?_
    rw [Finset.sum_pair (by norm_num)]
    simp only [Finset.sum_range_succ, Finset.sum_range_zero]
    norm_num
  have h3 : Real.sqrt (∑ j ∈ Finset.range 2, (C (1 / 3 : ℝ) * X).coeff j ^ 2) = 1 / 3 := by
    simp only [Finset.sum_range_succ, Finset.sum_range_zero, coeff_C_mul, coeff_X_zero, coeff_X_one]
    rw [show (0 : ℝ) + (1 / 3 * 0) ^ 2 + (1 / 3 * 1) ^ 2 = (1 / 3) ^ 2 by norm_num, Real.sqrt_sq (by norm_num)]
  rw [h1, h3] at hb
  refine hb.trans (mul_le_mul_of_nonneg_right ?_ (norm2_nonneg f))
  have he := machineEps_pos
  push_cast
  nlinarith

end Pytspl
