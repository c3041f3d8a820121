import Verif.Model.PolyFilter
import Verif.Lemmas.LeastSquares
import Verif.Lemmas.Spectral
import Mathlib.LinearAlgebra.Lagrange
import Mathlib.Algebra.Polynomial.AlgebraMap
import Mathlib.Tactic.Linarith

/-!
# The polynomial fit of `_apply_filter`
-/

namespace Pytspl

open Matrix Polynomial

variable {E m L : ℕ}

/-- The polynomial with the given coefficients. -/
noncomputable def coefPoly (h : Fin L → ℝ) : ℝ[X] := ∑ i, C (h i) * X ^ (i : ℕ)

theorem buildFilter_eq (P : Matrix (Fin E) (Fin E) ℝ) (h : Fin L → ℝ) :
    buildFilter P h = aeval P (coefPoly h) := by
  have key : ∀ (l : List (Fin L)) (H : Matrix (Fin E) (Fin E) ℝ),
      l.foldl (fun H i => H + h i • P ^ (i : ℕ)) H = H + (l.map fun i => h i • P ^ (i : ℕ)).sum := by
    intro l
    induction l with
    | nil => simp
    | cons a l ih => intro H; simp [ih, add_assoc]
  rw [buildFilter, key, zero_add, coefPoly, map_sum, ← List.ofFn_eq_map, List.sum_ofFn]
  refine Finset.sum_congr rfl fun i _ => ?_
  simp [Algebra.smul_def]

/-- The system matrix after pass `l`. -/
noncomputable def sysAt (ev : Fin m → ℝ) (L k : ℕ) : Matrix (Fin m) (Fin L) ℝ :=
  Matrix.of fun i j => if (j : ℕ) < k then ev i ^ (j : ℕ) else 0

variable (lib : NumLib)

/-- The fitted coefficients of pass `l`. -/
noncomputable def coefAt (ev al : Fin m → ℝ) (L l : ℕ) : Fin L → ℝ :=
  lib.lstsq m L (sysAt ev L (l + 1)) al

/-- The fitted polynomial of pass `l`. -/
noncomputable def polyAt (ev al : Fin m → ℝ) (L l : ℕ) : ℝ[X] := coefPoly (coefAt lib ev al L l)

theorem sys_mulVec (ev : Fin m → ℝ) (k : ℕ) (x : Fin L → ℝ) (i : Fin m) :
    (sysAt ev L k).mulVec x i = ∑ j : Fin L, if (j : ℕ) < k then x j * ev i ^ (j : ℕ) else 0 := by
  have : (sysAt ev L k).mulVec x i = ∑ j, sysAt ev L k i j * x j := rfl
  rw [this]
  refine Finset.sum_congr rfl fun j _ => ?_
  simp only [sysAt, Matrix.of_apply]
  split_ifs <;> ring

/-- The least-norm solution puts nothing on the columns not yet filled. -/
theorem coefAt_zero (ev al : Fin m → ℝ) (l : ℕ) (j : Fin L) (hj : l < j) :
    coefAt lib ev al L l j = 0 := by
  set h := coefAt lib ev al L l with hh
  let x : Fin L → ℝ := fun j => if (j : ℕ) < l + 1 then h j else 0
  have hx : (sysAt ev L (l + 1)).mulVec x = (sysAt ev L (l + 1)).mulVec h := by
    funext i
    rw [sys_mulVec, sys_mulVec]
    refine Finset.sum_congr rfl fun j _ => ?_
    simp only [x]
    split_ifs <;> rfl
  have hle := lib.lstsq_least m L (sysAt ev L (l + 1)) al x hx
  change h ⬝ᵥ h ≤ x ⬝ᵥ x at hle
  have hsum : (∑ j, h j * h j) ≤ ∑ j, x j * x j := hle
  have hd : 0 ≤ ∑ j, (h j * h j - x j * x j) ∧ (∑ j, (h j * h j - x j * x j)) ≤ 0 := by
    constructor
    · refine Finset.sum_nonneg fun j _ => ?_
      simp only [x]
      split_ifs
      · simp
      · simpa using mul_self_nonneg (h j)
    · rw [Finset.sum_sub_distrib]; linarith
  have hz := (Finset.sum_eq_zero_iff_of_nonneg (fun j _ => by
      simp only [x]
      split_ifs
      · simp
      · simpa using mul_self_nonneg (h j))).1 (le_antisymm hd.2 hd.1) j (Finset.mem_univ j)
  simp only [x, if_neg (show ¬ (j : ℕ) < l + 1 by omega)] at hz
  simpa using hz

theorem polyAt_natDegree (ev al : Fin m → ℝ) (L l : ℕ) : (polyAt lib ev al L l).natDegree ≤ l := by
  rw [polyAt, coefPoly]
  refine natDegree_sum_le_of_forall_le _ _ fun i _ => ?_
  by_cases hi : (i : ℕ) ≤ l
  · exact (natDegree_C_mul_X_pow_le _ _).trans hi
  · rw [coefAt_zero lib ev al l i (by omega)]; simp

theorem polyAt_eval (ev al : Fin m → ℝ) (l : ℕ) (i : Fin m) :
    (polyAt lib ev al L l).eval (ev i) = (sysAt ev L (l + 1)).mulVec (coefAt lib ev al L l) i := by
  rw [sys_mulVec, polyAt, coefPoly, eval_finsetSum]
  refine Finset.sum_congr rfl fun j _ => ?_
  by_cases hj : (j : ℕ) < l + 1
  · simp [hj]
  · rw [coefAt_zero lib ev al l j (by omega)]; simp

theorem polyAt_min (ev al : Fin m → ℝ) {l : ℕ} (hl : l < L) (q : ℝ[X]) (hq : q.natDegree ≤ l) :
    ∑ i, ((polyAt lib ev al L l).eval (ev i) - al i) ^ 2 ≤ ∑ i, (q.eval (ev i) - al i) ^ 2 := by
  have h := lib.lstsq_min m L (sysAt ev L (l + 1)) al (fun j => q.coeff j)
  have e : ∀ v : Fin m → ℝ, v ⬝ᵥ v = ∑ i, v i ^ 2 := fun v =>
    Finset.sum_congr rfl fun i _ => (sq (v i)).symm
  rw [e, e] at h
  have hqe : ∀ i, (sysAt ev L (l + 1)).mulVec (fun j => q.coeff j) i = q.eval (ev i) := by
    intro i
    rw [sys_mulVec, eval_eq_sum_range' (n := L) (by omega),
      Finset.sum_range fun j => q.coeff j * ev i ^ j]
    refine Finset.sum_congr rfl fun j _ => ?_
    by_cases hj : (j : ℕ) < l + 1
    · simp [hj]
    · rw [if_neg hj, coeff_eq_zero_of_natDegree_lt (by omega)]; simp
  calc _ = _ := Finset.sum_congr rfl fun i _ => by rw [polyAt_eval]; rfl
    _ ≤ _ := h
    _ = _ := Finset.sum_congr rfl fun i _ => by simp only [Pi.sub_apply, hqe]

/-- Enough columns for the distinct nodes: the fit interpolates any consistent target. -/
theorem polyAt_exact (ev al : Fin m → ℝ) (φ : ℝ → ℝ) (hφ : ∀ i, al i = φ (ev i)) (hL : 0 < L)
    (hc : (Finset.univ.image ev).card ≤ L) (i : Fin m) :
    (polyAt lib ev al L (L - 1)).eval (ev i) = φ (ev i) := by
  let s := Finset.univ.image ev
  let q : ℝ[X] := Lagrange.interpolate s id φ
  have hinj : Set.InjOn (id : ℝ → ℝ) s := Function.injective_id.injOn
  have hq : q.natDegree ≤ L - 1 := by
    have := Lagrange.degree_interpolate_lt (r := φ) hinj
    by_cases h0 : q = 0
    · rw [h0]; simp
    · have := (natDegree_lt_iff_degree_lt h0).2 this
      have hc' : s.card ≤ L := hc
      omega
  have hqe : ∀ i, q.eval (ev i) = φ (ev i) := fun i =>
    Lagrange.eval_interpolate_at_node φ hinj (Finset.mem_image_of_mem ev (Finset.mem_univ i))
  have h := polyAt_min lib ev al (L := L) (l := L - 1) (by omega) q hq
  have h0 : ∑ i, (q.eval (ev i) - al i) ^ 2 = 0 := by
    refine Finset.sum_eq_zero fun i _ => ?_
    rw [hqe, hφ]; ring
  rw [h0] at h
  have hz := (Finset.sum_eq_zero_iff_of_nonneg fun i _ => sq_nonneg _).1
    (le_antisymm h (Finset.sum_nonneg fun i _ => sq_nonneg
      ((polyAt lib ev al L (L - 1)).eval (ev i) - al i))) i (Finset.mem_univ i)
  rw [← hφ]
  have := pow_eq_zero_iff (two_ne_zero) |>.1 hz
  linarith

theorem loop_eq (f fTrue : Fin E → ℝ) (P U : Matrix (Fin E) (Fin E) ℝ) (ev al : Fin m → ℝ) (k : ℕ)
    (hk : k ≤ L) :
    ((List.finRange L).take k).foldl (applyStep lib f fTrue P U ev al) ⟨0, none, [], []⟩ =
      ⟨sysAt ev L k,
        if k = 0 then none
        else some (aeval P (polyAt lib ev al L (k - 1)),
          (aeval P (polyAt lib ev al L (k - 1))).mulVec f),
        (List.range k).map fun l k => (U.transpose * aeval P (polyAt lib ev al L l) * U) k k,
        (List.range k).map fun l =>
          calculateErrorNRMSE ((aeval P (polyAt lib ev al L l)).mulVec f) fTrue⟩ := by
  induction k with
  | zero =>
    simp only [List.take_zero, List.foldl_nil, List.range_zero, List.map_nil, if_true]
    congr 1
  | succ k ih =>
    rw [List.take_succ_eq_append_getElem (by simpa using hk), List.foldl_append, ih (by omega)]
    have hget : (List.finRange L)[k]'(by simpa using hk) = ⟨k, by omega⟩ := by simp
    rw [hget, List.foldl_cons, List.foldl_nil, applyStep]
    have hs : (Matrix.of fun (i : Fin m) (j : Fin L) => if j = ⟨k, by omega⟩ then
        ev i ^ ((⟨k, by omega⟩ : Fin L) : ℕ) else sysAt ev L k i j) = sysAt ev L (k + 1) := by
      ext i j
      simp only [Matrix.of_apply, sysAt, Fin.ext_iff]
      by_cases h1 : (j : ℕ) = k
      · simp [h1]
      · by_cases h2 : (j : ℕ) < k
        · simp [h1, h2, show (j : ℕ) < k + 1 by omega]
        · simp [h1, h2, show ¬ (j : ℕ) < k + 1 by omega]
    simp only [hs, buildFilter_eq, List.range_succ, List.map_append, List.map_cons, List.map_nil]
    rfl

/-- What a successful `_apply_filter` returns. -/
theorem applyFilter_eq (f fTrue : Fin E → ℝ) (P U : Matrix (Fin E) (Fin E) ℝ) (eigenvals alpha : List ℝ)
    (L : Int) (hL : 0 < L) (hlen : alpha.length = eigenvals.length) :
    applyFilter lib f fTrue P U eigenvals alpha L =
      .ok ⟨aeval P (polyAt lib (fun i : Fin eigenvals.length => eigenvals[i])
          (fun i => alpha[(i : ℕ)]?.getD 0) L.toNat (L.toNat - 1)),
        (aeval P (polyAt lib (fun i : Fin eigenvals.length => eigenvals[i])
          (fun i => alpha[(i : ℕ)]?.getD 0) L.toNat (L.toNat - 1))).mulVec f,
        (List.range L.toNat).map fun l k => (U.transpose * aeval P (polyAt lib
          (fun i : Fin eigenvals.length => eigenvals[i])
          (fun i => alpha[(i : ℕ)]?.getD 0) L.toNat l) * U) k k,
        (List.range L.toNat).map fun l => calculateErrorNRMSE ((aeval P (polyAt lib
          (fun i : Fin eigenvals.length => eigenvals[i])
          (fun i => alpha[(i : ℕ)]?.getD 0) L.toNat l)).mulVec f) fTrue⟩ := by
  have h := loop_eq lib f fTrue P U (fun i : Fin eigenvals.length => eigenvals[i])
    (fun i => alpha[(i : ℕ)]?.getD 0) L.toNat le_rfl
  rw [List.take_of_length_le (by simp)] at h
  rw [applyFilter, if_neg (by omega), if_neg (by omega), if_neg (by simpa using hlen)]
  simp only [h, if_neg (show ¬ L.toNat = 0 by omega)]

theorem applyFilter_pos {f fTrue : Fin E → ℝ} {P U : Matrix (Fin E) (Fin E) ℝ}
    {eigenvals alpha : List ℝ} {L : Int} {a : Applied E}
    (h : applyFilter lib f fTrue P U eigenvals alpha L = .ok a) :
    0 < L ∧ alpha.length = eigenvals.length := by
  unfold applyFilter at h
  split_ifs at h with h1 h2 h3
  exact ⟨by omega, by simpa using h3⟩

theorem IsEig.aeval_mul {A U : Matrix (Fin E) (Fin E) ℝ} {w : Fin E → ℝ} (h : IsEig A U w) (p : ℝ[X]) :
    aeval A p * U = U * diagonal fun i => p.eval (w i) := by
  induction p using Polynomial.induction_on with
  | C a =>
    rw [aeval_C, Algebra.algebraMap_eq_smul_one, smul_mul_assoc, one_mul]
    ext i j; simp [Matrix.mul_diagonal, mul_comm]
  | add p q hp hq =>
    rw [map_add, add_mul, hp, hq, ← mul_add, diagonal_add]
    simp
  | monomial n a ih =>
    rw [pow_succ, ← mul_assoc, map_mul, aeval_X, mul_assoc, h.eig, ← mul_assoc, ih, mul_assoc,
      diagonal_mul_diagonal]
    simp [mul_assoc]

theorem IsEig.aeval_diag {A U : Matrix (Fin E) (Fin E) ℝ} {w : Fin E → ℝ} (h : IsEig A U w) (p : ℝ[X])
    (k : Fin E) : (U.transpose * aeval A p * U) k k = p.eval (w k) := by
  rw [mul_assoc, h.aeval_mul, ← mul_assoc, h.orth, one_mul, diagonal_apply_eq]

end Pytspl
