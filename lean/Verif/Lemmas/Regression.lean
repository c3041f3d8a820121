import Verif.Props.Operators
import Verif.Lemmas.LeastSquares
import Mathlib.LinearAlgebra.Matrix.NonsingularInverse
import Mathlib.Tactic.LinearCombination

/-!
# Linear algebra of Gaussian regression
-/

namespace Pytspl

open Matrix

variable {E n p : ℕ}

theorem posDef_inv {A : Matrix (Fin n) (Fin n) ℝ} (h : ∀ x, x ≠ 0 → 0 < x ⬝ᵥ A.mulVec x) : A * A⁻¹ = 1 ∧ A⁻¹ * A = 1 := by
  have hu : IsUnit A := by
    rw [← mulVec_injective_iff_isUnit]
    intro x y hxy
    by_contra hne
    have hd : x - y ≠ 0 := sub_ne_zero.mpr hne
    have := h _ hd
    have h0 : A.mulVec (x - y) = 0 := by rw [mulVec_sub]; exact sub_eq_zero.mpr hxy
    rw [h0, dotProduct_zero] at this
    exact lt_irrefl _ this
  have hd := (isUnit_iff_isUnit_det A).mp hu
  exact ⟨mul_nonsing_inv A hd, nonsing_inv_mul A hd⟩

/-- covariance matrix of the observations at the inputs `i` -/
def obsCov (K : Matrix (Fin E) (Fin E) ℝ) (s : ℝ) (i : Fin n → Fin E) : Matrix (Fin n) (Fin n) ℝ :=
  Matrix.of (fun a b => K (i a) (i b)) + s • 1

variable {K : Matrix (Fin E) (Fin E) ℝ} {s : ℝ} {i : Fin n → Fin E}

/-- the vector over all edges that has value `x a` at edge `j a` -/
def spread (j : Fin p → Fin E) (x : Fin p → ℝ) : Fin E → ℝ := fun e => ∑ a, if j a = e then x a else 0

theorem spread_dot (j : Fin p → Fin E) (x : Fin p → ℝ) (v : Fin E → ℝ) : spread j x ⬝ᵥ v = ∑ a, x a * v (j a) := by
  simp only [dotProduct, spread, Finset.sum_mul]
  rw [Finset.sum_comm]
  refine Finset.sum_congr rfl fun a _ => ?_
  rw [Finset.sum_eq_single (j a)]
  · simp
  · intro e _ he
    rw [if_neg (fun h => he h.symm), zero_mul]
  · simp

theorem spread_quad (j : Fin p → Fin E) (k : Fin n → Fin E) (x : Fin p → ℝ) (y : Fin n → ℝ) :
    spread j x ⬝ᵥ K.mulVec (spread k y) = x ⬝ᵥ (Matrix.of fun a b => K (j a) (k b)).mulVec y := by
  rw [spread_dot]
  simp only [dotProduct]
  refine Finset.sum_congr rfl fun a _ => ?_
  congr 1
  change K (j a) ⬝ᵥ spread k y = _
  rw [dotProduct_comm, spread_dot]
  simp only [mulVec, dotProduct, of_apply]
  refine Finset.sum_congr rfl fun b _ => mul_comm _ _

theorem obsCov_quad (w : Fin n → ℝ) : w ⬝ᵥ (obsCov K s i).mulVec w =
    w ⬝ᵥ (Matrix.of fun a b => K (i a) (i b)).mulVec w + s * (w ⬝ᵥ w) := by
  unfold obsCov
  rw [add_mulVec, dotProduct_add, smul_mulVec, one_mulVec, dotProduct_smul, smul_eq_mul]

theorem slice_nonneg (hK : SymmPSD K) (w : Fin n → ℝ) : 0 ≤ w ⬝ᵥ (Matrix.of fun a b => K (i a) (i b)).mulVec w := by
  rw [← spread_quad]
  exact hK.2 _

theorem dot_self_pos {w : Fin n → ℝ} (h : w ≠ 0) : 0 < w ⬝ᵥ w := by
  rcases (dot_self_nonneg w).lt_or_eq with h1 | h1
  · exact h1
  · exact absurd (dotProduct_self_eq_zero.mp h1.symm) h

theorem obsCov_inv (hK : SymmPSD K) (hs : 0 < s) (i : Fin n → Fin E) :
    obsCov K s i * (obsCov K s i)⁻¹ = 1 ∧ (obsCov K s i)⁻¹ * obsCov K s i = 1 := by
  refine posDef_inv fun x hx => ?_
  rw [obsCov_quad]
  have h1 := slice_nonneg (i := i) hK x
  have h2 := mul_pos hs (dot_self_pos hx)
  linarith

theorem obsCov_symm (hK : SymmPSD K) (s : ℝ) (i : Fin n → Fin E) : (obsCov K s i).transpose = obsCov K s i := by
  unfold obsCov
  rw [transpose_add, transpose_smul, transpose_one]
  congr 1
  ext a b
  exact congrFun (congrFun hK.1 (i a)) (i b)

theorem obsCov_inv_symm (hK : SymmPSD K) (s : ℝ) (i : Fin n → Fin E) :
    ((obsCov K s i)⁻¹).transpose = (obsCov K s i)⁻¹ := by
  rw [transpose_nonsing_inv, obsCov_symm hK]

/-- covariances of the observations with edge `e` -/
def crossCov (K : Matrix (Fin E) (Fin E) ℝ) (i : Fin n → Fin E) (e : Fin E) : Fin n → ℝ := fun a => K (i a) e

/-- the weights of the observations in the prediction at edge `e` -/
noncomputable def weights (K : Matrix (Fin E) (Fin E) ℝ) (s : ℝ) (i : Fin n → Fin E) (e : Fin E) : Fin n → ℝ :=
  (obsCov K s i)⁻¹.mulVec (crossCov K i e)

/-- expected squared error of predicting the value at `e` by the weighted sum of the observations -/
def expErr (K : Matrix (Fin E) (Fin E) ℝ) (s : ℝ) (i : Fin n → Fin E) (e : Fin E) (w : Fin n → ℝ) : ℝ :=
  K e e - 2 * (w ⬝ᵥ crossCov K i e) + w ⬝ᵥ (obsCov K s i).mulVec w

theorem obsCov_weights (hK : SymmPSD K) (hs : 0 < s) (e : Fin E) :
    (obsCov K s i).mulVec (weights K s i e) = crossCov K i e := by
  unfold weights
  rw [mulVec_mulVec, (obsCov_inv hK hs i).1, one_mulVec]

theorem dot_symm {A : Matrix (Fin n) (Fin n) ℝ} (h : A.transpose = A) (x y : Fin n → ℝ) :
    x ⬝ᵥ A.mulVec y = y ⬝ᵥ A.mulVec x := by
  rw [dotProduct_mulVec, ← mulVec_transpose, h, dotProduct_comm]

theorem expErr_expand (hK : SymmPSD K) (hs : 0 < s) (e : Fin E) (w : Fin n → ℝ) :
    expErr K s i e w = expErr K s i e (weights K s i e) +
      (w - weights K s i e) ⬝ᵥ (obsCov K s i).mulVec (w - weights K s i e) := by
  have h1 := obsCov_weights (i := i) hK hs e
  have h2 := dot_symm (obsCov_symm hK s i) (weights K s i e) w
  unfold expErr
  rw [mulVec_sub, dotProduct_sub, sub_dotProduct, sub_dotProduct, h2, h1]
  ring

theorem expErr_min (hK : SymmPSD K) (hs : 0 < s) (e : Fin E) (w : Fin n → ℝ) :
    expErr K s i e (weights K s i e) ≤ expErr K s i e w := by
  rw [expErr_expand hK hs e w, obsCov_quad]
  have h1 := slice_nonneg (i := i) hK (w - weights K s i e)
  have h2 := mul_nonneg hs.le (dot_self_nonneg (w - weights K s i e))
  linarith

theorem expErr_weights (hK : SymmPSD K) (hs : 0 < s) (e : Fin E) :
    expErr K s i e (weights K s i e) = K e e - crossCov K i e ⬝ᵥ (obsCov K s i)⁻¹.mulVec (crossCov K i e) := by
  unfold expErr
  rw [obsCov_weights hK hs, dotProduct_comm]
  unfold weights
  ring

/-- posterior covariance of the values at the edges `j` -/
noncomputable def postCov (K : Matrix (Fin E) (Fin E) ℝ) (s : ℝ) (i : Fin n → Fin E) (j : Fin p → Fin E) :
    Matrix (Fin p) (Fin p) ℝ :=
  Matrix.of (fun a b => K (j a) (j b)) -
    Matrix.of (fun a b => K (j a) (i b)) * (obsCov K s i)⁻¹ * (Matrix.of fun a b => K (j a) (i b)).transpose

theorem postCov_quad (hK : SymmPSD K) (hs : 0 < s) (i : Fin n → Fin E) (j : Fin p → Fin E) (x : Fin p → ℝ) :
    0 ≤ x ⬝ᵥ (postCov K s i j).mulVec x ∧
    x ⬝ᵥ (postCov K s i j).mulVec x ≤ x ⬝ᵥ (Matrix.of fun a b => K (j a) (j b)).mulVec x := by
  set C : Matrix (Fin p) (Fin n) ℝ := Matrix.of fun a b => K (j a) (i b) with hC
  set k : Fin n → ℝ := C.transpose.mulVec x with hk
  set v : Fin n → ℝ := (obsCov K s i)⁻¹.mulVec k with hv
  have e1 : x ⬝ᵥ (postCov K s i j).mulVec x =
      x ⬝ᵥ (Matrix.of fun a b => K (j a) (j b)).mulVec x - k ⬝ᵥ v := by
    unfold postCov
    rw [sub_mulVec, dotProduct_sub, ← mulVec_mulVec, ← mulVec_mulVec, ← hC, ← hk, ← hv]
    congr 1
    rw [dotProduct_mulVec, ← mulVec_transpose]
  have e2 : (obsCov K s i).mulVec v = k := by
    rw [hv, mulVec_mulVec, (obsCov_inv hK hs i).1, one_mulVec]
  have e3 : k ⬝ᵥ v = v ⬝ᵥ (Matrix.of fun a b => K (i a) (i b)).mulVec v + s * (v ⬝ᵥ v) := by
    rw [← obsCov_quad, e2, dotProduct_comm]
  have e4 := hK.2 (spread j x - spread i v)
  rw [mulVec_sub, dotProduct_sub, sub_dotProduct, sub_dotProduct, spread_quad, spread_quad, spread_quad, spread_quad]
    at e4
  have e5 : x ⬝ᵥ (Matrix.of fun a b => K (j a) (i b)).mulVec v = k ⬝ᵥ v := by
    rw [dotProduct_mulVec, ← mulVec_transpose]
  have e6 : v ⬝ᵥ (Matrix.of fun a b => K (i a) (j b)).mulVec x = k ⬝ᵥ v := by
    have : (Matrix.of fun a b => K (i a) (j b)) = C.transpose := by
      ext a b
      exact (congrFun (congrFun hK.1 (i a)) (j b)).symm
    rw [this, dotProduct_comm]
  rw [e5, e6] at e4
  have h1 := slice_nonneg (i := i) hK v
  have h2 := mul_nonneg hs.le (dot_self_nonneg v)
  rw [e1]
  constructor <;> linarith

theorem postCov_symm (hK : SymmPSD K) (s : ℝ) (i : Fin n → Fin E) (j : Fin p → Fin E) :
    (postCov K s i j).transpose = postCov K s i j := by
  unfold postCov
  rw [transpose_sub, transpose_mul, transpose_mul, transpose_transpose, obsCov_inv_symm hK, Matrix.mul_assoc]
  congr 1
  ext a b
  exact congrFun (congrFun hK.1 (j a)) (j b)

theorem postCov_diag (hK : SymmPSD K) (hs : 0 < s) (i : Fin n → Fin E) (j : Fin p → Fin E) (a : Fin p) :
    postCov K s i j a a = expErr K s i (j a) (weights K s i (j a)) := by
  rw [expErr_weights hK hs]
  unfold postCov
  rw [Matrix.sub_apply, of_apply, Matrix.mul_assoc, mul_apply]
  congr 1
  simp only [dotProduct]
  refine Finset.sum_congr rfl fun b _ => ?_
  have hsym : ∀ c, K (j a) (i c) = crossCov K i (j a) c := fun c => congrFun (congrFun hK.1 (i c)) (j a)
  congr 1
  · exact hsym b
  · rw [mul_apply]
    refine Finset.sum_congr rfl fun c _ => ?_
    rw [transpose_apply, of_apply, hsym]

/-- more observations never increase the error of the best prediction -/
theorem expErr_mono (hK : SymmPSD K) (hs : 0 < s) {n' : ℕ} (i : Fin n → Fin E) (i' : Fin n' → Fin E)
    (g : Fin n → Fin n') (hg : Function.Injective g) (hi : ∀ a, i' (g a) = i a) (e : Fin E) :
    expErr K s i' e (weights K s i' e) ≤ expErr K s i e (weights K s i e) := by
  classical
  set w := weights K s i e
  set w' : Fin n' → ℝ := fun b => ∑ a, if g a = b then w a else 0 with hw'
  refine (expErr_min hK hs e w').trans (le_of_eq ?_)
  have d : ∀ v : Fin n' → ℝ, w' ⬝ᵥ v = ∑ a, w a * v (g a) := fun v => spread_dot g w v
  have hwg : ∀ a, w' (g a) = w a := by
    intro a
    rw [hw']
    simp only
    rw [Finset.sum_eq_single a]
    · simp
    · intro b _ hb
      rw [if_neg fun h => hb (hg h)]
    · simp
  unfold expErr
  rw [obsCov_quad, obsCov_quad, d, d w']
  have h1 : (∑ a, w a * crossCov K i' e (g a)) = w ⬝ᵥ crossCov K i e := by
    simp only [dotProduct, crossCov, hi]
  have h2 : (∑ a, w a * w' (g a)) = w ⬝ᵥ w := by simp only [dotProduct, hwg]
  have h3 : w' ⬝ᵥ (Matrix.of fun a b => K (i' a) (i' b)).mulVec w' =
      w ⬝ᵥ (Matrix.of fun a b => K (i a) (i b)).mulVec w := by
    rw [d]
    simp only [dotProduct]
    refine Finset.sum_congr rfl fun a _ => ?_
    congr 1
    change (fun b => K (i' (g a)) (i' b)) ⬝ᵥ w' = (fun b => K (i a) (i b)) ⬝ᵥ w
    rw [dotProduct_comm, d, dotProduct_comm]
    simp only [hi, dotProduct]
  rw [h1, h2, h3]

end Pytspl
