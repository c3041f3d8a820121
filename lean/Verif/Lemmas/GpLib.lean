import Verif.Model.GaussianProcess
import Verif.Lemmas.EigSelect
import Verif.Lemmas.PyList
import Mathlib.Tactic.Linarith
import Mathlib.Tactic.FieldSimp
import Mathlib.Tactic.Ring

/-!
# Facts about the kernels of the Gaussian process
-/

namespace Pytspl

open Matrix

theorem softplus_pos (x : ℝ) : 0 < softplus x := by
  unfold softplus
  exact Real.log_pos (by linarith [Real.exp_pos x])

theorem softplus_invSoftplus {v : ℝ} (hv : 0 < v) : softplus (invSoftplus v) = v := by
  have h1 : 0 < -(Real.exp (-v) - 1) := by
    have : Real.exp (-v) < 1 := by rw [← Real.exp_zero]; exact Real.exp_lt_exp.2 (by linarith)
    linarith
  have h2 : 1 + Real.exp (invSoftplus v) = Real.exp v := by
    unfold invSoftplus
    rw [Real.exp_add, Real.exp_log h1]
    have : Real.exp v * Real.exp (-v) = 1 := by rw [← Real.exp_add]; simp
    nlinarith
  rw [softplus, h2, Real.log_exp]

variable {E : ℕ}

theorem GpKernel.val_pos (k : GpKernel E) (name : String) : 0 < k.val name := softplus_pos _

theorem GpKernel.weight_pos (k : GpKernel E) (part : Fin 3) : 0 < k.weight part := by
  unfold GpKernel.weight
  split <;> first | exact k.val_pos _ | norm_num

/-- the density as a number -/
noncomputable def GpKernel.kap (k : GpKernel E) (part : Fin 3) (lam : ℝ) : ℝ := (k.density part lam).getD 0

theorem GpKernel.density_some (k : GpKernel E) (part : Fin 3) {lam : ℝ} (h0 : 0 ≤ lam)
    (h1 : part = 0 ∨ 0 < lam) : k.density part lam = some (k.kap part lam) ∧ 0 < k.kap part lam := by
  have base : ∀ a b : String, 0 < 2 * k.val a / k.val b / k.val b + lam := fun a b =>
    add_pos_of_pos_of_nonneg (div_pos (div_pos (mul_pos two_pos (k.val_pos _)) (k.val_pos _)) (k.val_pos _)) h0
  have key : ∀ o : Option ℝ, (∃ v, o = some v ∧ 0 < v) → o = some (o.getD 0) ∧ 0 < o.getD 0 := by
    rintro o ⟨v, rfl, hv⟩; exact ⟨rfl, hv⟩
  apply key
  unfold GpKernel.density
  split
  · exact ⟨_, rfl, Real.exp_pos _⟩
  · exact ⟨_, rfl, Real.exp_pos _⟩
  · exact ⟨_, rfl, Real.exp_pos _⟩
  · exact ⟨_, rfl, Real.exp_pos _⟩
  · exact ⟨_, rfl, Real.exp_pos _⟩
  · exact ⟨_, rfl, Real.exp_pos _⟩
  · exact ⟨_, rfl, k.val_pos _⟩
  · rw [torchPow, if_neg (not_le.2 (base _ _))]
    exact ⟨_, rfl, Real.rpow_pos_of_pos (base _ _) _⟩
  · rw [torchPow, if_neg (not_le.2 (base _ _))]
    exact ⟨_, rfl, Real.rpow_pos_of_pos (base _ _) _⟩
  · rw [torchPow, if_neg (not_le.2 (base _ _))]
    exact ⟨_, rfl, Real.rpow_pos_of_pos (base _ _) _⟩
  · have : (0 : ℝ) < 1 / 1000 + lam := by linarith
    rw [fdiv, if_neg this.ne']
    exact ⟨_, rfl, by positivity⟩
  · have : 0 < lam := by
      rcases h1 with h | h
      · simp_all
      · exact h
    rw [fdiv, if_neg this.ne']
    exact ⟨_, rfl, by positivity⟩

theorem finiteVec_some {m : ℕ} {v : Fin m → Option ℝ} {u : Fin m → ℝ} (h : ∀ j, v j = some (u j)) :
    finiteVec v = .ok u := by
  unfold finiteVec
  rw [if_pos (fun j => by rw [h]; rfl)]
  congr 1
  funext j
  rw [h]; rfl

/-! ## Where the eigenpairs come from -/

/-- the values after replacing tiny ones by 0 -/
noncomputable def snapVals {n : ℕ} (w : Fin n → ℝ) : Fin n → ℝ := fun i => if |w i| < machineEps then 0 else w i

theorem gpEigenpairs_eq (lib : NumLib) (sc : SC ℝ) (hE : 0 < sc.E) (tol : ℝ) :
    sc.gpEigenpairs lib tol = .ok
      ⟨selectPairs (lib.eigh _ sc.L1).2 (snapVals (lib.eigh _ sc.L1).1) (fun x => x ≤ tol),
        selectPairs (lib.eigh _ sc.L1l).2 (snapVals (lib.eigh _ sc.L1l).1) (fun x => tol < x),
        selectPairs (lib.eigh _ sc.L1u).2 (snapVals (lib.eigh _ sc.L1u).1) (fun x => tol ≤ x)⟩ := by
  have h1 : sc.getComponentEigenpair lib "harmonic" tol = .ok
      (selectPairs (lib.eigh _ sc.L1).2 (snapVals (lib.eigh _ sc.L1).1) (fun x => x ≤ tol)) := by
    simp only [SC.getComponentEigenpair, if_true, getHarmonicEigenpair, getEigendecomposition_dense lib hE]
    rfl
  have h2 : sc.getComponentEigenpair lib "gradient" tol = .ok
      (selectPairs (lib.eigh _ sc.L1l).2 (snapVals (lib.eigh _ sc.L1l).1) (fun x => tol < x)) := by
    rw [SC.getComponentEigenpair, if_neg (by decide), if_neg (by decide), if_pos rfl, getGradientEigenpair,
      getEigendecomposition_dense lib hE]
    rfl
  have h3 : sc.getComponentEigenpair lib "curl" tol = .ok
      (selectPairs (lib.eigh _ sc.L1u).2 (snapVals (lib.eigh _ sc.L1u).1) (fun x => tol ≤ x)) := by
    rw [SC.getComponentEigenpair, if_neg (by decide), if_pos rfl, getCurlEigenpair,
      getEigendecomposition_dense lib hE]
    rfl
  unfold SC.gpEigenpairs
  rw [h1, h2, h3]
  rfl

/-! ## Quadratic forms -/

theorem sandwich_symm {p : ℕ} (e : EigPairs E) (k : Fin e.num → ℝ) (i : Fin p → Fin E) :
    (sandwich e k i i).transpose = sandwich e k i i := by
  ext a b
  simp only [sandwich, transpose_apply, of_apply]
  exact Finset.sum_congr rfl fun j _ => by ring

theorem sandwich_quad {p : ℕ} (e : EigPairs E) (k : Fin e.num → ℝ) (i : Fin p → Fin E) (x : Fin p → ℝ) :
    x ⬝ᵥ (sandwich e k i i).mulVec x = ∑ j, k j * (∑ a, x a * e.vecs (i a) j) ^ 2 := by
  have h1 : x ⬝ᵥ (sandwich e k i i).mulVec x =
      ∑ a, x a * ∑ b, (∑ j, e.vecs (i a) j * k j * e.vecs (i b) j) * x b := rfl
  rw [h1]
  have h2 : ∀ j, k j * (∑ a, x a * e.vecs (i a) j) ^ 2 =
      ∑ a, ∑ b, x a * (e.vecs (i a) j * k j * e.vecs (i b) j * x b) := by
    intro j
    rw [pow_two, Finset.sum_mul_sum, Finset.mul_sum]
    refine Finset.sum_congr rfl fun a _ => ?_
    rw [Finset.mul_sum]
    exact Finset.sum_congr rfl fun b _ => by ring
  simp only [h2]
  rw [Finset.sum_comm]
  refine Finset.sum_congr rfl fun a _ => ?_
  rw [Finset.sum_comm, Finset.mul_sum]
  refine Finset.sum_congr rfl fun b _ => ?_
  rw [Finset.sum_mul, Finset.mul_sum]

/-- a selected sandwich applied to a flow -/
theorem sel_sandwich {n : ℕ} {U : Matrix (Fin n) (Fin n) ℝ} {w : Fin n → ℝ} {cond : ℝ → Prop}
    [DecidablePred cond] (kap : ℝ → ℝ) (f : Fin n → ℝ) :
    (sandwich (selectPairs U w cond) (fun j => kap ((selectPairs U w cond).vals j)) id id).mulVec f =
      ∑ i, if cond (w i) then (kap (w i) * U.transpose.mulVec f i) • (fun k => U k i) else 0 := by
  funext a
  have e : (sandwich (selectPairs U w cond) (fun j => kap ((selectPairs U w cond).vals j)) id id).mulVec f a =
      ∑ b, (∑ j : Fin (selIdx w cond).length,
        U a (selIdx w cond)[j] * kap (w (selIdx w cond)[j]) * U b (selIdx w cond)[j]) * f b := rfl
  have e2 : ∀ b, (∑ j : Fin (selIdx w cond).length,
        U a (selIdx w cond)[j] * kap (w (selIdx w cond)[j]) * U b (selIdx w cond)[j]) =
      ∑ i, if cond (w i) then U a i * kap (w i) * U b i else 0 := fun b =>
    sum_sel (fun i => U a i * kap (w i) * U b i)
  rw [e]
  simp only [e2, Finset.sum_mul, Finset.sum_apply]
  rw [Finset.sum_comm]
  refine Finset.sum_congr rfl fun i _ => ?_
  split
  · simp only [Pi.smul_apply, smul_eq_mul]
    have : U.transpose.mulVec f i = ∑ b, U b i * f b := rfl
    rw [this, Finset.mul_sum, Finset.sum_mul]
    exact Finset.sum_congr rfl fun b _ => by ring
  · simp

theorem IsEig.coef {n : ℕ} {A U : Matrix (Fin n) (Fin n) ℝ} {w : Fin n → ℝ} (h : IsEig A U w)
    (hA : A.transpose = A) {lam : ℝ} {f : Fin n → ℝ} (hf : A.mulVec f = lam • f) (i : Fin n) :
    U.transpose.mulVec f i = 0 ∨ w i = lam := by
  have h1 : (fun k => U k i) ⬝ᵥ A.mulVec f = w i * U.transpose.mulVec f i := by
    rw [dotProduct_mulVec, ← mulVec_transpose, hA, h.col_eig i, smul_dotProduct]
    rfl
  rw [hf, dotProduct_smul] at h1
  have h2 : (fun k => U k i) ⬝ᵥ f = U.transpose.mulVec f i := rfl
  rw [h2, smul_eq_mul] at h1
  by_cases h0 : U.transpose.mulVec f i = 0
  · exact .inl h0
  · right
    exact (mul_right_cancel₀ h0 h1).symm

theorem IsEig.expand_cols {n : ℕ} {A U : Matrix (Fin n) (Fin n) ℝ} {w : Fin n → ℝ} (h : IsEig A U w)
    (f : Fin n → ℝ) : ∑ i, (U.transpose.mulVec f i) • (fun k => U k i) = f := by
  have h1 : U.mulVec (U.transpose.mulVec f) = f := by rw [mulVec_mulVec, h.orth', one_mulVec]
  conv_rhs => rw [← h1]
  funext k
  have : U.mulVec (U.transpose.mulVec f) k = ∑ i, U k i * U.transpose.mulVec f i := rfl
  rw [this, Finset.sum_apply]
  exact Finset.sum_congr rfl fun i _ => by simp [mul_comm]

/-- eigenvectors whose eigenvalue is selected are multiplied by the density -/
theorem sel_sandwich_keep {n : ℕ} {A U : Matrix (Fin n) (Fin n) ℝ} {w : Fin n → ℝ} (h : IsEig A U w)
    (hA : A.transpose = A) {cond : ℝ → Prop} [DecidablePred cond] (kap : ℝ → ℝ) {lam : ℝ} {f : Fin n → ℝ}
    (hf : A.mulVec f = lam • f) (hl : lam = 0 ∨ machineEps ≤ |lam|) (hc : cond lam) :
    (sandwich (selectPairs U (snapVals w) cond)
      (fun j => kap ((selectPairs U (snapVals w) cond).vals j)) id id).mulVec f = kap lam • f := by
  rw [sel_sandwich]
  conv_rhs => rw [← h.expand_cols f, Finset.smul_sum]
  refine Finset.sum_congr rfl fun i _ => ?_
  rcases h.coef hA hf i with h0 | h0
  · rw [h0]; simp
  · have hs : snapVals w i = lam := by
      unfold snapVals
      rw [h0]
      rcases hl with rfl | hl
      · simp
      · rw [if_neg (not_lt.2 hl)]
    rw [hs, if_pos hc, smul_smul]

/-- eigenvectors whose eigenvalue is not selected are removed -/
theorem sel_sandwich_drop {n : ℕ} {A U : Matrix (Fin n) (Fin n) ℝ} {w : Fin n → ℝ} (h : IsEig A U w)
    (hA : A.transpose = A) {cond : ℝ → Prop} [DecidablePred cond] (kap : ℝ → ℝ) {lam : ℝ} {f : Fin n → ℝ}
    (hf : A.mulVec f = lam • f) (hl : lam = 0 ∨ machineEps ≤ |lam|) (hc : ¬ cond lam) :
    (sandwich (selectPairs U (snapVals w) cond)
      (fun j => kap ((selectPairs U (snapVals w) cond).vals j)) id id).mulVec f = 0 := by
  rw [sel_sandwich]
  refine Finset.sum_eq_zero fun i _ => ?_
  rcases h.coef hA hf i with h0 | h0
  · rw [h0]; simp
  · have hs : snapVals w i = lam := by
      unfold snapVals
      rw [h0]
      rcases hl with rfl | hl
      · simp
      · rw [if_neg (not_lt.2 hl)]
    rw [hs, if_neg hc]

end Pytspl
