import Verif.Model.NumLib
import Verif.Lemmas.LeastSquares
import Mathlib.Analysis.Matrix.Spectrum
import Mathlib.Analysis.InnerProductSpace.Projection.Basic

/-!
# The contract of `NumLib` can be met
-/

namespace Pytspl

open Matrix

/-- every symmetric real matrix has an ascending orthonormal eigendecomposition -/
theorem exists_eigh (n : ℕ) (A : Matrix (Fin n) (Fin n) ℝ) (hA : A.transpose = A) :
    ∃ (w : Fin n → ℝ) (U : Matrix (Fin n) (Fin n) ℝ), Monotone w ∧ U.transpose * U = 1 ∧
      A * U = U * diagonal w := by
  have hH : A.IsHermitian := by
    unfold Matrix.IsHermitian
    rw [conjTranspose_eq_transpose_of_trivial, hA]
  let σ := Tuple.sort hH.eigenvalues
  let V : Matrix (Fin n) (Fin n) ℝ := (hH.eigenvectorUnitary : Matrix (Fin n) (Fin n) ℝ)
  have hVV : V.transpose * V = 1 := by
    have := (Matrix.mem_unitaryGroup_iff').mp hH.eigenvectorUnitary.2
    rw [star_eq_conjTranspose, conjTranspose_eq_transpose_of_trivial] at this
    exact this
  have hAV : A * V = V * diagonal hH.eigenvalues := by
    ext i j
    have h1 := congrFun (hH.mulVec_eigenvectorBasis j) i
    rw [Matrix.mul_diagonal]
    rw [Matrix.mul_apply]
    have h2 : ∀ k, V k j = hH.eigenvectorBasis j k := fun k =>
      hH.eigenvectorUnitary_apply k j
    simp only [h2]
    simp only [Pi.smul_apply, smul_eq_mul] at h1
    rw [mul_comm, ← h1]
    rfl
  refine ⟨hH.eigenvalues ∘ σ, V.submatrix id σ, Tuple.monotone_sort _, ?_, ?_⟩
  · ext i j
    have := congrFun (congrFun hVV (σ i)) (σ j)
    rw [Matrix.mul_apply] at this ⊢
    simp only [Matrix.transpose_apply, Matrix.submatrix_apply, id] at this ⊢
    rw [this, Matrix.one_apply, Matrix.one_apply]
    simp
  · ext i j
    have := congrFun (congrFun hAV i) (σ j)
    rw [Matrix.mul_diagonal] at this ⊢
    rw [Matrix.mul_apply] at this ⊢
    exact this

/-- every least-squares problem has a minimiser of least norm -/
theorem exists_lstsq (m n : ℕ) (A : Matrix (Fin m) (Fin n) ℝ) (b : Fin m → ℝ) :
    ∃ x : Fin n → ℝ,
      (∀ y, (A.mulVec x - b) ⬝ᵥ (A.mulVec x - b) ≤ (A.mulVec y - b) ⬝ᵥ (A.mulVec y - b)) ∧
      ∀ y, A.mulVec y = A.mulVec x → x ⬝ᵥ x ≤ y ⬝ᵥ y := by
  -- decompose `b` along the range of `A`
  have orth : ∀ {k : ℕ} (S : Submodule ℝ (EuclideanSpace ℝ (Fin k))) (v : Fin k → ℝ),
      ∃ p : Fin k → ℝ, (WithLp.toLp 2 p) ∈ S ∧
        ∀ s : Fin k → ℝ, (WithLp.toLp 2 s) ∈ S → (v - p) ⬝ᵥ s = 0 := by
    intro k S v
    refine ⟨(S.starProjection (WithLp.toLp 2 v)).ofLp, ?_, ?_⟩
    · exact Submodule.starProjection_apply_mem _ _
    · intro s hs
      have h1 := Submodule.starProjection_inner_eq_zero (K := S) (WithLp.toLp 2 v) (WithLp.toLp 2 s) hs
      rw [EuclideanSpace.inner_eq_star_dotProduct] at h1
      simp only [star_trivial] at h1
      rw [dotProduct_comm] at h1
      exact h1
  obtain ⟨p, ⟨x₀, hx₀⟩, hp⟩ := orth (LinearMap.range (Matrix.toEuclideanLin A)) b
  obtain ⟨k, hk, hk'⟩ := orth (LinearMap.ker (Matrix.toEuclideanLin A)) x₀.ofLp
  have hpA : A.mulVec x₀.ofLp = p := by
    have := congrArg WithLp.ofLp hx₀
    simpa using this
  have hkA : A.mulVec k = 0 := by
    have := congrArg WithLp.ofLp (LinearMap.mem_ker.mp hk)
    simpa using this
  have hxp : A.mulVec (x₀.ofLp - k) = p := by rw [mulVec_sub, hpA, hkA, sub_zero]
  refine ⟨x₀.ofLp - k, ?_, ?_⟩
  · intro y
    rw [hxp]
    have h1 : A.mulVec y - b = (A.mulVec y - p) + (p - b) := by abel
    have h2 : (p - b) ⬝ᵥ (A.mulVec y - p) = 0 := by
      have := hp (A.mulVec y - p) ⟨WithLp.toLp 2 (y - x₀.ofLp), by
        simp [hx₀]⟩
      rw [← neg_sub, neg_dotProduct, this, neg_zero]
    rw [h1, dot_add_sq, dotProduct_comm (A.mulVec y - p) (p - b), h2]
    have := dot_self_nonneg (A.mulVec y - p)
    linarith
  · intro y hy
    have h1 : y = (x₀.ofLp - k) + (y - (x₀.ofLp - k)) := by abel
    have h2 : (x₀.ofLp - k) ⬝ᵥ (y - (x₀.ofLp - k)) = 0 := by
      apply hk'
      rw [LinearMap.mem_ker]
      apply WithLp.ofLp_injective
      simp [Matrix.mulVec_sub] at hy ⊢
      rw [hy]; abel
    rw [h1, dot_add_sq, h2]
    have := dot_self_nonneg (y - (x₀.ofLp - k))
    linarith

theorem exists_argsort (l : List ℝ) : ∃ p : List ℕ, p.Perm (List.range l.length) ∧
    (p.map fun i => l[i]?.getD 0).Pairwise (· ≤ ·) := by
  classical
  refine ⟨(List.range l.length).mergeSort (fun i j => decide (l[i]?.getD 0 ≤ l[j]?.getD 0)),
    List.mergeSort_perm _ _, ?_⟩
  rw [List.pairwise_map]
  have := List.pairwise_mergeSort (le := fun i j => decide (l[i]?.getD 0 ≤ l[j]?.getD 0))
    (fun a b c h1 h2 => by simp only [decide_eq_true_eq] at *; linarith)
    (fun a b => by simp only [Bool.or_eq_true, decide_eq_true_eq]; exact le_total _ _)
    (List.range l.length)
  exact this.imp fun {a b} h => of_decide_eq_true h

/-- there is a library meeting the contract -/
theorem NumLib.exists : Nonempty NumLib := by
  classical
  have h1 : ∀ (n : ℕ) (A : Matrix (Fin n) (Fin n) ℝ),
      ∃ r : (Fin n → ℝ) × Matrix (Fin n) (Fin n) ℝ, A.transpose = A →
        Monotone r.1 ∧ r.2.transpose * r.2 = 1 ∧ A * r.2 = r.2 * diagonal r.1 := by
    intro n A
    by_cases h : A.transpose = A
    · obtain ⟨w, U, h⟩ := exists_eigh n A h
      exact ⟨(w, U), fun _ => h⟩
    · exact ⟨(0, 0), fun h' => absurd h' h⟩
  choose eigh heigh using h1
  choose lstsq hl1 hl2 using exists_lstsq
  choose argsort ha1 ha2 using exists_argsort
  exact ⟨⟨eigh, heigh, lstsq, hl1, hl2, argsort, ha1, ha2⟩⟩

end Pytspl
