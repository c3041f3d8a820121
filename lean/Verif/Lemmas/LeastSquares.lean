import Verif.Model.NumLib
import Mathlib.LinearAlgebra.Matrix.DotProduct
import Mathlib.Tactic.Linarith
import Mathlib.Tactic.Abel

/-!
# Consequences of the least-squares contract
-/

namespace Pytspl

open Matrix

variable {m n : ℕ}

theorem dot_self_nonneg {k : ℕ} (v : Fin k → ℝ) : 0 ≤ v ⬝ᵥ v :=
  Finset.sum_nonneg fun _ _ => mul_self_nonneg _

theorem dot_add_sq {k : ℕ} (a b : Fin k → ℝ) :
    (a + b) ⬝ᵥ (a + b) = a ⬝ᵥ a + 2 * (a ⬝ᵥ b) + b ⬝ᵥ b := by
  rw [add_dotProduct, dotProduct_add, dotProduct_add, dotProduct_comm b a]; ring

theorem dot_mulVec_transpose (A : Matrix (Fin m) (Fin n) ℝ) (x : Fin m → ℝ) (y : Fin n → ℝ) :
    x ⬝ᵥ A.mulVec y = A.transpose.mulVec x ⬝ᵥ y := by
  rw [dotProduct_mulVec, mulVec_transpose]

/-- first order condition of a minimiser -/
theorem normal_of_min (A : Matrix (Fin m) (Fin n) ℝ) (b : Fin m → ℝ) (x : Fin n → ℝ)
    (h : ∀ y, (A.mulVec x - b) ⬝ᵥ (A.mulVec x - b) ≤ (A.mulVec y - b) ⬝ᵥ (A.mulVec y - b)) :
    A.transpose.mulVec (A.mulVec x - b) = 0 := by
  set r := A.mulVec x - b with hr
  have key : ∀ y : Fin n → ℝ, A.transpose.mulVec r ⬝ᵥ y = 0 := by
    intro y
    rw [← dot_mulVec_transpose]
    have hq : ∀ s : ℝ, 0 ≤ s * (2 * (r ⬝ᵥ A.mulVec y)) + s ^ 2 * (A.mulVec y ⬝ᵥ A.mulVec y) := by
      intro s
      have h1 := h (x + s • y)
      have h2 : A.mulVec (x + s • y) - b = r + s • A.mulVec y := by
        rw [mulVec_add, mulVec_smul, hr]; abel
      rw [h2, dot_add_sq] at h1
      simp only [dotProduct_smul, smul_dotProduct, smul_eq_mul] at h1
      nlinarith
    set p := r ⬝ᵥ A.mulVec y
    set q := A.mulVec y ⬝ᵥ A.mulVec y with hqdef
    have hq0 : 0 ≤ q := dot_self_nonneg _
    by_contra hp
    have hpos : 0 < p ^ 2 := by positivity
    have := hq (-p / (q + 1))
    have hq1 : 0 < q + 1 := by linarith
    have e : -p / (q + 1) * (2 * p) + (-p / (q + 1)) ^ 2 * q =
        -(p ^ 2) * (q + 2) / (q + 1) ^ 2 := by
      field_simp
      ring
    rw [e] at this
    have : -(p ^ 2) * (q + 2) / (q + 1) ^ 2 < 0 := by
      apply div_neg_of_neg_of_pos
      · nlinarith
      · positivity
    linarith
  funext i
  have := key (Pi.single i 1)
  simpa using this

theorem NumLib.normal (lib : NumLib) (A : Matrix (Fin m) (Fin n) ℝ) (b : Fin m → ℝ) :
    A.transpose.mulVec (A.mulVec (lib.lstsq m n A b) - b) = 0 :=
  normal_of_min A b _ (lib.lstsq_min m n A b)

theorem NumLib.normal' (lib : NumLib) (A : Matrix (Fin m) (Fin n) ℝ) (b : Fin m → ℝ) :
    A.transpose.mulVec (A.mulVec (lib.lstsq m n A b)) = A.transpose.mulVec b := by
  have := lib.normal A b
  rw [mulVec_sub, sub_eq_zero] at this
  exact this

/-- `p` is the orthogonal projection of `b` on the column space of `A` -/
def IsProj (A : Matrix (Fin m) (Fin n) ℝ) (b p : Fin m → ℝ) : Prop :=
  (∃ x, A.mulVec x = p) ∧ A.transpose.mulVec p = A.transpose.mulVec b

theorem NumLib.isProj (lib : NumLib) (A : Matrix (Fin m) (Fin n) ℝ) (b : Fin m → ℝ) :
    IsProj A b (A.mulVec (lib.lstsq m n A b)) := ⟨⟨_, rfl⟩, lib.normal' A b⟩

theorem range_ker_zero (A : Matrix (Fin m) (Fin n) ℝ) {v : Fin m → ℝ} (h1 : ∃ x, A.mulVec x = v)
    (h2 : A.transpose.mulVec v = 0) : v = 0 := by
  obtain ⟨x, rfl⟩ := h1
  apply dotProduct_self_eq_zero.mp
  rw [dot_mulVec_transpose, h2, zero_dotProduct]

theorem IsProj.unique {A : Matrix (Fin m) (Fin n) ℝ} {b p q : Fin m → ℝ} (hp : IsProj A b p)
    (hq : IsProj A b q) : p = q := by
  obtain ⟨⟨x, rfl⟩, h1⟩ := hp
  obtain ⟨⟨y, rfl⟩, h2⟩ := hq
  rw [← sub_eq_zero]
  apply range_ker_zero A ⟨x - y, mulVec_sub _ _ _⟩
  rw [mulVec_sub, h1, h2, sub_self]

theorem IsProj.add {A : Matrix (Fin m) (Fin n) ℝ} {b p b' p' : Fin m → ℝ} (hp : IsProj A b p)
    (hq : IsProj A b' p') (s s' : ℝ) : IsProj A (s • b + s' • b') (s • p + s' • p') := by
  obtain ⟨⟨x, rfl⟩, h1⟩ := hp
  obtain ⟨⟨y, rfl⟩, h2⟩ := hq
  refine ⟨⟨s • x + s' • y, by simp [mulVec_add, mulVec_smul]⟩, ?_⟩
  simp only [mulVec_add, mulVec_smul] at *
  rw [h1, h2]

/-- a vector already in the column space is its own projection -/
theorem IsProj.self {A : Matrix (Fin m) (Fin n) ℝ} {p : Fin m → ℝ} (h : ∃ x, A.mulVec x = p) :
    IsProj A p p := ⟨h, rfl⟩

theorem IsProj.zero {A : Matrix (Fin m) (Fin n) ℝ} {b : Fin m → ℝ} (h : A.transpose.mulVec b = 0) :
    IsProj A b 0 := ⟨⟨0, mulVec_zero _⟩, by rw [h, mulVec_zero]⟩

/-- pythagoras: the projection is closest -/
theorem IsProj.closest {A : Matrix (Fin m) (Fin n) ℝ} {b p : Fin m → ℝ} (hp : IsProj A b p)
    (y : Fin n → ℝ) : (b - A.mulVec y) ⬝ᵥ (b - A.mulVec y) =
      (b - p) ⬝ᵥ (b - p) + (p - A.mulVec y) ⬝ᵥ (p - A.mulVec y) := by
  obtain ⟨⟨x, rfl⟩, h1⟩ := hp
  have h2 : b - A.mulVec y = (b - A.mulVec x) + (A.mulVec x - A.mulVec y) := by abel
  rw [h2, dot_add_sq, ← mulVec_sub, dot_mulVec_transpose, mulVec_sub _ b, ← h1, sub_self,
    zero_dotProduct]
  ring

end Pytspl
