import Verif.Model.FloatArith
import Verif.Model.PolyFilter
import Verif.Model.Chebyshev

/-!
# The polynomial filters in floating point arithmetic

`_apply_filter` of ls_filter_design.py and grid_based_filter_design.py and `_chebyshev_filter_approximate` of
chebyshev_filter_design.py with every operation rounded.  As in
`Model/FloatArith.lean` the order of additions is left open, and so is the way scipy groups the factors of a power.
Simplification: no product underflows.
-/

namespace Pytspl

open Matrix

/-- `lap_matrix ** k` (ls_filter_design.py:67, grid_based_filter_design.py:137): scipy returns the identity for `k = 0`,
the matrix for `k = 1` and otherwise multiplies smaller powers. -/
inductive FlPow (R : Rounding) {n : ℕ} (P : Matrix (Fin n) (Fin n) ℝ) : ℕ → Matrix (Fin n) (Fin n) ℝ → Prop
  | zero : FlPow R P 0 1
  | one : FlPow R P 1 P
  | mul {a b : ℕ} {A B C : Matrix (Fin n) (Fin n) ℝ} : 0 < a → 0 < b → FlPow R P a A → FlPow R P b B → FlMul R A B C →
      FlPow R P (a + b) C

/-- `H = zeros; for i in range(len(h)): H += h[i] * (P**i).toarray()` (ls_filter_design.py:64-67,
grid_based_filter_design.py:134-137); `S i` is `H` before pass `i`. -/
def FlBuild (R : Rounding) {n L : ℕ} (P : Matrix (Fin n) (Fin n) ℝ) (h : Fin L → ℝ) (H : Matrix (Fin n) (Fin n) ℝ) :
    Prop :=
  ∃ (M : Fin L → Matrix (Fin n) (Fin n) ℝ) (S : ℕ → Matrix (Fin n) (Fin n) ℝ),
    (∀ i : Fin L, FlPow R P i (M i)) ∧ S 0 = 0 ∧
    (∀ (i : Fin L) (a b : Fin n), S (i + 1) a b = R.rnd (S i a b + R.rnd (h i * M i a b))) ∧ H = S L

/-- `f_estimated = H @ f` (ls_filter_design.py:70, grid_based_filter_design.py:139-140). -/
def FlEstimate (R : Rounding) {n L : ℕ} (P : Matrix (Fin n) (Fin n) ℝ) (h : Fin L → ℝ) (f y : Fin n → ℝ) : Prop :=
  ∃ H, FlBuild R P h H ∧ FlMulVec R H f y

/-- `P - alpha * I` (chebyshev_filter_design.py:81, 84) -/
def FlShifted (R : Rounding) {n : ℕ} (P : Matrix (Fin n) (Fin n) ℝ) (alpha : ℝ) : Matrix (Fin n) (Fin n) ℝ :=
  Matrix.of fun i j => R.rnd (P i j - R.rnd (alpha * (1 : Matrix (Fin n) (Fin n) ℝ) i j))

/-- The loop filling the stack (chebyshev_filter_design.py:77-86) when `alpha` is not zero; `*` and `@` group to the left. -/
def FlSlots (R : Rounding) {n : ℕ} (P : Matrix (Fin n) (Fin n) ℝ) (alpha : ℝ) (H : ℕ → Matrix (Fin n) (Fin n) ℝ) : Prop :=
  H 0 = 1 ∧ (∀ i j, H 1 i j = R.rnd (R.rnd (1 / alpha) * FlShifted R P alpha i j)) ∧
  ∀ k, ∃ C, FlMul R (Matrix.of fun i j => R.rnd (R.rnd (2 / alpha) * FlShifted R P alpha i j)) (H (k + 1)) C ∧
    ∀ i j, H (k + 2) i j = R.rnd (C i j - H k i j)

/-- `_chebyshev_filter_approximate` (chebyshev_filter_design.py:51-92) with as many coefficients as the order: the slots
are multiplied by the coefficients and added up in some order. -/
def FlCheb (R : Rounding) {n L : ℕ} (P : Matrix (Fin n) (Fin n) ℝ) (c : Fin L → ℝ) (alpha : ℝ)
    (G : Matrix (Fin n) (Fin n) ℝ) : Prop :=
  ∃ H, FlSlots R P alpha H ∧ ∀ i j, FlDot R c (fun k => H k i j) (G i j)

/-- `f_cheb[k] = H_cheb_approx[k] @ f` (chebyshev_filter_design.py:246) -/
def FlChebEstimate (R : Rounding) {n L : ℕ} (P : Matrix (Fin n) (Fin n) ℝ) (c : Fin L → ℝ) (alpha : ℝ) (f y : Fin n → ℝ) :
    Prop :=
  ∃ G, FlCheb R P c alpha G ∧ FlMulVec R G f y

end Pytspl
