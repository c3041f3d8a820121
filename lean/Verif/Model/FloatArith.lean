import Verif.Model.SimplicialComplex
import Mathlib.Data.Real.Basic

/-!
# The same operators in floating point arithmetic

Elsewhere numbers are exact.  Here the arrays hold doubles, and every multiplication and addition is
rounded.  The order in which numpy and scipy add up the terms of a sum is left open: the results are
described by relations which hold for every order.
-/

namespace Pytspl

open Matrix

/-- Rounding to a double (IEEE 754 binary64, round to nearest) in the absence of overflow: `rnd x` is
within a relative error of `2^-53`, integers of magnitude at most `2^53` are doubles, larger numbers are not rounded to
smaller ones.  Multiplication
and addition of numpy and scipy are the exact operation followed by `rnd`.  Simplification: products
which underflow have a larger relative error; no product below can underflow, because one factor is a
whole number (arithmetic of the arrays, e.g. simplicial_complex.py:274-275, 360). -/
structure Rounding where
  rnd : ℝ → ℝ
  rel : ∀ x, |rnd x - x| ≤ 1 / 2 ^ 53 * |x|
  idem : ∀ x, rnd (rnd x) = rnd x
  odd : ∀ x, rnd (-x) = -rnd x
  int : ∀ n : ℤ, |n| ≤ 2 ^ 53 → rnd n = n
  mono : ∀ x y, x ≤ y → rnd x ≤ rnd y

/-- `y` is the result of rounding products and adding them up, in some order and grouping; a product may be added without
being rounded first (`fma`), as the BLAS behind numpy does and as compilers may do in scipy
(the sums in products such as simplicial_complex.py:274-275, 360). -/
inductive FlAcc (R : Rounding) : List ℝ → ℝ → Prop
  | nil : FlAcc R [] 0
  | mul (p : ℝ) : FlAcc R [p] (R.rnd p)
  | fma {l : List ℝ} {r : ℝ} (p : ℝ) : FlAcc R l r → FlAcc R (p :: l) (R.rnd (p + r))
  | add {l1 l2 : List ℝ} {r1 r2 : ℝ} : FlAcc R l1 r1 → FlAcc R l2 r2 → FlAcc R (l1 ++ l2) (R.rnd (r1 + r2))
  | perm {l l' : List ℝ} {r : ℝ} : FlAcc R l r → l.Perm l' → FlAcc R l' r

/-- One entry of a product with `csr_matrix.__matmul__`: the products at (at least) the stored, that is
non-zero, entries are added up (products such as simplicial_complex.py:360). -/
def FlDot (R : Rounding) {n : ℕ} (a x : Fin n → ℝ) (y : ℝ) : Prop :=
  ∃ l : List (Fin n), l.Nodup ∧ (∀ j, a j ≠ 0 → j ∈ l) ∧ FlAcc R (l.map fun j => a j * x j) y

/-- `y = A @ x` (as in simplicial_complex.py:360) -/
def FlMulVec (R : Rounding) {m n : ℕ} (A : Matrix (Fin m) (Fin n) ℝ) (x : Fin n → ℝ) (y : Fin m → ℝ) : Prop :=
  ∀ i, FlDot R (A i) x (y i)

/-- `C = A @ B` (as in simplicial_complex.py:274-275) -/
def FlMul (R : Rounding) {m n p : ℕ} (A : Matrix (Fin m) (Fin n) ℝ) (B : Matrix (Fin n) (Fin p) ℝ)
    (C : Matrix (Fin m) (Fin p) ℝ) : Prop :=
  ∀ i k, FlDot R (A i) (fun j => B j k) (C i k)

namespace SC
variable (sc : SC ℝ)

/-- simplicial_complex.py:274-275 `laplacian_matrix`. -/
def FlL0 (R : Rounding) (M : Matrix (Fin sc.N) (Fin sc.N) ℝ) : Prop := FlMul R sc.B1 sc.B1.transpose M

/-- simplicial_complex.py:290-292 `lower_laplacian_matrix(rank=1)`. -/
def FlL1l (R : Rounding) (M : Matrix (Fin sc.E) (Fin sc.E) ℝ) : Prop := FlMul R sc.B1.transpose sc.B1 M

/-- simplicial_complex.py:314-316 `upper_laplacian_matrix(rank=1)`. -/
def FlL1u (R : Rounding) (M : Matrix (Fin sc.E) (Fin sc.E) ℝ) : Prop := FlMul R sc.B2 sc.B2.transpose M

/-- simplicial_complex.py:293-295 `lower_laplacian_matrix(rank=2)`. -/
def FlL2l (R : Rounding) (M : Matrix (Fin sc.T) (Fin sc.T) ℝ) : Prop := FlMul R sc.B2.transpose sc.B2 M

/-- simplicial_complex.py:335-338 `hodge_laplacian_matrix(rank=1)`. -/
def FlL1 (R : Rounding) (M : Matrix (Fin sc.E) (Fin sc.E) ℝ) : Prop :=
  ∃ A B, sc.FlL1l R A ∧ sc.FlL1u R B ∧ ∀ i j, M i j = R.rnd (A i j + B i j)

/-- simplicial_complex.py:496-497 `get_divergence` (eigendecomposition.py:40 `B1 @ flow`). -/
def FlDivergence (R : Rounding) (f : Fin sc.E → ℝ) (y : Fin sc.N → ℝ) : Prop := FlMulVec R sc.B1 f y

/-- simplicial_complex.py:509-510 `get_curl` (eigendecomposition.py:54 `B2.T @ flow`). -/
def FlCurl (R : Rounding) (f : Fin sc.E → ℝ) (y : Fin sc.T → ℝ) : Prop := FlMulVec R sc.B2.transpose f y

/-- simplicial_complex.py:354-363 `apply_lower_shifting` with one step, and with any other number of steps. -/
def FlLowerShift (R : Rounding) (f : Fin sc.E → ℝ) (steps : Int) (y : Fin sc.E → ℝ) : Prop :=
  ∃ M, sc.FlL1l R M ∧
    if steps = 1 then FlMulVec R M f y else ∃ z, FlMulVec R M f z ∧ FlMulVec R M z y

/-- simplicial_complex.py:381-388 `apply_upper_shifting`. -/
def FlUpperShift (R : Rounding) (f : Fin sc.E → ℝ) (steps : Int) (y : Fin sc.E → ℝ) : Prop :=
  ∃ M, sc.FlL1u R M ∧
    if steps = 1 then FlMulVec R M f y else ∃ z, FlMulVec R M f z ∧ FlMulVec R M z y

/-- simplicial_complex.py:404-406 `apply_k_step_shifting`. -/
def FlKStepShift (R : Rounding) (f : Fin sc.E → ℝ) (steps : Int) (y : Fin sc.E → ℝ) : Prop :=
  ∃ a b, sc.FlLowerShift R f steps a ∧ sc.FlUpperShift R f steps b ∧ ∀ i, y i = R.rnd (a i + b i)

end SC
end Pytspl
