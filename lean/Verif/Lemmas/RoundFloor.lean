import Verif.Model.FloatArith
import Mathlib.Tactic.Linarith
import Mathlib.Algebra.Order.Floor.Ring
import Mathlib.Algebra.Order.Archimedean.Real.Basic

/-!
# Rounding down a rounded number
-/

namespace Pytspl

/-- whole numbers stay between the same numbers after rounding -/
theorem Rounding.le_rnd (R : Rounding) {k : ℤ} {x : ℝ} (hk : |k| ≤ 2 ^ 53) (h : (k : ℝ) ≤ x) : (k : ℝ) ≤ R.rnd x := by
  have := R.mono _ _ h
  rwa [R.int k hk] at this

theorem Rounding.rnd_le (R : Rounding) {k : ℤ} {x : ℝ} (hk : |k| ≤ 2 ^ 53) (h : x ≤ (k : ℝ)) : R.rnd x ≤ (k : ℝ) := by
  have := R.mono _ _ h
  rwa [R.int k hk] at this

/-- the rounded number rounded down is the number rounded down or up -/
theorem Rounding.floor_rnd (R : Rounding) {x : ℝ} (h0 : 0 ≤ x) (h1 : x ≤ 2 ^ 53) :
    ⌊x⌋ ≤ ⌊R.rnd x⌋ ∧ ⌊R.rnd x⌋ ≤ ⌈x⌉ := by
  have f0 : 0 ≤ ⌊x⌋ := Int.floor_nonneg.2 h0
  have f1 : ⌊x⌋ ≤ ⌈x⌉ := Int.floor_le_ceil x
  have f2 : ⌈x⌉ ≤ 2 ^ 53 := Int.ceil_le.2 (by norm_num at h1 ⊢; exact h1)
  constructor
  · exact Int.le_floor.2 (R.le_rnd (by rw [abs_of_nonneg f0]; omega) (Int.floor_le x))
  · have := R.rnd_le (k := ⌈x⌉) (by rw [abs_of_nonneg (by omega)]; omega) (Int.le_ceil x)
    have h := (Int.floor_le (R.rnd x)).trans this
    exact_mod_cast h

/-- … and rounded down only, unless it is within the rounding error of the next whole number -/
theorem Rounding.floor_rnd_eq (R : Rounding) {x : ℝ} (h0 : 0 ≤ x) (h1 : x ≤ 2 ^ 53)
    (h : x * (1 + 1 / 2 ^ 53) < ⌊x⌋ + 1) : ⌊R.rnd x⌋ = ⌊x⌋ := by
  have hr := R.rel x
  rw [abs_of_nonneg h0] at hr
  have h2 := (abs_le.1 hr).2
  refine Int.floor_eq_iff.2 ⟨?_, by linarith⟩
  have := (R.floor_rnd h0 h1).1
  exact Int.le_floor.1 this

end Pytspl
