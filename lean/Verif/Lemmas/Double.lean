import Verif.Model.FloatArith
import Mathlib.Tactic.Linarith
import Mathlib.Tactic.Ring
import Mathlib.Tactic.FieldSimp
import Mathlib.Data.Int.Log
import Mathlib.Algebra.Order.Round
import Mathlib.Algebra.Order.Archimedean.Real.Basic

/-!
# A concrete rounding to 53 binary digits

It shows that the assumptions of `Rounding` can be met: they are met by the usual rounding to the
nearest number with 53 binary digits (exponents unbounded).
-/

namespace Pytspl

/-- exponent of the last binary digit -/
noncomputable def ulpExp (x : ℝ) : ℤ := Int.log 2 x - 52

/-- rounding of a positive number -/
noncomputable def rndPos (x : ℝ) : ℝ := (round (x / 2 ^ ulpExp x) : ℤ) * (2 : ℝ) ^ ulpExp x

/-- rounding to the nearest number with 53 binary digits, halves away from zero -/
noncomputable def rnd53 (x : ℝ) : ℝ := if 0 < x then rndPos x else if x < 0 then -rndPos (-x) else 0

private theorem two_zpow_pos (k : ℤ) : (0 : ℝ) < 2 ^ k := zpow_pos (by norm_num) k

theorem rndPos_scale {x : ℝ} (hx : 0 < x) :
    (2 : ℝ) ^ (52 : ℤ) ≤ x / 2 ^ ulpExp x ∧ x / 2 ^ ulpExp x < (2 : ℝ) ^ (53 : ℤ) := by
  have h1 := Int.zpow_log_le_self (b := 2) (by norm_num) hx
  have h2 := Int.lt_zpow_succ_log_self (b := 2) (by norm_num) x
  have hp := two_zpow_pos (ulpExp x)
  rw [le_div_iff₀ hp, div_lt_iff₀ hp, ← zpow_add₀ (by norm_num), ← zpow_add₀ (by norm_num)]
  unfold ulpExp
  rw [show (52 : ℤ) + (Int.log 2 x - 52) = Int.log 2 x by ring,
    show (53 : ℤ) + (Int.log 2 x - 52) = Int.log 2 x + 1 by ring]
  exact ⟨by exact_mod_cast h1, by exact_mod_cast h2⟩

theorem rndPos_rel {x : ℝ} (hx : 0 < x) : |rndPos x - x| ≤ 1 / 2 ^ 53 * x := by
  obtain ⟨h1, -⟩ := rndPos_scale hx
  have hp := two_zpow_pos (ulpExp x)
  have e : rndPos x - x = -((x / 2 ^ ulpExp x - (round (x / 2 ^ ulpExp x) : ℤ)) * 2 ^ ulpExp x) := by
    unfold rndPos
    field_simp
    ring
  rw [e, abs_neg, abs_mul, abs_of_pos hp]
  have h3 := abs_sub_round (x / 2 ^ ulpExp x)
  rw [le_div_iff₀ hp] at h1
  have h4 := mul_le_mul_of_nonneg_right h3 hp.le
  refine h4.trans ?_
  rw [show ((2 : ℝ) ^ (52 : ℤ)) = 2 ^ (52 : ℕ) by norm_cast] at h1
  have : (1 : ℝ) / 2 * 2 ^ ulpExp x = 1 / 2 ^ 53 * (2 ^ 52 * 2 ^ ulpExp x) := by ring
  rw [this]
  exact mul_le_mul_of_nonneg_left h1 (by positivity)

/-- numbers with at most 53 binary digits are fixed -/
theorem rndPos_fix (n : ℕ) (j : ℤ) (hn : 0 < n) (hle : n ≤ 2 ^ 53) :
    rndPos ((n : ℝ) * 2 ^ j) = (n : ℝ) * 2 ^ j := by
  set x : ℝ := (n : ℝ) * 2 ^ j with hx
  have hpos : 0 < x := mul_pos (by exact_mod_cast hn) (two_zpow_pos j)
  -- the scaled number is whole
  have hm : ∃ m : ℤ, x / 2 ^ ulpExp x = m := by
    rcases Nat.lt_or_ge n (2 ^ 53) with h | h
    · have hlt : x < (2 : ℝ) ^ (53 + j) := by
        rw [hx, zpow_add₀ (by norm_num)]
        apply mul_lt_mul_of_pos_right _ (two_zpow_pos j)
        exact_mod_cast h
      have hlog : Int.log 2 x < 53 + j := by
        rw [← Int.lt_zpow_iff_log_lt (b := 2) (by norm_num) hpos]
        exact_mod_cast hlt
      obtain ⟨d, hd⟩ : ∃ d : ℕ, j = ulpExp x + d := ⟨(j - ulpExp x).toNat, by unfold ulpExp; omega⟩
      refine ⟨n * 2 ^ d, ?_⟩
      rw [div_eq_iff (two_zpow_pos _).ne']
      have e2 : ((2 : ℝ) ^ j) = 2 ^ ulpExp x * 2 ^ d := by
        rw [← zpow_natCast, ← zpow_add₀ (by norm_num), ← hd]
      calc x = (n : ℝ) * 2 ^ j := hx
        _ = _ := by rw [e2]; push_cast; ring
    · have hn' : n = 2 ^ 53 := le_antisymm hle h
      have hx' : x = ((2 : ℕ) : ℝ) ^ (53 + j) := by
        rw [hx, hn', Nat.cast_ofNat, zpow_add₀ (by norm_num)]
        push_cast
        norm_cast
      have hlog : Int.log 2 x = 53 + j := by
        rw [hx']; exact Int.log_zpow (by norm_num) _
      refine ⟨2 ^ 52, ?_⟩
      rw [div_eq_iff (two_zpow_pos _).ne']
      unfold ulpExp
      rw [hlog, hx']
      have e3 : ((2 : ℝ) ^ (53 + j)) = 2 ^ (52 : ℤ) * 2 ^ (53 + j - 52) := by
        rw [← zpow_add₀ (by norm_num)]
        congr 1
        ring
      rw [Nat.cast_ofNat, e3]
      norm_num
  obtain ⟨m, hm⟩ := hm
  unfold rndPos
  rw [hm, round_intCast, ← hm]
  exact div_mul_cancel₀ _ (two_zpow_pos _).ne'

/-- a rounded positive number is a whole number of at most 53 binary digits times a power of two -/
theorem rndPos_form {x : ℝ} (hx : 0 < x) :
    ∃ n : ℕ, 2 ^ 52 ≤ n ∧ n ≤ 2 ^ 53 ∧ rndPos x = (n : ℝ) * 2 ^ ulpExp x := by
  obtain ⟨h1, h2⟩ := rndPos_scale hx
  set m := x / 2 ^ ulpExp x with hm
  have r1 : (2 : ℤ) ^ 52 ≤ round m := by
    have h : ((2 ^ 52 : ℤ) : ℝ) ≤ m := by push_cast; exact_mod_cast h1
    rw [round_eq]
    exact Int.le_floor.2 (by linarith)
  have r2 : round m ≤ (2 : ℤ) ^ 53 := by
    have h : m < ((2 ^ 53 : ℤ) : ℝ) := by push_cast; exact_mod_cast h2
    rw [round_eq]
    apply Int.lt_add_one_iff.1
    apply Int.floor_lt.2
    push_cast at h ⊢
    linarith
  refine ⟨(round m).toNat, by omega, by omega, ?_⟩
  unfold rndPos
  rw [← hm]
  congr 1
  have : ((round m).toNat : ℤ) = round m := Int.toNat_of_nonneg (by omega)
  exact_mod_cast this.symm

theorem rndPos_pos {x : ℝ} (hx : 0 < x) : 0 < rndPos x := by
  obtain ⟨n, h0, -, e⟩ := rndPos_form hx
  rw [e]
  exact mul_pos (by exact_mod_cast (show 0 < n by omega)) (two_zpow_pos _)

theorem rndPos_idem {x : ℝ} (hx : 0 < x) : rndPos (rndPos x) = rndPos x := by
  obtain ⟨n, h0, h1, e⟩ := rndPos_form hx
  rw [e]
  exact rndPos_fix n _ (by omega) h1

theorem rndPos_mono {x y : ℝ} (hx : 0 < x) (h : x ≤ y) : rndPos x ≤ rndPos y := by
  have hlog : Int.log 2 x ≤ Int.log 2 y := Int.log_mono_right hx h
  rcases hlog.lt_or_eq with hl | hl
  · obtain ⟨n, -, h1, e1⟩ := rndPos_form hx
    obtain ⟨m, h2, -, e2⟩ := rndPos_form (hx.trans_le h)
    rw [e1, e2]
    have h1' : (n : ℝ) ≤ 2 ^ (53 : ℤ) := by exact_mod_cast h1
    have h2' : (2 : ℝ) ^ (52 : ℤ) ≤ m := by exact_mod_cast h2
    calc (n : ℝ) * 2 ^ ulpExp x ≤ 2 ^ (53 : ℤ) * 2 ^ ulpExp x := mul_le_mul_of_nonneg_right h1' (two_zpow_pos _).le
      _ = 2 ^ (Int.log 2 x + 1) := by
        rw [← zpow_add₀ (by norm_num)]
        congr 1
        unfold ulpExp
        ring
      _ ≤ 2 ^ Int.log 2 y := zpow_le_zpow_right₀ (by norm_num) hl
      _ = 2 ^ (52 : ℤ) * 2 ^ ulpExp y := by
        rw [← zpow_add₀ (by norm_num)]
        congr 1
        unfold ulpExp
        ring
      _ ≤ m * 2 ^ ulpExp y := mul_le_mul_of_nonneg_right h2' (two_zpow_pos _).le
  · have he : ulpExp x = ulpExp y := by unfold ulpExp; rw [hl]
    unfold rndPos
    rw [he]
    refine mul_le_mul_of_nonneg_right ?_ (two_zpow_pos _).le
    rw [round_eq, round_eq]
    exact_mod_cast Int.floor_le_floor (by
      have := div_le_div_of_nonneg_right h (two_zpow_pos (ulpExp y)).le
      linarith)

theorem rnd53_odd (x : ℝ) : rnd53 (-x) = -rnd53 x := by
  unfold rnd53
  rcases lt_trichotomy x 0 with h | h | h
  · have h' : ¬ 0 < x := by linarith
    rw [if_pos (by linarith), if_neg h', if_pos h, neg_neg]
  · simp [h]
  · have h' : ¬ 0 < -x := by linarith
    rw [if_neg h', if_pos (by linarith), if_pos h, neg_neg]

/-- The rounding to 53 binary digits satisfies what is assumed of a rounding. -/
noncomputable def double : Rounding where
  rnd := rnd53
  rel := by
    intro x
    unfold rnd53
    split_ifs with h1 h2
    · rw [abs_of_pos h1]
      exact rndPos_rel h1
    · have h3 := rndPos_rel (x := -x) (by linarith)
      rw [abs_of_neg h2]
      have : -rndPos (-x) - x = -(rndPos (-x) - -x) := by ring
      rw [this, abs_neg]
      exact h3
    · have : x = 0 := le_antisymm (not_lt.1 h1) (not_lt.1 h2)
      simp [this]
  idem := by
    have pos : ∀ x : ℝ, 0 < x → rnd53 (rnd53 x) = rnd53 x := by
      intro x hx
      have e : rnd53 x = rndPos x := if_pos hx
      rw [e]
      unfold rnd53
      rw [if_pos (rndPos_pos hx)]
      exact rndPos_idem hx
    intro x
    rcases lt_trichotomy x 0 with h | h | h
    · have := pos (-x) (by linarith)
      rwa [rnd53_odd, rnd53_odd, neg_inj] at this
    · simp [h, rnd53]
    · exact pos x h
  odd := rnd53_odd
  int := by
    have pos : ∀ n : ℕ, 0 < n → n ≤ 2 ^ 53 → rnd53 (n : ℝ) = n := by
      intro n h0 h1
      have h0' : (0 : ℝ) < n := by exact_mod_cast h0
      have e : rnd53 (n : ℝ) = rndPos n := if_pos h0'
      rw [e]
      have := rndPos_fix n 0 h0 h1
      simpa using this
    intro n hn
    rw [abs_le] at hn
    rcases lt_trichotomy n 0 with h | h | h
    · obtain ⟨k, hk⟩ : ∃ k : ℕ, n = -(k : ℤ) := ⟨n.natAbs, by omega⟩
      subst hk
      have := pos k (by omega) (by omega)
      rw [Int.cast_neg, rnd53_odd, Int.cast_natCast, this]
    · simp [h, rnd53]
    · obtain ⟨k, rfl⟩ : ∃ k : ℕ, n = (k : ℤ) := ⟨n.natAbs, by omega⟩
      have := pos k (by omega) (by omega)
      rw [Int.cast_natCast, this]
  mono := by
    intro x y h
    have e : ∀ z : ℝ, 0 < z → rnd53 z = rndPos z := fun z hz => if_pos hz
    have e' : ∀ z : ℝ, z < 0 → rnd53 z = -rndPos (-z) := fun z hz => by
      rw [← e (-z) (by linarith), rnd53_odd, neg_neg]
    have e0 : rnd53 0 = 0 := by simp [rnd53]
    rcases lt_trichotomy x 0 with hx | hx | hx
    · rcases lt_trichotomy y 0 with hy | hy | hy
      · rw [e' x hx, e' y hy]
        exact neg_le_neg (rndPos_mono (by linarith) (by linarith))
      · rw [e' x hx, hy, e0]
        linarith [rndPos_pos (x := -x) (by linarith)]
      · rw [e' x hx, e y hy]
        linarith [rndPos_pos (x := -x) (by linarith), rndPos_pos hy]
    · subst hx
      rcases h.eq_or_lt with hy | hy
      · rw [← hy]
      · rw [e0, e y hy]
        exact (rndPos_pos hy).le
    · rw [e x hx, e y (by linarith)]
      exact rndPos_mono hx h

end Pytspl
