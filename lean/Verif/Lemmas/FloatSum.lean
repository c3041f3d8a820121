import Verif.Model.FloatArith
import Mathlib.Tactic.Linarith
import Mathlib.Tactic.Ring
import Mathlib.Tactic.FieldSimp
import Mathlib.Algebra.BigOperators.Fin
import Mathlib.Algebra.Order.BigOperators.Group.Finset
import Mathlib.Analysis.SpecialFunctions.Exp

/-!
# Rounding errors of sums
-/

namespace Pytspl

open Matrix

/-- `y` is the result of adding up the numbers in the list, in some order and grouping. -/
inductive FlSum (R : Rounding) : List ℝ → ℝ → Prop
  | nil : FlSum R [] 0
  | single (x : ℝ) : FlSum R [x] x
  | add {l1 l2 : List ℝ} {r1 r2 : ℝ} : FlSum R l1 r1 → FlSum R l2 r2 → FlSum R (l1 ++ l2) (R.rnd (r1 + r2))
  | perm {l l' : List ℝ} {r : ℝ} : FlSum R l r → l.Perm l' → FlSum R l' r

/-- unit roundoff of doubles -/
noncomputable def roundoff : ℝ := 1 / 2 ^ 53

theorem roundoff_pos : 0 < roundoff := by unfold roundoff; positivity

variable {R : Rounding}

theorem Rounding.zero (R : Rounding) : R.rnd 0 = 0 := by
  have := R.int 0 (by simp)
  simpa using this

/-- sum of the magnitudes -/
noncomputable def absSum (l : List ℝ) : ℝ := (l.map fun x => |x|).sum

theorem absSum_nonneg (l : List ℝ) : 0 ≤ absSum l := by
  apply List.sum_nonneg
  intro x hx
  obtain ⟨y, -, rfl⟩ := List.mem_map.1 hx
  exact abs_nonneg _

theorem absSum_append (a b : List ℝ) : absSum (a ++ b) = absSum a + absSum b := by
  simp [absSum]

theorem abs_sum_le (l : List ℝ) : |l.sum| ≤ absSum l := by
  induction l with
  | nil => simp [absSum]
  | cons a l ih =>
    rw [List.sum_cons, show absSum (a :: l) = |a| + absSum l by simp [absSum]]
    exact (abs_add_le _ _).trans (by linarith)

/-- sums of whole numbers are exact as long as no partial sum can exceed `2^53` -/
theorem FlSum.int_exact {l : List ℝ} {r : ℝ} (h : FlSum R l r) (hi : ∀ x ∈ l, ∃ n : ℤ, x = n)
    (hs : absSum l ≤ 2 ^ 53) : r = l.sum := by
  have hsum : ∀ l : List ℝ, (∀ x ∈ l, ∃ n : ℤ, x = n) → ∃ n : ℤ, l.sum = n := by
    intro l hl
    induction l with
    | nil => exact ⟨0, by simp⟩
    | cons a l ih =>
      obtain ⟨n, hn⟩ := hl a (by simp)
      obtain ⟨m, hm⟩ := ih fun x hx => hl x (by simp [hx])
      exact ⟨n + m, by rw [List.sum_cons, hn, hm]; push_cast; rfl⟩
  induction h with
  | nil => simp
  | single x => simp
  | @add l1 l2 r1 r2 _ _ ih1 ih2 =>
    rw [absSum_append] at hs
    have n1 := absSum_nonneg l1
    have n2 := absSum_nonneg l2
    have e1 := ih1 (fun x hx => hi x (by simp [hx])) (by linarith)
    have e2 := ih2 (fun x hx => hi x (by simp [hx])) (by linarith)
    obtain ⟨n, hn⟩ := hsum (l1 ++ l2) hi
    have hab : |(l1 ++ l2).sum| ≤ 2 ^ 53 := (abs_sum_le _).trans (by rw [absSum_append]; exact hs)
    rw [e1, e2, ← List.sum_append, hn]
    apply R.int
    rw [hn] at hab
    exact_mod_cast hab
  | @perm l l' r _ hp ih =>
    rw [ih (fun x hx => hi x (hp.mem_iff.1 hx)) (by
      rw [show absSum l = absSum l' from (hp.map _).sum_eq]; exact hs)]
    exact hp.sum_eq

/-- number of non-zero terms -/
noncomputable def nonzeros (l : List ℝ) : ℕ := by
  classical exact l.countP fun x => x ≠ 0

theorem nonzeros_append (a b : List ℝ) : nonzeros (a ++ b) = nonzeros a + nonzeros b := by
  simp [nonzeros]

theorem nonzeros_eq_zero {l : List ℝ} (h : nonzeros l = 0) : ∀ x ∈ l, x = 0 := by
  classical
  intro x hx
  have := List.countP_eq_zero.1 h x hx
  simpa using this

/-- relative error after `k` roundings -/
noncomputable def gam (k : ℕ) : ℝ := (1 + roundoff) ^ k - 1

theorem gam_mono {a b : ℕ} (h : a ≤ b) : gam a ≤ gam b := by
  unfold gam
  have := pow_le_pow_right₀ (show (1 : ℝ) ≤ 1 + roundoff by linarith [roundoff_pos]) h
  linarith

theorem gam_nonneg (k : ℕ) : 0 ≤ gam k := by
  have := gam_mono (Nat.zero_le k)
  simpa [gam] using this

theorem gam_succ (k : ℕ) : gam (k + 1) = (1 + roundoff) * gam k + roundoff := by
  unfold gam
  rw [pow_succ]
  ring

/-- `gam k` is at most twice `k` times the unit roundoff -/
theorem gam_le (k : ℕ) (hk : k ≤ 2 ^ 53) : gam k ≤ k * (1 / 2 ^ 52) := by
  have h1 : (1 + roundoff) ^ k ≤ Real.exp (k * roundoff) := by
    rw [Real.exp_nat_mul]
    apply pow_le_pow_left₀ (by linarith [roundoff_pos])
    have := Real.add_one_le_exp roundoff
    linarith
  have hk' : (k : ℝ) * roundoff ≤ 1 := by
    unfold roundoff
    have : (k : ℝ) ≤ 2 ^ 53 := by exact_mod_cast hk
    rw [mul_one_div, div_le_one (by positivity)]
    exact this
  have h0 : 0 ≤ (k : ℝ) * roundoff := mul_nonneg (Nat.cast_nonneg _) roundoff_pos.le
  have h2 := Real.abs_exp_sub_one_le (x := k * roundoff) (by rw [abs_of_nonneg h0]; exact hk')
  rw [abs_of_nonneg h0] at h2
  have h3 := le_abs_self (Real.exp (k * roundoff) - 1)
  unfold gam
  have : 2 * (k * roundoff) = k * (1 / 2 ^ 52) := by unfold roundoff; ring
  linarith

/-- the result of a sum of doubles is a double, and its error is at most `gam (terms - 1)` times the
sum of the magnitudes; zero terms do not count -/
theorem FlSum.error {l : List ℝ} {r : ℝ} (h : FlSum R l r) (hd : ∀ x ∈ l, R.rnd x = x) :
    R.rnd r = r ∧ (nonzeros l = 0 → r = 0) ∧ |r - l.sum| ≤ gam (nonzeros l - 1) * absSum l := by
  induction h with
  | nil => exact ⟨R.zero, fun _ => rfl, by simp [absSum]⟩
  | single x =>
    refine ⟨hd x (by simp), fun h0 => nonzeros_eq_zero h0 x (by simp), ?_⟩
    simp only [List.sum_singleton, sub_self, abs_zero]
    exact mul_nonneg (gam_nonneg _) (absSum_nonneg _)
  | @add l1 l2 r1 r2 _ _ ih1 ih2 =>
    obtain ⟨d1, z1, e1⟩ := ih1 fun x hx => hd x (by simp [hx])
    obtain ⟨d2, z2, e2⟩ := ih2 fun x hx => hd x (by simp [hx])
    have szero : ∀ {l : List ℝ}, nonzeros l = 0 → l.sum = 0 ∧ absSum l = 0 := by
      intro l hl
      have := nonzeros_eq_zero hl
      constructor
      · exact List.sum_eq_zero this
      · apply List.sum_eq_zero
        intro x hx
        obtain ⟨y, hy, rfl⟩ := List.mem_map.1 hx
        rw [this y hy, abs_zero]
    refine ⟨R.idem _, fun h0 => ?_, ?_⟩
    · rw [nonzeros_append] at h0
      rw [z1 (by omega), z2 (by omega), add_zero, R.zero]
    · rw [nonzeros_append, absSum_append, List.sum_append]
      by_cases c1 : nonzeros l1 = 0
      · obtain ⟨s1, a1⟩ := szero c1
        rw [z1 c1, zero_add, d2, s1, a1, c1]
        simpa using e2
      · by_cases c2 : nonzeros l2 = 0
        · obtain ⟨s2, a2⟩ := szero c2
          rw [z2 c2, add_zero, d1, s2, a2, c2]
          simpa using e1
        · set m := nonzeros l1 + nonzeros l2 - 2 with hm
          have m1 : gam (nonzeros l1 - 1) ≤ gam m := gam_mono (by omega)
          have m2 : gam (nonzeros l2 - 1) ≤ gam m := gam_mono (by omega)
          have n1 := absSum_nonneg l1
          have n2 := absSum_nonneg l2
          have b1 : |r1 - l1.sum| ≤ gam m * absSum l1 := e1.trans (mul_le_mul_of_nonneg_right m1 n1)
          have b2 : |r2 - l2.sum| ≤ gam m * absSum l2 := e2.trans (mul_le_mul_of_nonneg_right m2 n2)
          have hr := R.rel (r1 + r2)
          change _ ≤ roundoff * _ at hr
          have t : |(r1 + r2) - (l1.sum + l2.sum)| ≤ gam m * (absSum l1 + absSum l2) := by
            have : (r1 + r2) - (l1.sum + l2.sum) = (r1 - l1.sum) + (r2 - l2.sum) := by ring
            rw [this]
            exact (abs_add_le _ _).trans (by linarith)
          have t2 : |r1 + r2| ≤ (1 + gam m) * (absSum l1 + absSum l2) := by
            have h1 : |r1 + r2| ≤ |(r1 + r2) - (l1.sum + l2.sum)| + |l1.sum + l2.sum| := by
              have := abs_add_le ((r1 + r2) - (l1.sum + l2.sum)) (l1.sum + l2.sum)
              rwa [sub_add_cancel] at this
            have h2 : |l1.sum + l2.sum| ≤ absSum l1 + absSum l2 :=
              (abs_add_le _ _).trans (add_le_add (abs_sum_le _) (abs_sum_le _))
            linarith
          have e : nonzeros l1 + nonzeros l2 - 1 = m + 1 := by omega
          rw [e, gam_succ]
          have t3 : |R.rnd (r1 + r2) - (l1.sum + l2.sum)| ≤
              |R.rnd (r1 + r2) - (r1 + r2)| + |(r1 + r2) - (l1.sum + l2.sum)| := abs_sub_le _ _ _
          have t4 := mul_le_mul_of_nonneg_left t2 roundoff_pos.le
          calc _ ≤ _ := t3
            _ ≤ roundoff * ((1 + gam m) * (absSum l1 + absSum l2)) + gam m * (absSum l1 + absSum l2) := by
              linarith
            _ = _ := by ring
  | @perm l l' r _ hp ih =>
    obtain ⟨d, z, e⟩ := ih fun x hx => hd x (hp.mem_iff.1 hx)
    have h1 : nonzeros l = nonzeros l' := by
      classical
      exact hp.countP_eq _
    rw [← h1, ← hp.sum_eq, ← show absSum l = absSum l' from (hp.map _).sum_eq]
    exact ⟨d, z, e⟩

/-- when the products are doubles, it does not matter whether they are rounded -/
theorem FlAcc.toSum {l : List ℝ} {r : ℝ} (h : FlAcc R l r) (hd : ∀ x ∈ l, R.rnd x = x) : FlSum R l r := by
  induction h with
  | nil => exact .nil
  | mul p =>
    rw [hd p (by simp)]
    exact .single p
  | fma p _ ih => exact .add (l1 := [p]) (.single p) (ih fun x hx => hd x (by simp [hx]))
  | add _ _ ih1 ih2 => exact .add (ih1 fun x hx => hd x (by simp [hx])) (ih2 fun x hx => hd x (by simp [hx]))
  | perm _ hp ih => exact .perm (ih fun x hx => hd x (hp.mem_iff.1 hx)) hp

private theorem rnd_error {k : ℕ} {x s S : ℝ} (h : |x - s| ≤ gam k * S) (hs : |s| ≤ S) :
    |R.rnd x - s| ≤ gam (k + 1) * S := by
  have h1 := R.rel x
  change _ ≤ roundoff * _ at h1
  have h2 := abs_add_le (x - s) s
  rw [sub_add_cancel] at h2
  have h3 := abs_sub_le (R.rnd x) x s
  have h4 : roundoff * |x| ≤ roundoff * ((1 + gam k) * S) := mul_le_mul_of_nonneg_left (by linarith) roundoff_pos.le
  rw [gam_succ]
  linarith

/-- the result of adding up products is a double, and its error is at most `gam terms` times the sum of the magnitudes;
zero terms do not count -/
theorem FlAcc.error {l : List ℝ} {r : ℝ} (h : FlAcc R l r) :
    R.rnd r = r ∧ (nonzeros l = 0 → r = 0) ∧ |r - l.sum| ≤ gam (nonzeros l) * absSum l := by
  have szero : ∀ {l : List ℝ}, nonzeros l = 0 → l.sum = 0 ∧ absSum l = 0 := by
    intro l hl
    have := nonzeros_eq_zero hl
    constructor
    · exact List.sum_eq_zero this
    · apply List.sum_eq_zero
      intro x hx
      obtain ⟨y, hy, rfl⟩ := List.mem_map.1 hx
      rw [this y hy, abs_zero]
  have one : ∀ p : ℝ, p ≠ 0 → nonzeros [p] = 1 := by
    intro p hp
    simp [nonzeros, hp]
  have cons : ∀ (p : ℝ) (l : List ℝ), p :: l = [p] ++ l := fun _ _ => rfl
  have a1 : ∀ p : ℝ, absSum [p] = |p| := fun p => by simp [absSum]
  induction h with
  | nil => exact ⟨R.zero, fun _ => rfl, by simp [absSum]⟩
  | mul p =>
    refine ⟨R.idem _, fun h0 => ?_, ?_⟩
    · rw [nonzeros_eq_zero h0 p (by simp), R.zero]
    · by_cases hp : p = 0
      · subst hp
        simp [R.zero, absSum]
      · rw [one p hp, a1, List.sum_singleton]
        have := R.rel p
        simpa [gam, roundoff] using this
  | @fma l r p _ ih =>
    obtain ⟨d, z, e⟩ := ih
    refine ⟨R.idem _, fun h0 => ?_, ?_⟩
    · rw [cons, nonzeros_append] at h0
      rw [z (by omega), nonzeros_eq_zero (show nonzeros [p] = 0 by omega) p (by simp), add_zero, R.zero]
    · by_cases hp : p = 0
      · subst hp
        have hn : nonzeros ((0 : ℝ) :: l) = nonzeros l := by simp [nonzeros]
        rw [hn, zero_add, d, List.sum_cons, zero_add, cons, absSum_append, a1, abs_zero, zero_add]
        exact e
      · rw [cons, nonzeros_append, one p hp, absSum_append, a1, List.sum_append, List.sum_singleton, add_comm 1]
        apply rnd_error
        · rw [add_sub_add_left_eq_sub, mul_add]
          exact e.trans (le_add_of_nonneg_left (mul_nonneg (gam_nonneg _) (abs_nonneg _)))
        · exact (abs_add_le _ _).trans (add_le_add le_rfl (abs_sum_le _))
  | @add l1 l2 r1 r2 _ _ ih1 ih2 =>
    obtain ⟨d1, z1, e1⟩ := ih1
    obtain ⟨d2, z2, e2⟩ := ih2
    refine ⟨R.idem _, fun h0 => ?_, ?_⟩
    · rw [nonzeros_append] at h0
      rw [z1 (by omega), z2 (by omega), add_zero, R.zero]
    · rw [nonzeros_append, absSum_append, List.sum_append]
      by_cases c1 : nonzeros l1 = 0
      · obtain ⟨s1, a1⟩ := szero c1
        rw [z1 c1, zero_add, d2, s1, a1, c1]
        simpa using e2
      · by_cases c2 : nonzeros l2 = 0
        · obtain ⟨s2, a2⟩ := szero c2
          rw [z2 c2, add_zero, d1, s2, a2, c2]
          simpa using e1
        · have n1 := absSum_nonneg l1
          have n2 := absSum_nonneg l2
          obtain ⟨m, hm⟩ : ∃ m, nonzeros l1 + nonzeros l2 = m + 1 := ⟨nonzeros l1 + nonzeros l2 - 1, by omega⟩
          have b1 := e1.trans (mul_le_mul_of_nonneg_right (gam_mono (show nonzeros l1 ≤ m by omega)) n1)
          have b2 := e2.trans (mul_le_mul_of_nonneg_right (gam_mono (show nonzeros l2 ≤ m by omega)) n2)
          rw [hm]
          apply rnd_error
          · rw [add_sub_add_comm, mul_add]
            exact (abs_add_le _ _).trans (add_le_add b1 b2)
          · exact (abs_add_le _ _).trans (add_le_add (abs_sum_le _) (abs_sum_le _))
  | @perm l l' r _ hp ih =>
    have h1 : nonzeros l = nonzeros l' := by
      classical
      exact hp.countP_eq _
    rw [← h1, ← hp.sum_eq, ← show absSum l = absSum l' from (hp.map _).sum_eq]
    exact ih

/-- the sum over a list that covers the support of a row -/
theorem sum_support {n : ℕ} {l : List (Fin n)} (hl : l.Nodup) (g : Fin n → ℝ) (h : ∀ j, g j ≠ 0 → j ∈ l) :
    (l.map g).sum = ∑ j, g j := by
  classical
  rw [← List.sum_toFinset g hl]
  apply Finset.sum_subset (Finset.subset_univ _)
  intro j _ hj
  by_contra h0
  exact hj (List.mem_toFinset.2 (h j h0))

/-- number of non-zero entries of a row -/
noncomputable def support {n : ℕ} (a : Fin n → ℝ) : ℕ := by
  classical exact (Finset.univ.filter fun j => a j ≠ 0).card

theorem nonzeros_map_le {n : ℕ} {l : List (Fin n)} (hl : l.Nodup) (a g : Fin n → ℝ) (h : ∀ j, a j = 0 → g j = 0) :
    nonzeros (l.map g) ≤ support a := by
  classical
  unfold nonzeros support
  rw [List.countP_map, List.countP_eq_length_filter, ← List.toFinset_card_of_nodup (hl.filter _)]
  apply Finset.card_le_card
  intro j hj
  rw [List.mem_toFinset, List.mem_filter] at hj
  rw [Finset.mem_filter]
  refine ⟨Finset.mem_univ _, fun h0 => ?_⟩
  have := hj.2
  simp [h j h0] at this

/-- error of one entry of a product, when the products are doubles already -/
theorem FlDot.error_exact {n : ℕ} {a x : Fin n → ℝ} {y : ℝ} (h : FlDot R a x y)
    (hx : ∀ j, R.rnd (a j * x j) = a j * x j) :
    R.rnd y = y ∧ |y - ∑ j, a j * x j| ≤ gam (support a - 1) * ∑ j, |a j * x j| := by
  obtain ⟨l, hl, hc, hs⟩ := h
  have hd : ∀ z ∈ l.map (fun j => a j * x j), R.rnd z = z := by
    intro z hz
    obtain ⟨j, -, rfl⟩ := List.mem_map.1 hz
    exact hx j
  obtain ⟨d, -, he⟩ := (hs.toSum hd).error hd
  refine ⟨d, ?_⟩
  have hcov : ∀ j, a j * x j ≠ 0 → j ∈ l := fun j hj => hc j fun h0 => hj (by rw [h0, zero_mul])
  rw [sum_support hl _ hcov] at he
  have h2 : absSum (l.map fun j => a j * x j) = ∑ j, |a j * x j| := by
    unfold absSum
    rw [List.map_map]
    exact sum_support hl _ fun j hj => hcov j fun h0 => hj (by simp [h0])
  rw [h2] at he
  refine he.trans (mul_le_mul_of_nonneg_right (gam_mono ?_) (Finset.sum_nonneg fun j _ => abs_nonneg _))
  have := nonzeros_map_le hl a (fun j => a j * x j) fun j hj => by rw [hj, zero_mul]
  omega

/-- error of one entry of a product -/
theorem FlDot.error {n : ℕ} {a x : Fin n → ℝ} {y : ℝ} (h : FlDot R a x y) :
    R.rnd y = y ∧ |y - ∑ j, a j * x j| ≤ gam (support a) * ∑ j, |a j * x j| := by
  obtain ⟨l, hl, hc, hs⟩ := h
  obtain ⟨d, -, he⟩ := hs.error
  refine ⟨d, ?_⟩
  have hcov : ∀ j, a j * x j ≠ 0 → j ∈ l := fun j hj => hc j fun h0 => hj (by rw [h0, zero_mul])
  rw [sum_support hl _ hcov] at he
  have h2 : absSum (l.map fun j => a j * x j) = ∑ j, |a j * x j| := by
    unfold absSum
    rw [List.map_map]
    exact sum_support hl _ fun j hj => hcov j fun h0 => hj (by simp [h0])
  rw [h2] at he
  exact he.trans (mul_le_mul_of_nonneg_right
    (gam_mono (nonzeros_map_le hl a (fun j => a j * x j) fun j hj => by rw [hj, zero_mul]))
    (Finset.sum_nonneg fun j _ => abs_nonneg _))

/-- products and sums of whole numbers are exact -/
theorem FlDot.int_exact {n : ℕ} {a x : Fin n → ℝ} {y : ℝ} (h : FlDot R a x y)
    (hi : ∀ j, ∃ k : ℤ, a j * x j = k) (hs : ∑ j, |a j * x j| ≤ 2 ^ 53) : y = ∑ j, a j * x j := by
  obtain ⟨l, hl, hc, hsum⟩ := h
  have one : ∀ j, |a j * x j| ≤ 2 ^ 53 := fun j =>
    (Finset.single_le_sum (f := fun j => |a j * x j|) (fun j _ => abs_nonneg _) (Finset.mem_univ j)).trans hs
  have hx : ∀ j, R.rnd (a j * x j) = a j * x j := by
    intro j
    obtain ⟨k, hk⟩ := hi j
    have := one j
    rw [hk] at this ⊢
    exact R.int k (by exact_mod_cast this)
  replace hsum := hsum.toSum (by
    intro z hz
    obtain ⟨j, -, rfl⟩ := List.mem_map.1 hz
    exact hx j)
  have hcov : ∀ j, a j * x j ≠ 0 → j ∈ l := fun j hj => hc j fun h0 => hj (by rw [h0, zero_mul])
  rw [hsum.int_exact, sum_support hl _ hcov]
  · intro z hz
    obtain ⟨j, -, rfl⟩ := List.mem_map.1 hz
    exact hi j
  · unfold absSum
    rw [List.map_map]
    exact (sum_support hl _ fun j hj => hcov j fun h0 => hj (by simp [h0])).le.trans hs

end Pytspl
