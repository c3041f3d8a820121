import Verif.Model.FloatError
import Verif.Lemmas.FloatSum
import Verif.Lemmas.Double
import Verif.Props.FloatArith
import Verif.Props.BaseFilter

/-!
# C156: reported errors are accurate
-/

namespace Pytspl

open Matrix

variable {R : Rounding} {n : ℕ}

/-- within a relative error of `d` -/
private def Rel1 (d y x : ℝ) : Prop := |y - x| ≤ d * x

private theorem Rel1.rnd {d y x : ℝ} (h : Rel1 d y x) (hx : 0 ≤ x) (hd : d ≤ 1) :
    Rel1 (d + 1 / 2 ^ 52) (R.rnd y) x := by
  unfold Rel1 at *
  have h1 := R.rel y
  have h2 : |y| ≤ 2 * x := by
    have h3 : |y| ≤ |y - x| + |x| := by simpa using abs_add_le (y - x) x
    have h4 : d * x ≤ 1 * x := mul_le_mul_of_nonneg_right hd hx
    rw [abs_of_nonneg hx] at h3
    linarith
  have h5 : |R.rnd y - x| ≤ |R.rnd y - y| + |y - x| := by simpa using abs_add_le (R.rnd y - y) (y - x)
  have h6 : (1 : ℝ) / 2 ^ 53 * |y| ≤ 1 / 2 ^ 53 * (2 * x) := mul_le_mul_of_nonneg_left h2 (by positivity)
  have h7 : (1 : ℝ) / 2 ^ 53 * (2 * x) = 1 / 2 ^ 52 * x := by ring
  rw [add_mul]
  linarith

private theorem Rel1.sqrt {d s S : ℝ} (h : Rel1 d s S) (hS : 0 ≤ S) (hd : d ≤ 1) : Rel1 d (√s) (√S) := by
  unfold Rel1 at *
  rcases hS.eq_or_lt with h0 | hpos
  · rw [← h0, mul_zero] at h
    have : s = 0 := by
      have := abs_nonpos_iff.1 h
      linarith
    rw [this, ← h0]
    simp
  have hs : 0 ≤ s := by
    have := abs_le.1 h
    have h4 : d * S ≤ 1 * S := mul_le_mul_of_nonneg_right hd hS
    linarith
  have hq := Real.sqrt_pos.2 hpos
  have e : (√s - √S) * (√s + √S) = s - S := by
    have h1 := Real.mul_self_sqrt hs
    have h2 := Real.mul_self_sqrt hS
    linear_combination h1 - h2
  have h3 : |√s - √S| * (√s + √S) = |s - S| := by
    rw [← e, abs_mul, abs_of_nonneg (add_nonneg (Real.sqrt_nonneg s) hq.le)]
  have h4 : |√s - √S| * √S ≤ |s - S| := by
    rw [← h3]
    exact mul_le_mul_of_nonneg_left (by linarith [Real.sqrt_nonneg s]) (abs_nonneg _)
  have h5 : |√s - √S| * √S ≤ d * √S * √S := by
    rw [mul_assoc, Real.mul_self_sqrt hS]
    linarith
  exact le_of_mul_le_mul_right h5 hq

private theorem support_le' (a : Fin n → ℝ) : support a ≤ n := by
  unfold support
  refine (Finset.card_le_univ _).trans ?_
  rw [Fintype.card_fin]

/-- C156: the norm of a vector computed in doubles has a relative error of at most `(n + 1) / 2^52`. -/
theorem C156_norm (hn : n ≤ 2 ^ 52) (v : Fin n → ℝ) (y : ℝ) (h : FlNorm R v y) :
    |y - norm2 v| ≤ (n + 1) / 2 ^ 52 * norm2 v := by
  obtain ⟨s, hs, rfl⟩ := h
  have h1 := hs.error.2
  have h2 : ∑ j, |v j * v j| = v ⬝ᵥ v := Finset.sum_congr rfl fun j _ => abs_of_nonneg (mul_self_nonneg _)
  have h3 : gam (support v) ≤ n * (1 / 2 ^ 52) := (gam_mono (support_le' v)).trans (gam_le n (hn.trans (by norm_num)))
  have h0 : 0 ≤ v ⬝ᵥ v := Finset.sum_nonneg fun _ _ => mul_self_nonneg _
  have hn' : (n : ℝ) ≤ 2 ^ 52 := by exact_mod_cast hn
  have hr : Rel1 (n * (1 / 2 ^ 52)) s (v ⬝ᵥ v) := by
    unfold Rel1
    rw [h2] at h1
    exact h1.trans (mul_le_mul_of_nonneg_right h3 h0)
  have hd : (n : ℝ) * (1 / 2 ^ 52) ≤ 1 := by
    rw [mul_one_div, div_le_one (by positivity)]
    exact hn'
  have := (hr.sqrt h0 hd).rnd (R := R) (Real.sqrt_nonneg _) hd
  unfold Rel1 at this
  rw [add_div, ← mul_one_div (n : ℝ)]
  exact this

/-- the norm of the rounded differences -/
private theorem difference_norm (x t : Fin n → ℝ) :
    Rel1 (1 / 2 ^ 53) (norm2 fun i => R.rnd (x i - t i)) (norm2 (x - t)) := by
  unfold Rel1
  have hK : norm2 ((fun i => R.rnd (x i - t i)) - (x - t)) ≤ 1 / 2 ^ 53 * norm2 (x - t) := by
    refine Real.sqrt_le_iff.2 ⟨mul_nonneg (by positivity) (norm2_nonneg _), ?_⟩
    rw [mul_pow, norm2_sq, dotProduct, dotProduct, Finset.mul_sum]
    refine Finset.sum_le_sum fun i _ => ?_
    have := mul_self_le_mul_self (abs_nonneg _) (R.rel (x i - t i))
    rw [abs_mul_abs_self] at this
    calc _ ≤ 1 / 2 ^ 53 * |x i - t i| * (1 / 2 ^ 53 * |x i - t i|) := this
      _ = (1 / 2 ^ 53) ^ 2 * (|x i - t i| * |x i - t i|) := by ring
      _ = _ := by rw [abs_mul_abs_self]; rfl
  have t1 := norm2_add_le ((fun i => R.rnd (x i - t i)) - (x - t)) (x - t)
  have t2 := norm2_add_le (-((fun i => R.rnd (x i - t i)) - (x - t))) fun i => R.rnd (x i - t i)
  have e : norm2 (-((fun i => R.rnd (x i - t i)) - (x - t))) = norm2 ((fun i => R.rnd (x i - t i)) - (x - t)) := by
    unfold norm2
    rw [neg_dotProduct_neg]
  rw [sub_add_cancel] at t1
  rw [e, neg_sub, sub_add_cancel] at t2
  rw [abs_le]
  constructor <;> linarith

/-- C156: the error reported for an estimate has a relative error of at most `(3 n + 7) / 2^52`. -/
theorem C156_nrmse (hn : n ≤ 2 ^ 48) (x t : Fin n → ℝ) (e r : ℝ) (h : FlNRMSE R x t e)
    (hr : calculateErrorNRMSE x t = some r) : |e - r| ≤ (3 * n + 7) / 2 ^ 52 * r := by
  obtain ⟨a, b, ha, hb, hb0, rfl⟩ := h
  have hn52 : n ≤ 2 ^ 52 := hn.trans (by norm_num)
  have hn' : (n : ℝ) ≤ 2 ^ 48 := by exact_mod_cast hn
  unfold calculateErrorNRMSE fdiv at hr
  split_ifs at hr with hz
  simp only [Option.some.injEq] at hr
  have hN2 : 0 < norm2 t := lt_of_le_of_ne (norm2_nonneg t) (Ne.symm hz)
  have hN1 := norm2_nonneg (x - t)
  have h1 := C156_norm hn52 _ a ha
  have h2 := C156_norm hn52 _ b hb
  have h3 := difference_norm (R := R) x t
  unfold Rel1 at h3
  set N := norm2 (x - t)
  set D := norm2 fun i => R.rnd (x i - t i)
  set T := norm2 t
  set δ : ℝ := (n + 1) / 2 ^ 52
  have hδ0 : 0 ≤ δ := by positivity
  have hδ : δ ≤ 1 / 8 := by
    have : δ ≤ (2 ^ 48 + 1) / 2 ^ 52 := div_le_div_of_nonneg_right (by linarith) (by positivity)
    refine this.trans (by norm_num)
  have hD : D ≤ 2 * N := by
    have := (abs_le.1 h3).2
    linarith
  have h4 : |a - N| ≤ (δ + 1 / 2 ^ 52) * N := by
    have t := abs_add_le (a - D) (D - N)
    rw [sub_add_sub_cancel] at t
    have h5 : δ * D ≤ δ * ((1 + 1 / 2 ^ 53) * N) := mul_le_mul_of_nonneg_left (by linarith [(abs_le.1 h3).2]) hδ0
    have h6 : δ * (1 / 2 ^ 53 * N) ≤ 1 / 2 ^ 53 * N :=
      mul_le_of_le_one_left (by positivity) (hδ.trans (by norm_num))
    have h7 : (1 : ℝ) / 2 ^ 52 * N = 1 / 2 ^ 53 * N + 1 / 2 ^ 53 * N := by ring
    rw [add_mul]
    linarith
  have hbpos : 7 / 8 * T ≤ b := by
    have := (abs_le.1 h2).1
    have h8 : δ * T ≤ 1 / 8 * T := mul_le_mul_of_nonneg_right hδ hN2.le
    linarith
  have hb' : 0 < b := lt_of_lt_of_le (by positivity) hbpos
  have hq : Rel1 (8 / 7 * (2 * δ + 1 / 2 ^ 52)) (a / b) r := by
    unfold Rel1
    have e1 : a / b - r = ((a - N) - (b - T) * r) / b := by
      rw [← hr]
      field_simp
      ring
    have hr0 : 0 ≤ r := by rw [← hr]; exact div_nonneg hN1 hN2.le
    have e2 : N = r * T := by rw [← hr]; field_simp
    have h9 : |(a - N) - (b - T) * r| ≤ (2 * δ + 1 / 2 ^ 52) * (r * T) := by
      have t := abs_sub (a - N) ((b - T) * r)
      rw [abs_mul, abs_of_nonneg hr0] at t
      have h10 := mul_le_mul_of_nonneg_right h2 hr0
      rw [e2] at h4 t ⊢
      linarith
    rw [e1, abs_div, abs_of_pos hb', div_le_iff₀ hb']
    refine h9.trans ?_
    have h11 : 0 ≤ 8 / 7 * (2 * δ + 1 / 2 ^ 52) * r := by positivity
    have h12 := mul_le_mul_of_nonneg_left hbpos h11
    linarith
  have hr0 : 0 ≤ r := by rw [← hr]; exact div_nonneg hN1 hN2.le
  have := hq.rnd (R := R) hr0 (by norm_num; linarith)
  unfold Rel1 at this
  refine this.trans (mul_le_mul_of_nonneg_right ?_ hr0)
  have e3 : (3 * (n : ℝ) + 7) / 2 ^ 52 = 3 * δ + 4 / 2 ^ 52 := by simp only [δ]; ring
  rw [e3]
  norm_num
  linarith

/-- C156: an error can be computed whenever the true flow is not zero, and it is reported as zero only for an estimate
that is the true flow. -/
theorem C156_zero (hn : n ≤ 2 ^ 48) (x t : Fin n → ℝ) (ht : t ≠ 0) :
    (∃ e, FlNRMSE R x t e) ∧ (∀ b, FlNorm R t b → b ≠ 0) ∧ ∀ e, FlNRMSE R x t e → (e = 0 ↔ x = t) := by
  have hT : norm2 t ≠ 0 := fun h => ht (norm2_eq_zero.1 h)
  have hn' : (n : ℝ) ≤ 2 ^ 48 := by exact_mod_cast hn
  have nz : ∀ b, FlNorm R t b → b ≠ 0 := by
    intro b hb h0
    have := C156_norm (hn.trans (by norm_num)) t b hb
    rw [h0, zero_sub, abs_neg, abs_of_nonneg (norm2_nonneg t)] at this
    have hpos : 0 < norm2 t := lt_of_le_of_ne (norm2_nonneg t) (Ne.symm hT)
    have h1 : ((n : ℝ) + 1) / 2 ^ 52 < 1 := by
      rw [div_lt_one (by positivity)]
      have : (2 : ℝ) ^ 48 + 1 < 2 ^ 52 := by norm_num
      linarith
    have := mul_lt_mul_of_pos_right h1 hpos
    linarith
  have norms : ∀ v : Fin n → ℝ, ∃ y, FlNorm R v y := by
    intro v
    obtain ⟨s, hs⟩ := FlDot.exists R v v
    exact ⟨_, s, hs, rfl⟩
  refine ⟨?_, nz, ?_⟩
  · obtain ⟨a, ha⟩ := norms fun i => R.rnd (x i - t i)
    obtain ⟨b, hb⟩ := norms t
    exact ⟨_, a, b, ha, hb, nz b hb, rfl⟩
  · intro e he
    have hsome : calculateErrorNRMSE x t = some (norm2 (x - t) / norm2 t) := by
      unfold calculateErrorNRMSE fdiv
      rw [if_neg hT]
    have hb := C156_nrmse hn x t e _ he hsome
    have key : e = 0 ↔ norm2 (x - t) / norm2 t = 0 := by
      have hq : 0 ≤ norm2 (x - t) / norm2 t := div_nonneg (norm2_nonneg _) (norm2_nonneg _)
      constructor
      · intro h0
        rw [h0, zero_sub, abs_neg, abs_of_nonneg hq] at hb
        by_contra hne
        have hpos := lt_of_le_of_ne hq (Ne.symm hne)
        have h1 : (3 * (n : ℝ) + 7) / 2 ^ 52 < 1 := by
          rw [div_lt_one (by positivity)]
          have : (3 : ℝ) * 2 ^ 48 + 7 < 2 ^ 52 := by norm_num
          linarith
        have := mul_lt_mul_of_pos_right h1 hpos
        linarith
      · intro h0
        rw [h0, mul_zero, sub_zero] at hb
        exact abs_nonpos_iff.1 hb
    rw [key, div_eq_zero_iff, or_iff_left hT, norm2_eq_zero, sub_eq_zero]

/-- C156: the error reported for a computed estimate `y` compared with the exact error of the exact estimate `x`, when the
two are at most `d` apart (for `d` see C148, C149, C127 and C140). -/
theorem C156_estimate (hn : n ≤ 2 ^ 48) (x y t : Fin n → ℝ) (d e r : ℝ) (hd : norm2 (y - x) ≤ d) (h : FlNRMSE R y t e)
    (hr : calculateErrorNRMSE x t = some r) : |e - r| ≤ (3 * n + 7) / 2 ^ 52 * r + 2 * d / norm2 t := by
  have hn' : (n : ℝ) ≤ 2 ^ 48 := by exact_mod_cast hn
  unfold calculateErrorNRMSE fdiv at hr
  split_ifs at hr with hz
  rw [Option.some.injEq] at hr
  have hT : 0 < norm2 t := lt_of_le_of_ne (norm2_nonneg t) (Ne.symm hz)
  have h1 := C156_nrmse hn y t e (norm2 (y - t) / norm2 t) h (by unfold calculateErrorNRMSE fdiv; rw [if_neg hz])
  set δ : ℝ := (3 * n + 7) / 2 ^ 52
  have hδ0 : 0 ≤ δ := by positivity
  have hδ1 : δ ≤ 1 := by
    rw [div_le_one (by positivity)]
    have : (3 : ℝ) * 2 ^ 48 + 7 < 2 ^ 52 := by norm_num
    linarith
  have hd0 : 0 ≤ d := (norm2_nonneg _).trans hd
  have h2 : |norm2 (y - t) / norm2 t - r| ≤ d / norm2 t := by
    rw [← hr, ← sub_div, abs_div, abs_of_pos hT]
    refine div_le_div_of_nonneg_right ?_ hT.le
    have t1 := norm2_add_le (y - x) (x - t)
    have t2 := norm2_add_le (x - y) (y - t)
    have e1 : norm2 (x - y) = norm2 (y - x) := by
      rw [← neg_sub y x]
      unfold norm2
      rw [neg_dotProduct_neg]
    rw [sub_add_sub_cancel] at t1 t2
    rw [e1] at t2
    rw [abs_le]
    constructor <;> linarith
  have h3 : δ * (norm2 (y - t) / norm2 t) ≤ δ * r + d / norm2 t := by
    have h4 : norm2 (y - t) / norm2 t ≤ r + d / norm2 t := by linarith [(abs_le.1 h2).2]
    have h5 := mul_le_mul_of_nonneg_left h4 hδ0
    have h6 : δ * (d / norm2 t) ≤ d / norm2 t := mul_le_of_le_one_left (div_nonneg hd0 hT.le) hδ1
    rw [mul_add] at h5
    linarith
  have h7 := abs_add_le (e - norm2 (y - t) / norm2 t) (norm2 (y - t) / norm2 t - r)
  rw [sub_add_sub_cancel] at h7
  rw [mul_div_assoc]
  linarith

/-- C156: the mean of `k` reported errors has a relative error of at most `(3 n + 2 k + 8) / 2^52`. -/
theorem C156_mean (hn : n ≤ 2 ^ 48) (l : List ((Fin n → ℝ) × ℝ × ℝ)) (t : Fin n → ℝ) (hk : l.length ≤ 2 ^ 48)
    (hl : ∀ p ∈ l, FlNRMSE R p.1 t p.2.1 ∧ calculateErrorNRMSE p.1 t = some p.2.2) (y m : ℝ)
    (hy : FlMean R (l.map fun p => p.2.1) y) (hm : npMean (l.map fun p => calculateErrorNRMSE p.1 t) = some m) :
    |y - m| ≤ (3 * n + 2 * l.length + 8) / 2 ^ 52 * m := by
  obtain ⟨hne, s, hs, rfl⟩ := hy
  have hn' : (n : ℝ) ≤ 2 ^ 48 := by exact_mod_cast hn
  have hk' : (l.length : ℝ) ≤ 2 ^ 48 := by exact_mod_cast hk
  have hlen : (0 : ℝ) < l.length := by
    have : l ≠ [] := fun h => hne (by rw [h]; rfl)
    exact_mod_cast List.length_pos_iff.2 this
  set δ : ℝ := (3 * n + 7) / 2 ^ 52
  have hδ0 : 0 ≤ δ := by positivity
  have hδ1 : δ ≤ 1 / 4 := by
    have : δ ≤ (3 * 2 ^ 48 + 7) / 2 ^ 52 := div_le_div_of_nonneg_right (by linarith) (by positivity)
    exact this.trans (by norm_num)
  -- the exact errors
  have hm' : m = (l.map fun p => p.2.2).sum / l.length := by
    have e : (l.map fun p => calculateErrorNRMSE p.1 t) = (l.map fun p => p.2.2).map some := by
      rw [List.map_map]
      exact List.map_congr_left fun p hp => (hl p hp).2
    rw [e] at hm
    unfold npMean at hm
    have e2 : ∀ q : List ℝ, ((q.map some).mapM id : Option (List ℝ)) = some q := by
      intro q
      induction q with
      | nil => rfl
      | cons a q ih => rw [List.map_cons, List.mapM_cons, ih]; rfl
    rw [e2] at hm
    change fdiv _ _ = _ at hm
    unfold fdiv at hm
    split_ifs at hm with h0
    rw [Option.some.injEq] at hm
    rw [← hm, List.length_map]
  have hnonneg : ∀ p ∈ l, 0 ≤ p.2.2 := by
    intro p hp
    have := (hl p hp).2
    unfold calculateErrorNRMSE fdiv at this
    split_ifs at this
    rw [Option.some.injEq] at this
    rw [← this]
    exact div_nonneg (norm2_nonneg _) (norm2_nonneg _)
  set S := (l.map fun p => p.2.2).sum
  have hS0 : 0 ≤ S := List.sum_nonneg (by simpa using fun c a b hp => hnonneg (a, b, c) hp)
  -- the computed ones
  have entry : ∀ p ∈ l, |p.2.1 - p.2.2| ≤ δ * p.2.2 := fun p hp => C156_nrmse hn _ _ _ _ (hl p hp).1 (hl p hp).2
  have sums : ∀ l' : List ((Fin n → ℝ) × ℝ × ℝ), (∀ p ∈ l', |p.2.1 - p.2.2| ≤ δ * p.2.2) → (∀ p ∈ l', 0 ≤ p.2.2) →
      |(l'.map fun p => p.2.1).sum - (l'.map fun p => p.2.2).sum| ≤ δ * (l'.map fun p => p.2.2).sum ∧
      absSum (l'.map fun p => p.2.1) ≤ (1 + δ) * (l'.map fun p => p.2.2).sum := by
    intro l'
    induction l' with
    | nil => intro _ _; simp [absSum]
    | cons p l' ih =>
      intro h1 h2
      obtain ⟨i1, i2⟩ := ih (fun q hq => h1 q (List.mem_cons_of_mem _ hq)) fun q hq => h2 q (List.mem_cons_of_mem _ hq)
      have e1 := h1 p List.mem_cons_self
      have e2 := h2 p List.mem_cons_self
      simp only [List.map_cons, List.sum_cons, absSum] at i2 ⊢
      constructor
      · rw [add_sub_add_comm, mul_add]
        exact (abs_add_le _ _).trans (add_le_add e1 i1)
      · have : |p.2.1| ≤ (1 + δ) * p.2.2 := by
          have t := abs_add_le (p.2.1 - p.2.2) p.2.2
          rw [sub_add_cancel, abs_of_nonneg e2] at t
          linarith
        rw [mul_add]
        exact add_le_add this i2
  obtain ⟨s1, s2⟩ := sums l entry hnonneg
  have h3 := hs.error.2.2
  have hg : gam (nonzeros (l.map fun p => p.2.1)) ≤ l.length * (1 / 2 ^ 52) := by
    refine (gam_mono ?_).trans (gam_le l.length (hk.trans (by norm_num)))
    unfold nonzeros
    exact List.countP_le_length.trans_eq (List.length_map _)
  have hg' : (l.length : ℝ) * (1 / 2 ^ 52) ≤ 1 / 16 := by
    have := mul_le_mul_of_nonneg_right hk' (show (0 : ℝ) ≤ 1 / 2 ^ 52 by positivity)
    exact this.trans (by norm_num)
  set g : ℝ := l.length * (1 / 2 ^ 52)
  have hg0 : 0 ≤ g := by positivity
  have h4 : Rel1 (δ + 5 / 4 * g) s S := by
    unfold Rel1
    have h5 : gam (nonzeros (l.map fun p => p.2.1)) * absSum (l.map fun p => p.2.1) ≤ g * (5 / 4 * S) :=
      mul_le_mul hg (s2.trans (mul_le_mul_of_nonneg_right (by linarith) hS0)) (absSum_nonneg _) hg0
    have t := abs_add_le (s - (l.map fun p => p.2.1).sum) ((l.map fun p => p.2.1).sum - S)
    rw [sub_add_sub_cancel] at t
    rw [add_mul]
    linarith
  have hm0 : 0 ≤ m := by rw [hm']; exact div_nonneg hS0 hlen.le
  have h6 : Rel1 (δ + 5 / 4 * g) (s / (l.map fun p => p.2.1).length) m := by
    unfold Rel1 at h4 ⊢
    rw [hm', List.length_map, ← sub_div, abs_div, abs_of_pos hlen, ← mul_div_assoc]
    exact div_le_div_of_nonneg_right h4 hlen.le
  have := h6.rnd (R := R) hm0 (by linarith)
  unfold Rel1 at this
  refine this.trans (mul_le_mul_of_nonneg_right ?_ hm0)
  have e3 : (3 * (n : ℝ) + 2 * l.length + 8) / 2 ^ 52 = δ + 2 * g + 1 / 2 ^ 52 := by simp only [δ, g]; ring
  rw [e3]
  linarith

/-- Non-vacuity of C156: two flows with an error that is not zero. -/
example : ∃ x t : Fin 3 → ℝ, IsDoubles double x ∧ IsDoubles double t ∧ x ≠ t ∧
    ∃ e r, FlNRMSE double x t e ∧ calculateErrorNRMSE x t = some r ∧ e ≠ 0 := by
  have ht : (fun _ => 1 : Fin 3 → ℝ) ≠ 0 := fun h => one_ne_zero (congrFun h 0)
  have hne : (fun i => double.rnd ((i : ℝ) / 10) : Fin 3 → ℝ) ≠ fun _ => 1 := by
    intro h
    have := congrFun h 0
    simp [double.zero] at this
  obtain ⟨⟨e, he⟩, -, hz⟩ := C156_zero (R := double) (n := 3) (by norm_num) (fun i => double.rnd ((i : ℝ) / 10))
    (fun _ => 1) ht
  refine ⟨_, _, fun j => double.idem _, fun j => ?_, hne, e,
    norm2 ((fun i => double.rnd ((i : ℝ) / 10) : Fin 3 → ℝ) - fun _ => 1) / norm2 (fun _ => 1 : Fin 3 → ℝ), he, ?_, fun h0 => hne ((hz e he).1 h0)⟩
  · have := double.int 1 (by norm_num)
    simpa using this
  · unfold calculateErrorNRMSE fdiv
    rw [if_neg fun h => ht (norm2_eq_zero.1 h)]

end Pytspl
