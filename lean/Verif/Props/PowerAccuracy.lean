import Verif.Props.FilterAccuracy
import Verif.Lemmas.TrendLib
import Verif.Lemmas.NumLibExists

/-!
# How far the estimated largest eigenvalue is from an eigenvalue (C152)
-/

namespace Pytspl

open Matrix

variable {n : ℕ}

/-- `r` only has parts of frequency at most `mu`: it is orthogonal to every eigenvector with a larger eigenvalue -/
def BelowFrequency (P : Matrix (Fin n) (Fin n) ℝ) (mu : ℝ) (r : Fin n → ℝ) : Prop :=
  ∀ (x : ℝ) (z : Fin n → ℝ), mu < x → P.mulVec z = x • z → r ⬝ᵥ z = 0

private theorem pow_eig {P : Matrix (Fin n) (Fin n) ℝ} {u : Fin n → ℝ} {lam : ℝ} (hu : P.mulVec u = lam • u) (k : ℕ) :
    (P ^ k).mulVec u = lam ^ k • u := by
  induction k with
  | zero => simp
  | succ k ih => rw [pow_succ, ← mulVec_mulVec, hu, mulVec_smul, ih, smul_smul, pow_succ']

/-- powers of the matrix shrink the low frequencies -/
private theorem low_decay {P : Matrix (Fin n) (Fin n) ℝ} (hP : SymmPSD P) {lam mu : ℝ} (hmu : 0 ≤ mu) (hlt : mu < lam)
    {r : Fin n → ℝ} (hr : BelowFrequency P mu r) (k : ℕ) :
    norm2 (P.mulVec ((P ^ k).mulVec r) - lam • (P ^ k).mulVec r) ≤ lam * mu ^ k * norm2 r := by
  obtain ⟨lib⟩ := NumLib.exists
  have h := lib.isEig hP
  set U := (lib.eigh n P).2
  set w := (lib.eigh n P).1
  set a := U.transpose.mulVec r with ha
  have hr' : r = U.mulVec a := by rw [ha, mulVec_mulVec, h.orth', one_mulVec]
  have ha0 : ∀ i, mu < w i → a i = 0 := fun i hi => by
    have := hr (w i) (fun k => U k i) hi (h.col_eig i)
    rw [dotProduct_comm] at this
    exact this
  have hstep : ∀ x : Fin n → ℝ, P.mulVec (U.mulVec x) = U.mulVec fun i => w i * x i := fun x => by
    rw [mulVec_mulVec, h.eig, ← mulVec_mulVec]
    congr 1
    funext i
    rw [mulVec_diagonal]
  have hpow : ∀ k : ℕ, (P ^ k).mulVec r = U.mulVec fun i => w i ^ k * a i := by
    intro k
    induction k with
    | zero => simpa using hr'
    | succ k ih =>
      rw [pow_succ', ← mulVec_mulVec, ih, hstep]
      congr 1
      funext i
      ring
  set d : Fin n → ℝ := fun i => if w i ≤ mu then w i ^ k * (w i - lam) else 0 with hd
  have hM : (U * diagonal d * U.transpose) * U = U * diagonal d := by
    rw [Matrix.mul_assoc, h.orth, Matrix.mul_one]
  have hval : P.mulVec ((P ^ k).mulVec r) - lam • (P ^ k).mulVec r = (U * diagonal d * U.transpose).mulVec r := by
    rw [hpow, hstep, ← mulVec_smul, ← mulVec_sub, ← mulVec_mulVec, ← ha, ← mulVec_mulVec]
    congr 1
    funext i
    rw [mulVec_diagonal]
    simp only [Pi.sub_apply, Pi.smul_apply, smul_eq_mul, hd]
    split_ifs with hi
    · ring
    · rw [ha0 i (not_le.1 hi)]; ring
  rw [hval]
  refine h.norm2_le hM (fun i => ?_) r
  have hw := h.nonneg hP i
  simp only [hd]
  split_ifs with hi
  · rw [abs_mul, abs_of_nonneg (pow_nonneg hw k), abs_of_nonpos (by linarith), mul_comm]
    exact mul_le_mul (by linarith) (pow_le_pow_left₀ hw hi k) (pow_nonneg hw k) (by linarith)
  · rw [abs_zero]
    have : 0 < lam := by linarith
    positivity

/-- C152, the part that holds: split the all-ones flow into an eigenvector `u` for the eigenvalue `lam` and a rest `r` that
only has frequencies at most `mu < lam`.  Then the estimate is off `lam` by at most the stated amount, which the 50 passes
shrink by `(mu / lam) ^ 50`.  Missing: `lam` need not be the largest eigenvalue (see `C152_counterexample`). -/
theorem C152_estimate_partial (P : Matrix (Fin n) (Fin n) ℝ) (hP : SymmPSD P) (lam mu : ℝ) (hmu : 0 ≤ mu) (hlt : mu < lam)
    (u r : Fin n → ℝ) (hone : (fun _ => 1) = u + r) (hu0 : u ≠ 0) (hu : P.mulVec u = lam • u)
    (hr : BelowFrequency P mu r) {v : Fin n → ℝ} (hv : powerIteration P = some v) {delta : ℝ} (hdel : 0 < delta)
    (hvd : ∀ i, delta ≤ |v i|) :
    ∃ est, lambdaMax P = some est ∧
      |est - lam| ≤ lam * norm2 r * ((mu / lam) ^ 50 / norm2 u + machineEps) / delta := by
  have hlam : 0 < lam := by linarith
  have hn : 0 < n := by
    rcases Nat.eq_zero_or_pos n with rfl | h
    · exact absurd (funext fun i => i.elim0) hu0
    · exact h
  set w := (P ^ 50).mulVec (fun _ => (1 : ℝ)) with hw
  have hwu : w = lam ^ 50 • u + (P ^ 50).mulVec r := by rw [hw, hone, mulVec_add, pow_eig hu]
  have hne : w ≠ 0 := by
    intro h0
    rw [(C50_power_iteration P 50 (by norm_num)).1 h0] at hv
    cases hv
  have hpT : (P ^ 50).transpose = P ^ 50 := by rw [transpose_pow, hP.1]
  have hort : u ⬝ᵥ (P ^ 50).mulVec r = 0 := by
    rw [dot_mulVec_transpose, hpT, pow_eig hu, smul_dotProduct, dotProduct_comm, hr lam u hlt hu, smul_zero]
  have hun : 0 < norm2 u := lt_of_le_of_ne (norm2_nonneg _) fun h => hu0 (norm2_eq_zero.1 h.symm)
  have hwn : lam ^ 50 * norm2 u ≤ norm2 w := by
    have h1 : lam ^ 50 * norm2 u = norm2 (lam ^ 50 • u) := by rw [norm2_smul, abs_of_pos (pow_pos hlam 50)]
    rw [h1]
    unfold norm2
    apply Real.sqrt_le_sqrt
    rw [hwu]
    have hort' : (P ^ 50).mulVec r ⬝ᵥ u = 0 := by rw [dotProduct_comm, hort]
    simp only [add_dotProduct, dotProduct_add, smul_dotProduct, dotProduct_smul, hort, hort', smul_zero, add_zero, zero_add]
    have := dot_self_nonneg ((P ^ 50).mulVec r)
    linarith
  have hwpos : 0 < norm2 w := lt_of_lt_of_le (by positivity) hwn
  have hveq : v = (norm2 w)⁻¹ • w + machineEps • fun _ => (1 : ℝ) := by
    rw [(C50_power_iteration P 50 (by norm_num)).2 hne] at hv
    rw [← Option.some.inj hv]
    funext i
    simp only [Pi.add_apply, Pi.smul_apply, smul_eq_mul, mul_one]
    rw [div_eq_inv_mul]
    rfl
  have hres : P.mulVec v - lam • v =
      (norm2 w)⁻¹ • (P.mulVec ((P ^ 50).mulVec r) - lam • (P ^ 50).mulVec r) + machineEps • (P.mulVec r - lam • r) := by
    rw [hveq, hwu, hone]
    simp only [mulVec_add, mulVec_smul, hu]
    funext i
    simp only [Pi.add_apply, Pi.sub_apply, Pi.smul_apply, smul_eq_mul]
    ring
  set bound := lam * norm2 r * ((mu / lam) ^ 50 / norm2 u + machineEps) with hb
  have hbnd : norm2 (P.mulVec v - lam • v) ≤ bound := by
    rw [hres]
    refine (norm2_add_le _ _).trans ?_
    rw [norm2_smul, norm2_smul, abs_of_pos (inv_pos.2 hwpos), abs_of_pos machineEps_pos]
    have h1 := low_decay hP hmu hlt hr 50
    have h2 := low_decay hP hmu hlt hr 0
    simp only [pow_zero, one_mulVec, mul_one] at h2
    have h3 : (norm2 w)⁻¹ * norm2 (P.mulVec ((P ^ 50).mulVec r) - lam • (P ^ 50).mulVec r) ≤
        (lam ^ 50 * norm2 u)⁻¹ * (lam * mu ^ 50 * norm2 r) :=
      mul_le_mul (inv_anti₀ (by positivity) hwn) h1 (norm2_nonneg _) (by positivity)
    have h4 := mul_le_mul_of_nonneg_left h2 machineEps_pos.le
    have h5 : bound = (lam ^ 50 * norm2 u)⁻¹ * (lam * mu ^ 50 * norm2 r) + machineEps * (lam * norm2 r) := by
      rw [hb, div_pow]
      field_simp
    rw [h5]
    exact add_le_add h3 h4
  have hvi : ∀ i, v i ≠ 0 := fun i h0 => by
    have := hvd i
    rw [h0, abs_zero] at this
    linarith
  refine ⟨(∑ i, P.mulVec v i / v i) / n, ?_, ?_⟩
  · rw [lambdaMax, hv]
    simp only [Option.bind_eq_bind, Option.bind_some]
    rw [if_neg]
    rintro (⟨i, hi⟩ | h0)
    · exact hvi i hi
    · omega
  · have hn' : (0 : ℝ) < n := by exact_mod_cast hn
    have h1 : (∑ i, P.mulVec v i / v i) / n - lam = (∑ i, (P.mulVec v - lam • v) i / v i) / n := by
      have : ∀ i, (P.mulVec v - lam • v) i / v i = P.mulVec v i / v i - lam := fun i => by
        have := hvi i
        simp only [Pi.sub_apply, Pi.smul_apply, smul_eq_mul]
        field_simp
      rw [Finset.sum_congr rfl fun i _ => this i, Finset.sum_sub_distrib, Finset.sum_const, Finset.card_univ,
        Fintype.card_fin, nsmul_eq_mul]
      field_simp
    rw [h1, abs_div, abs_of_pos hn', div_le_iff₀ hn']
    refine (Finset.abs_sum_le_sum_abs _ _).trans ?_
    refine (Finset.sum_le_sum (g := fun _ => bound / delta) fun i _ => ?_).trans ?_
    · rw [abs_div]
      exact div_le_div₀ ((norm2_nonneg _).trans hbnd) ((abs_le_norm2 _ i).trans hbnd) hdel (hvd i)
    · rw [Finset.sum_const, Finset.card_univ, Fintype.card_fin, nsmul_eq_mul, mul_comm]

/-- C152: the same bound for the numbers the Chebyshev design works with; the domain shift is half the estimate. -/
theorem C152_alpha_partial (sc : SC ℝ) (pChoice : String) (P : Matrix (Fin sc.E) (Fin sc.E) ℝ)
    (hP : sc.getPMatrix pChoice = .ok P) (lam mu : ℝ) (hmu : 0 ≤ mu) (hlt : mu < lam) (u r : Fin sc.E → ℝ)
    (hone : (fun _ => 1) = u + r) (hu0 : u ≠ 0) (hu : P.mulVec u = lam • u) (hr : BelowFrequency P mu r)
    {v : Fin sc.E → ℝ} (hv : powerIteration P = some v) {delta : ℝ} (hdel : 0 < delta) (hvd : ∀ i, delta ≤ |v i|) :
    ∃ alpha est, Cheb.getAlpha sc pChoice = .ok (alpha, est) ∧ alpha = est / 2 ∧
      |est - lam| ≤ lam * norm2 r * ((mu / lam) ^ 50 / norm2 u + machineEps) / delta := by
  obtain ⟨est, h1, h2⟩ :=
    C152_estimate_partial P (getPMatrix_psd hP) lam mu hmu hlt u r hone hu0 hu hr hv hdel hvd
  refine ⟨est / 2, est, ?_, rfl, h2⟩
  simp only [Cheb.getAlpha, hP, bind, Except.bind, h1]
  rfl

/-- C152 is false in full: on the path with two edges the estimate is 1 although 3 is an eigenvalue, the Chebyshev series
is evaluated at 5 for it, outside of `[-1, 1]`, and the grid of the grid-based design, of any size, stops at 1. -/
theorem C152_counterexample :
    Cheb.getAlpha path2 "L1L" = .ok (1 / 2, 1) ∧ IsEigenvalue path2.L1l 3 ∧ ((3 : ℝ) - 1 / 2) / (1 / 2) = 5 ∧
    ∀ num : ℕ, 2 ≤ num → ∃ pts, GridFilter.sampleGridPoints path2.L1l num = .ok (some pts) ∧ pts.length = num ∧
      ∀ x ∈ pts, x ≤ 1 := by
  have hone : path2.L1l.mulVec (fun _ => 1) = (1 : ℝ) • fun _ => 1 := by
    rw [path2, SC.ofInt_L1l]
    have := mulVec_int (path2B1.transpose * path2B1) (fun _ => 1) (fun _ => 1) (by decide +kernel)
    have h1 : (fun _ : Fin 2 => ((1 : ℤ) : ℝ)) = fun _ => 1 := by funext; simp
    rw [h1] at this
    rw [one_smul]
    exact this
  have hl := ((C50_finite_iff path2.L1l (getPMatrix_psd (sc := path2) (p := "L1L") rfl) 1 le_rfl).2 1 one_pos
    (by decide) hone).2
  refine ⟨?_, ?_, by norm_num, fun num hn => ?_⟩
  · have hp : path2.getPMatrix "L1L" = .ok path2.L1l := rfl
    simp only [Cheb.getAlpha, hp, bind, Except.bind, hl]
    rfl
  · rw [path2, SC.ofInt_L1l]
    exact isEigenvalue_int (path2B1.transpose * path2B1) ![1, -1] 3 0 (by decide) (by decide +kernel)
  · refine ⟨(List.range num).map fun i : ℕ => (i : ℝ) * (1 / ((num : ℝ) - 1)), ?_, ?_, ?_⟩
    · have : ¬ ((num : Int) < 0) := by omega
      simp only [GridFilter.sampleGridPoints, hl, GridFilter.linspace0, if_neg this, bind, Except.bind, pure, Except.pure, Int.toNat_natCast]
    · simp
    · intro x hx
      obtain ⟨i, hi, rfl⟩ := List.mem_map.1 hx
      have hi' := List.mem_range.1 hi
      have h1 : (i : ℝ) + 1 ≤ num := by exact_mod_cast hi'
      have h2 : (2 : ℝ) ≤ num := by exact_mod_cast hn
      rw [mul_one_div, div_le_one (by linarith)]
      linarith

/-- non-vacuity: on the filled triangle the estimate for the lower Laplacian is 3 up to a few units of machine epsilon -/
theorem C152_triangle : ∃ est, lambdaMax tri.L1l = some est ∧ |est - 3| ≤ 6 * machineEps := by
  have hpsd : SymmPSD tri.L1l := getPMatrix_psd (sc := tri) (p := "L1L") rfl
  rw [tri, SC.ofInt_L1l] at hpsd ⊢
  set M : Matrix (Fin 3) (Fin 3) ℝ := (triB1.transpose * triB1).map (Int.cast : ℤ → ℝ) with hM
  set d : Fin 3 → ℝ := fun k => ((![1, 2, 1] : Fin 3 → ℤ) k : ℝ) with hd
  set q : Fin 3 → ℝ := fun k => ((![1, -1, 1] : Fin 3 → ℤ) k : ℝ) with hq
  have hMd : M.mulVec d = (3 : ℝ) • d := by
    have := mulVec_int (triB1.transpose * triB1) ![1, 2, 1] (3 • ![1, 2, 1]) (by decide +kernel)
    rw [hM, hd, this]
    funext k; fin_cases k <;> norm_num
  have hMq : M.mulVec q = 0 := by
    have := mulVec_int (triB1.transpose * triB1) ![1, -1, 1] 0 (by decide +kernel)
    rw [hM, hq, this]
    funext k; simp
  have hMT : M.transpose = M := hpsd.1
  have hone : (fun _ : Fin 3 => (1 : ℝ)) = (2 / 3 : ℝ) • d + (1 / 3 : ℝ) • q := by
    funext k; fin_cases k <;> norm_num [hd, hq]
  have hdd : d ⬝ᵥ d = 6 := by simp [hd, dotProduct, Fin.sum_univ_three]; norm_num
  have hqq : q ⬝ᵥ q = 3 := by simp [hq, dotProduct, Fin.sum_univ_three]; norm_num
  have hd0 : d ≠ 0 := by
    intro h; rw [h] at hdd; simp at hdd
  have hpow : (M ^ 50).mulVec (fun _ => 1) = (2 / 3 * 3 ^ 50 : ℝ) • d := by
    rw [hone, mulVec_add, mulVec_smul, mulVec_smul, pow_eig hMd, pow_eig (lam := 0) (by rw [hMq, zero_smul])]
    simp [smul_smul]
  have hs : Real.sqrt 6 ≤ 5 / 2 := by rw [Real.sqrt_le_left (by norm_num)]; norm_num
  have hs0 : 0 < Real.sqrt 6 := Real.sqrt_pos.2 (by norm_num)
  have hne : (M ^ 50).mulVec (fun _ => 1) ≠ 0 := by
    rw [hpow]
    exact smul_ne_zero (by norm_num) hd0
  have hnrm : Real.sqrt ((M ^ 50).mulVec (fun _ => 1) ⬝ᵥ (M ^ 50).mulVec (fun _ => 1)) = 2 / 3 * 3 ^ 50 * Real.sqrt 6 := by
    rw [hpow, smul_dotProduct, dotProduct_smul, hdd, smul_eq_mul, smul_eq_mul, ← mul_assoc, ← sq,
      Real.sqrt_mul (sq_nonneg _), Real.sqrt_sq (by norm_num)]
  obtain ⟨est, h1, h2⟩ := C152_estimate_partial (n := 3) M hpsd 3 0 le_rfl (by norm_num) ((2 / 3 : ℝ) • d) ((1 / 3 : ℝ) • q)
    hone (smul_ne_zero (by norm_num) hd0) (by rw [mulVec_smul, hMd, smul_comm])
    (fun x z hx hz => by
      have e : x * (q ⬝ᵥ z) = 0 := by
        have : q ⬝ᵥ M.mulVec z = 0 := by rw [dot_mulVec_transpose, hMT, hMq, zero_dotProduct]
        rwa [hz, dotProduct_smul, smul_eq_mul] at this
      rw [smul_dotProduct, (mul_eq_zero.1 e).resolve_left hx.ne', smul_zero])
    ((C50_power_iteration M 50 (by norm_num)).2 hne) (delta := 2 / 5) (by norm_num)
    (fun i => by
      rw [hnrm, hpow, Pi.smul_apply, smul_eq_mul, mul_div_mul_left _ _ (by norm_num)]
      have hdi : 1 ≤ d i := by fin_cases i <;> norm_num [hd]
      have h3 : 2 / 5 ≤ d i / Real.sqrt 6 := by
        rw [le_div_iff₀ hs0]; linarith
      rw [abs_of_nonneg (by linarith [machineEps_pos])]
      linarith [machineEps_pos])
  refine ⟨est, h1, h2.trans ?_⟩
  have hqn : norm2 q ≤ 9 / 5 := by
    rw [norm2, hqq, Real.sqrt_le_left (by norm_num)]; norm_num
  rw [norm2_smul, zero_div, zero_pow (by norm_num), zero_div, zero_add, abs_of_pos (by norm_num)]
  have := mul_le_mul_of_nonneg_right hqn machineEps_pos.le
  have h6 := machineEps_pos
  rw [div_le_iff₀ (by norm_num)]
  nlinarith

end Pytspl
