import Verif.Props.FilterAccuracy
import Verif.Props.EdgeFlow
import Verif.Props.Chebyshev
import Mathlib.Analysis.SpecialFunctions.Trigonometric.Chebyshev.Extremal
import Mathlib.Analysis.SpecialFunctions.Trigonometric.Chebyshev.RootsExtrema
import Mathlib.Analysis.Calculus.Deriv.Polynomial
import Mathlib.Analysis.Calculus.MeanValue

/-!
# C166: how close the grid-based denoising comes to the edge-flow denoising
-/

namespace Pytspl

open Matrix Polynomial

variable {lib : NumLib} {sc : SC ℝ} {E d M : ℕ}

/-! ## Polynomials on a grid -/

private theorem deriv_T_one (d : ℕ) : (derivative (Chebyshev.T ℝ d)).eval 1 = (d : ℝ) ^ 2 := by
  have h := Chebyshev.iterate_derivative_T_eval_one (R := ℝ) d 1
  simpa using h

/-- Markov's inequality at the right end of an interval starting at 0 -/
private theorem deriv_right {p : ℝ[X]} (hd : p.natDegree ≤ d) {x S : ℝ} (hx : 0 < x) (hS : 0 < S)
    (h : ∀ y ∈ Set.Icc 0 x, |p.eval y| ≤ S) : (derivative p).eval x ≤ 2 * d ^ 2 * S / x := by
  set q : ℝ[X] := C (1 / S) * p.comp (C (x / 2) * (X + 1)) with hq
  have hdeg : q.degree ≤ d := by
    refine degree_le_of_natDegree_le ?_
    refine (natDegree_C_mul_le _ _).trans ?_
    refine natDegree_comp_le.trans ?_
    have h1 : (C (x / 2) * (X + 1) : ℝ[X]).natDegree ≤ 1 := by
      refine (natDegree_C_mul_le _ _).trans ?_
      have : (X + 1 : ℝ[X]).natDegree = 1 := natDegree_X_add_C (1 : ℝ)
      exact this.le
    calc p.natDegree * _ ≤ d * 1 := Nat.mul_le_mul hd h1
      _ = d := mul_one d
  have hb : ∀ t ∈ Set.Icc (-1 : ℝ) 1, |q.eval t| ≤ 1 := by
    intro t ht
    have h2 := h (x / 2 * (t + 1)) ⟨by have := ht.1; apply mul_nonneg <;> linarith, by nlinarith [ht.2]⟩
    simp only [hq, eval_mul, eval_C, eval_comp, eval_add, eval_X, eval_one]
    rw [abs_mul, abs_of_pos (by positivity), one_div, inv_mul_le_iff₀ hS, mul_one]
    exact h2
  have h3 := Chebyshev.eval_iterate_derivative_le_of_forall_abs_le_one (k := 1) (le_refl (1 : ℝ)) hdeg hb
  simp only [Function.iterate_one, deriv_T_one] at h3
  have h4 : (derivative q).eval 1 = 1 / S * (x / 2 * (derivative p).eval x) := by
    simp only [hq, derivative_mul, derivative_C, derivative_comp, derivative_add, derivative_X, derivative_one,
      eval_mul, eval_C, eval_comp, eval_add, eval_X, eval_one, zero_mul, zero_add, add_zero, mul_one]
    rw [show x / 2 * (1 + 1) = x by ring]
  rw [h4] at h3
  rw [le_div_iff₀ hx]
  have h5 : 1 / S * (x / 2 * (derivative p).eval x) * (2 * S) = (derivative p).eval x * x := by
    field_simp
  nlinarith

private theorem abs_deriv_right {p : ℝ[X]} (hd : p.natDegree ≤ d) {x S : ℝ} (hx : 0 < x) (hS : 0 < S)
    (h : ∀ y ∈ Set.Icc 0 x, |p.eval y| ≤ S) : |(derivative p).eval x| ≤ 2 * d ^ 2 * S / x := by
  refine abs_le.2 ⟨?_, deriv_right hd hx hS h⟩
  have := deriv_right (p := -p) (d := d) (by rwa [natDegree_neg]) hx hS (fun y hy => by rw [eval_neg, abs_neg]; exact h y hy)
  rw [derivative_neg, eval_neg] at this
  linarith

/-- a weak form of Markov's inequality on `[0, Λ]` -/
private theorem markov {p : ℝ[X]} (hd : p.natDegree ≤ d) {lam S : ℝ} (hl : 0 < lam) (hS : 0 < S)
    (h : ∀ y ∈ Set.Icc 0 lam, |p.eval y| ≤ S) {x : ℝ} (hx : x ∈ Set.Icc 0 lam) :
    |(derivative p).eval x| ≤ 4 * d ^ 2 * S / lam := by
  have key : ∀ {p : ℝ[X]}, p.natDegree ≤ d → (∀ y ∈ Set.Icc 0 lam, |p.eval y| ≤ S) → ∀ {x : ℝ}, lam / 2 ≤ x →
      x ≤ lam → |(derivative p).eval x| ≤ 4 * d ^ 2 * S / lam := by
    intro p hd h x hx hx'
    have hx0 : 0 < x := by linarith
    refine (abs_deriv_right hd hx0 hS fun y hy => h y ⟨hy.1, hy.2.trans hx'⟩).trans ?_
    rw [div_le_div_iff₀ hx0 hl]
    have : 0 ≤ (d : ℝ) ^ 2 * S := by positivity
    nlinarith
  rcases le_total (lam / 2) x with hx' | hx'
  · exact key hd h hx' hx.2
  · have h1 : (p.comp (C lam - X)).natDegree ≤ d := by
      refine natDegree_comp_le.trans ?_
      have : (C lam - X : ℝ[X]).natDegree ≤ 1 := by
        rw [natDegree_sub, natDegree_X_sub_C]
      calc p.natDegree * _ ≤ d * 1 := Nat.mul_le_mul hd this
        _ = d := mul_one d
    have h2 := key h1 (fun y hy => by
      rw [eval_comp, eval_sub, eval_C, eval_X]
      exact h _ ⟨by linarith [hy.2], by linarith [hy.1]⟩) (x := lam - x) (by linarith) (by linarith [hx.1])
    rw [derivative_comp, eval_mul, eval_comp] at h2
    simpa using h2

/-- A polynomial of degree at most `d` that is at most `B` at `M` evenly spaced points is at most `2 B` between them if
`M > 4 d²`. -/
theorem grid_sup {p : ℝ[X]} (hd : p.natDegree ≤ d) {lam B : ℝ} (hl : 0 < lam) (hM : 2 ≤ M) (hdM : 4 * d ^ 2 ≤ M - 1)
    (hB : ∀ i < M, |p.eval (i * (lam / ((M : ℝ) - 1)))| ≤ B) {x : ℝ} (hx : x ∈ Set.Icc 0 lam) : |p.eval x| ≤ 2 * B := by
  obtain ⟨x0, hx0, hmax⟩ := (isCompact_Icc (a := (0 : ℝ)) (b := lam)).exists_isMaxOn ⟨0, by simp [hl.le]⟩
    (f := fun y => |p.eval y|) p.differentiable.continuous.abs.continuousOn
  have hS : ∀ y ∈ Set.Icc 0 lam, |p.eval y| ≤ |p.eval x0| := fun y hy => hmax hy
  refine (hS x hx).trans ?_
  have hB0 : 0 ≤ B := (abs_nonneg _).trans (hB 0 (by omega))
  rcases (abs_nonneg (p.eval x0)).eq_or_lt with h0 | h0
  · rw [← h0]; linarith
  set S := |p.eval x0| with hSdef
  have hM1 : (0 : ℝ) < (M : ℝ) - 1 := by
    have : (2 : ℝ) ≤ M := by exact_mod_cast hM
    linarith
  have hMc : ((M - 1 : ℕ) : ℝ) = (M : ℝ) - 1 := by rw [Nat.cast_sub (by omega)]; simp
  set g := lam / ((M : ℝ) - 1) with hg
  have hg0 : 0 < g := by positivity
  have hgl : g * ((M : ℝ) - 1) = lam := by rw [hg]; field_simp
  -- the nearest grid point
  obtain ⟨i, hi, hnear⟩ : ∃ i < M, |x0 - i * g| ≤ g / 2 := by
    set k := ⌊x0 / g⌋₊ with hk
    have hk1 : (k : ℝ) ≤ x0 / g := Nat.floor_le (div_nonneg hx0.1 hg0.le)
    have hk2 : x0 / g < k + 1 := Nat.lt_floor_add_one _
    have hk1' : k * g ≤ x0 := by rwa [le_div_iff₀ hg0] at hk1
    have hk2' : x0 < (k + 1) * g := by rwa [div_lt_iff₀ hg0] at hk2
    have hkM : k ≤ M - 1 := by
      have : (k : ℝ) ≤ ((M - 1 : ℕ) : ℝ) := by
        rw [hMc]
        refine hk1.trans ?_
        rw [div_le_iff₀ hg0]
        linarith [hx0.2, hgl]
      exact_mod_cast this
    rcases le_or_gt (x0 - k * g) (g / 2) with h1 | h1
    · exact ⟨k, by omega, by rw [abs_of_nonneg (by linarith)]; exact h1⟩
    · refine ⟨k + 1, ?_, ?_⟩
      · rcases hkM.eq_or_lt with h2 | h2
        · exfalso
          have : (k : ℝ) = (M : ℝ) - 1 := by rw [h2, hMc]
          rw [this] at h1
          nlinarith [hx0.2]
        · omega
      · push_cast
        rw [abs_of_nonpos (by linarith)]
        linarith
  have hig : (i : ℝ) * g ∈ Set.Icc 0 lam := by
    refine ⟨by positivity, ?_⟩
    rw [← hgl, mul_comm]
    refine mul_le_mul_of_nonneg_left ?_ hg0.le
    rw [← hMc]
    exact_mod_cast (by omega : i ≤ M - 1)
  have hmv := (convex_Icc (0 : ℝ) lam).norm_image_sub_le_of_norm_deriv_le (f := fun y => p.eval y)
    (C := 4 * d ^ 2 * S / lam) (fun y _ => p.differentiableAt) (fun y hy => by
      rw [Polynomial.deriv, Real.norm_eq_abs]
      exact markov hd hl h0 hS hy) hig hx0
  rw [Real.norm_eq_abs, Real.norm_eq_abs] at hmv
  have h5 : 4 * (d : ℝ) ^ 2 * S / lam * |x0 - i * g| ≤ S / 2 := by
    have hd' : 4 * (d : ℝ) ^ 2 ≤ (M : ℝ) - 1 := by
      rw [← hMc]; exact_mod_cast hdM
    calc 4 * (d : ℝ) ^ 2 * S / lam * |x0 - i * g| ≤ ((M : ℝ) - 1) * S / lam * (g / 2) := by
          refine mul_le_mul ?_ hnear (abs_nonneg _) (by positivity)
          gcongr
      _ = S / 2 := by rw [hg]; field_simp
  have h6 : S ≤ |p.eval x0 - p.eval (i * g)| + |p.eval (i * g)| := by
    have := abs_add_le (p.eval x0 - p.eval (i * g)) (p.eval (i * g))
    rwa [sub_add_cancel] at this
  have := hB i hi
  linarith

/-- ... and beyond the last of the points it is at most `2 B` times the Chebyshev polynomial there. -/
theorem grid_beyond {p : ℝ[X]} (hd : p.natDegree ≤ d) {lam B ε : ℝ} (hl : 0 < lam) (hM : 2 ≤ M)
    (hdM : 4 * d ^ 2 ≤ M - 1) (hB : ∀ i < M, |p.eval (i * (lam / ((M : ℝ) - 1)))| ≤ B) (hε : 0 ≤ ε) {x : ℝ} (hx0 : 0 ≤ x)
    (hx : x ≤ (1 + ε) * lam) : |p.eval x| ≤ 2 * B * (Chebyshev.T ℝ d).eval (1 + 2 * ε) := by
  have hB0 : 0 ≤ B := (abs_nonneg _).trans (hB 0 (by omega))
  have hT1 := Chebyshev.one_le_eval_T_real d (x := 1 + 2 * ε) (by linarith)
  rcases le_or_gt x lam with hxl | hxl
  · refine (grid_sup hd hl hM hdM hB ⟨hx0, hxl⟩).trans ?_
    nlinarith
  -- beyond the grid
  have mono : ∀ {q : ℝ[X]}, q.natDegree ≤ d → (∀ y ∈ Set.Icc 0 lam, |q.eval y| ≤ 2 * B) →
      q.eval x ≤ 2 * B * (Chebyshev.T ℝ d).eval (2 * x / lam - 1) := by
    intro q hq hqB
    have hlim : ∀ S, 2 * B < S → q.eval x ≤ S * (Chebyshev.T ℝ d).eval (2 * x / lam - 1) := by
      intro S hBS
      have hS : 0 < S := by linarith
      set r : ℝ[X] := C (1 / S) * q.comp (C (lam / 2) * (X + 1)) with hr
      have hdeg : r.degree ≤ d := by
        refine degree_le_of_natDegree_le ?_
        refine (natDegree_C_mul_le _ _).trans ?_
        refine natDegree_comp_le.trans ?_
        have h1 : (C (lam / 2) * (X + 1) : ℝ[X]).natDegree ≤ 1 := by
          refine (natDegree_C_mul_le _ _).trans ?_
          have : (X + 1 : ℝ[X]).natDegree = 1 := natDegree_X_add_C (1 : ℝ)
          exact this.le
        calc q.natDegree * _ ≤ d * 1 := Nat.mul_le_mul hq h1
          _ = d := mul_one d
      have hb : ∀ t ∈ Set.Icc (-1 : ℝ) 1, |r.eval t| ≤ 1 := by
        intro t ht
        have h2 := hqB (lam / 2 * (t + 1)) ⟨by have := ht.1; apply mul_nonneg <;> linarith, by nlinarith [ht.2]⟩
        simp only [hr, eval_mul, eval_C, eval_comp, eval_add, eval_X, eval_one]
        rw [abs_mul, abs_of_pos (by positivity), one_div, inv_mul_le_iff₀ hS, mul_one]
        linarith
      have h3 := Chebyshev.eval_iterate_derivative_le_of_forall_abs_le_one (k := 0) (x := 2 * x / lam - 1)
        (by rw [le_sub_iff_add_le, le_div_iff₀ hl]; linarith) hdeg hb
      simp only [Function.iterate_zero, id] at h3
      simp only [hr, eval_mul, eval_C, eval_comp, eval_add, eval_X, eval_one] at h3
      rw [show lam / 2 * (2 * x / lam - 1 + 1) = x by field_simp; ring, one_div, inv_mul_le_iff₀ hS] at h3
      exact h3
    refine le_of_forall_pos_le_add fun e he => ?_
    set t := (Chebyshev.T ℝ d).eval (2 * x / lam - 1) with ht
    have ht1 : 1 ≤ t := Chebyshev.one_le_eval_T_real d (by rw [le_sub_iff_add_le, le_div_iff₀ hl]; linarith)
    have := hlim (2 * B + e / t) (by have : 0 < e / t := by positivity
                                     linarith)
    refine this.trans (le_of_eq ?_)
    field_simp
  have hTm : (Chebyshev.T ℝ d).eval (2 * x / lam - 1) ≤ (Chebyshev.T ℝ d).eval (1 + 2 * ε) := by
    have h1 : 1 ≤ 2 * x / lam - 1 := by rw [le_sub_iff_add_le, le_div_iff₀ hl]; linarith
    have h2 : 2 * x / lam - 1 ≤ 1 + 2 * ε := by
      rw [sub_le_iff_le_add, div_le_iff₀ hl]; linarith
    have h3 : ∀ y : ℝ, 1 ≤ y → (Chebyshev.T ℝ d).eval y = Real.cosh (d * Real.arcosh y) := by
      intro y hy
      conv_lhs => rw [← Real.cosh_arcosh hy]
      rw [Chebyshev.T_real_cosh]; simp
    rw [h3 _ h1, h3 _ (h1.trans h2), Real.cosh_le_cosh, abs_of_nonneg, abs_of_nonneg]
    · refine mul_le_mul_of_nonneg_left ?_ (Nat.cast_nonneg d)
      rw [Real.arcosh_le_arcosh (by linarith) (by linarith)]
      exact h2
    · exact mul_nonneg (Nat.cast_nonneg d) (Real.arcosh_nonneg (h1.trans h2))
    · exact mul_nonneg (Nat.cast_nonneg d) (Real.arcosh_nonneg h1)
  have hg : ∀ y ∈ Set.Icc 0 lam, |p.eval y| ≤ 2 * B := fun y hy => grid_sup hd hl hM hdM hB hy
  have hpos := mono hd hg
  have hneg := mono (q := -p) (by rwa [natDegree_neg]) (fun y hy => by rw [eval_neg, abs_neg]; exact hg y hy)
  rw [eval_neg] at hneg
  have hfin := mul_le_mul_of_nonneg_left hTm (by linarith : 0 ≤ 2 * B)
  exact abs_le.2 ⟨by linarith, by linarith⟩

private theorem T_cosh (n : ℕ) {y : ℝ} (hy : 1 ≤ y) : (Chebyshev.T ℝ n).eval y = Real.cosh (n * Real.arcosh y) := by
  conv_lhs => rw [← Real.cosh_arcosh hy]
  rw [Chebyshev.T_real_cosh]; simp

private theorem T_mono (n : ℕ) {y z : ℝ} (hy : 1 ≤ y) (hyz : y ≤ z) :
    (Chebyshev.T ℝ n).eval y ≤ (Chebyshev.T ℝ n).eval z := by
  rw [T_cosh n hy, T_cosh n (hy.trans hyz), Real.cosh_le_cosh, abs_of_nonneg, abs_of_nonneg]
  · refine mul_le_mul_of_nonneg_left ?_ (Nat.cast_nonneg n)
    rw [Real.arcosh_le_arcosh (by linarith) (by linarith)]
    exact hyz
  · exact mul_nonneg (Nat.cast_nonneg n) (Real.arcosh_nonneg (hy.trans hyz))
  · exact mul_nonneg (Nat.cast_nonneg n) (Real.arcosh_nonneg hy)

private theorem T_mono_degree {m n : ℕ} (h : m ≤ n) {y : ℝ} (hy : 1 ≤ y) :
    (Chebyshev.T ℝ m).eval y ≤ (Chebyshev.T ℝ n).eval y := by
  have h0 := Real.arcosh_nonneg hy
  have h1 : (m : ℝ) ≤ n := by exact_mod_cast h
  rw [T_cosh m hy, T_cosh n hy, Real.cosh_le_cosh, abs_of_nonneg (by positivity), abs_of_nonneg (by positivity)]
  gcongr

/-- a least-squares fit on the grid is close to every polynomial that is close to the targets on the grid -/
theorem fit_close {r : ℝ → ℝ} {p q : ℝ[X]} (hp : p.natDegree ≤ d) (hq : q.natDegree ≤ d) {lam τ ε : ℝ} (hl : 0 < lam)
    (hM : 2 ≤ M) (hdM : 4 * d ^ 2 ≤ M - 1) {pts : List ℝ}
    (hpts : pts = (List.range M).map fun i : ℕ => (i : ℝ) * (lam / ((M : ℝ) - 1)))
    (hopt : fitResidual (pts.map fun x => (x, r x)) p ≤ fitResidual (pts.map fun x => (x, r x)) q) (hτ : 0 ≤ τ)
    (hqr : ∀ x ∈ pts, |q.eval x - r x| ≤ τ) (hε : 0 ≤ ε) {x : ℝ} (hx0 : 0 ≤ x) (hx : x ≤ (1 + ε) * lam) :
    |p.eval x - q.eval x| ≤ 2 * ((√M + 1) * τ) * (Chebyshev.T ℝ d).eval (1 + 2 * ε) := by
  have e : ∀ g : ℝ[X], fitResidual (pts.map fun x => (x, r x)) g = (pts.map fun x => (g.eval x - r x) ^ 2).sum := by
    intro g
    unfold fitResidual
    rw [List.map_map]
    rfl
  rw [e, e] at hopt
  have h1 : (pts.map fun x => (q.eval x - r x) ^ 2).sum ≤ M * τ ^ 2 := by
    have := List.sum_le_card_nsmul (pts.map fun x => (q.eval x - r x) ^ 2) (τ ^ 2) fun y hy => by
      obtain ⟨x, hx, rfl⟩ := List.mem_map.1 hy
      exact sq_le_sq' (by have := abs_le.1 (hqr x hx); linarith) (le_of_abs_le (hqr x hx))
    rw [nsmul_eq_mul, List.length_map, hpts, List.length_map, List.length_range] at this
    rw [hpts]
    exact this
  have h2 : ∀ x ∈ pts, |p.eval x - r x| ≤ √M * τ := by
    intro x hx
    have h3 : (p.eval x - r x) ^ 2 ≤ (pts.map fun x => (p.eval x - r x) ^ 2).sum :=
      List.single_le_sum (fun y hy => by
        obtain ⟨x, -, rfl⟩ := List.mem_map.1 hy
        positivity) _ (List.mem_map.2 ⟨x, hx, rfl⟩)
    have h4 : √M * τ = √(M * τ ^ 2) := by rw [Real.sqrt_mul (by positivity), Real.sqrt_sq hτ]
    rw [h4]
    refine Real.le_sqrt_of_sq_le ?_
    rw [sq_abs]
    linarith
  have h5 := grid_beyond (p := p - q) (d := d) ((natDegree_sub_le _ _).trans (max_le hp hq)) hl hM hdM
    (B := (√M + 1) * τ) (fun i hi => by
      have hm : (i : ℝ) * (lam / ((M : ℝ) - 1)) ∈ pts := by
        rw [hpts]
        exact List.mem_map.2 ⟨i, List.mem_range.2 hi, rfl⟩
      have a1 := h2 _ hm
      have a2 := hqr _ hm
      rw [eval_sub]
      rw [abs_le] at *
      constructor <;> linarith [a1.1, a1.2, a2.1, a2.2]) hε hx0 hx
  rwa [eval_sub] at h5

/-- the polynomial of degree `L - 1` that approximates the denoising response best up to a constant -/
private theorem near_best {L : ℕ} (hL : 1 ≤ L) {mu lam : ℝ} (hmu : 0 < mu) (hl : 0 < lam) :
    ∃ q : ℝ[X], q.natDegree ≤ L - 1 ∧ ∀ x, 0 ≤ x → |q.eval x - 1 / (1 + mu * x)| ≤
      |(Chebyshev.T ℝ L).eval (2 * x / lam - 1)| / (Chebyshev.T ℝ L).eval (1 + 2 / (mu * lam)) := by
  set N : ℝ[X] := (Chebyshev.T ℝ L).comp (C (2 / lam) * X - 1) with hN
  have hNe : ∀ x, N.eval x = (Chebyshev.T ℝ L).eval (2 * x / lam - 1) := by
    intro x
    simp only [hN, eval_comp, eval_sub, eval_mul, eval_C, eval_X, eval_one]
    congr 1; ring
  have hNd : N.natDegree ≤ L := by
    refine natDegree_comp_le.trans ?_
    have h1 : (C (2 / lam) * X - 1 : ℝ[X]).natDegree ≤ 1 := by
      have : (C (2 / lam) * X - C 1 : ℝ[X]).natDegree ≤ 1 := by
        rw [natDegree_sub_C]
        exact (natDegree_C_mul_le _ _).trans natDegree_X_le
      simpa using this
    have h2 : (Chebyshev.T ℝ L).natDegree = L := by
      rw [Chebyshev.natDegree_T]; simp
    calc _ ≤ L * 1 := Nat.mul_le_mul h2.le h1
      _ = L := mul_one L
  set t := (Chebyshev.T ℝ L).eval (1 + 2 / (mu * lam)) with ht
  have ht1 : 1 ≤ t := Chebyshev.one_le_eval_T_real L (by have : 0 < 2 / (mu * lam) := by positivity
                                                         linarith)
  have hN0 : |N.eval (-1 / mu)| = t := by
    rw [hNe, show 2 * (-1 / mu) / lam - 1 = -(1 + 2 / (mu * lam)) by field_simp; ring, Chebyshev.T_eval_neg, abs_mul]
    rw [abs_of_pos (by linarith : 0 < (Chebyshev.T ℝ L).eval (1 + 2 / (mu * lam)))]
    simp [ht]
  have hN00 : N.eval (-1 / mu) ≠ 0 := fun h => by rw [h, abs_zero] at hN0; linarith
  set R : ℝ[X] := 1 - C (1 / N.eval (-1 / mu)) * N with hR
  have hroot : R.IsRoot (-1 / mu) := by
    rw [IsRoot.def, hR, eval_sub, eval_one, eval_mul, eval_C, one_div, inv_mul_cancel₀ hN00, sub_self]
  have hdiv := mul_divByMonic_eq_iff_isRoot.2 hroot
  have hRd : R.natDegree ≤ L := by
    refine (natDegree_sub_le _ _).trans (max_le (by simp) ?_)
    exact (natDegree_C_mul_le _ _).trans hNd
  refine ⟨C (1 / mu) * (R /ₘ (X - C (-1 / mu))), ?_, fun x hx => ?_⟩
  · refine (natDegree_C_mul_le _ _).trans ?_
    rw [natDegree_divByMonic _ (monic_X_sub_C _), natDegree_X_sub_C]
    omega
  · have h1 := congrArg (eval x) hdiv
    rw [eval_mul, eval_sub, eval_X, eval_C] at h1
    set v := (R /ₘ (X - C (-1 / mu))).eval x with hv
    have hpos : 0 < 1 + mu * x := by positivity
    have h2 : (1 / mu * v) - 1 / (1 + mu * x) = -(N.eval x / N.eval (-1 / mu)) / (1 + mu * x) := by
      have h3 : R.eval x = 1 - N.eval x / N.eval (-1 / mu) := by
        rw [hR, eval_sub, eval_one, eval_mul, eval_C]; ring
      rw [h3] at h1
      have h4 : 1 / mu * v * (1 + mu * x) = (x - -1 / mu) * v := by field_simp; ring
      rw [eq_div_iff hpos.ne', sub_mul, h4, h1]
      field_simp
      ring
    rw [eval_mul, eval_C, h2, abs_div, abs_neg, abs_div, hN0, abs_of_pos hpos, hNe]
    refine div_le_self (by positivity) ?_
    nlinarith [mul_nonneg hmu.le hx]

private theorem T_abs_le (n : ℕ) {y ε : ℝ} (hε : 0 ≤ ε) (h0 : -1 ≤ y) (h : y ≤ 1 + 2 * ε) :
    |(Chebyshev.T ℝ n).eval y| ≤ (Chebyshev.T ℝ n).eval (1 + 2 * ε) := by
  rcases le_total y 1 with hy | hy
  · exact (Chebyshev.abs_eval_T_real_le_one n (abs_le.2 ⟨h0, hy⟩)).trans
      (Chebyshev.one_le_eval_T_real n (by linarith))
  · have := Chebyshev.one_le_eval_T_real n hy
    rw [abs_of_nonneg (by linarith)]
    exact T_mono n hy h

/-- the response of the fit is close to the denoising response on the whole spectrum -/
theorem denoise_response {p : ℝ[X]} {L : ℕ} (hL : 1 ≤ L) (hp : p.natDegree ≤ L - 1) {mu lam ε : ℝ} (hmu : 0 < mu)
    (hl : 0 < lam) (hM : 2 ≤ M) (hdM : 4 * (L - 1) ^ 2 ≤ M - 1) {pts : List ℝ}
    (hpts : pts = (List.range M).map fun i : ℕ => (i : ℝ) * (lam / ((M : ℝ) - 1)))
    (hopt : ∀ q : ℝ[X], q.natDegree ≤ L - 1 → fitResidual (pts.map fun x => (x, 1 / (1 + mu * x))) p ≤
      fitResidual (pts.map fun x => (x, 1 / (1 + mu * x))) q) (hε : 0 ≤ ε) {x : ℝ} (hx0 : 0 ≤ x)
    (hx : x ≤ (1 + ε) * lam) :
    |p.eval x - 1 / (1 + mu * x)| ≤ (2 * √M + 3) *
      ((Chebyshev.T ℝ L).eval (1 + 2 * ε) / (Chebyshev.T ℝ L).eval (1 + 2 / (mu * lam))) := by
  obtain ⟨q, hq, hqr⟩ := near_best hL hmu hl
  set t := (Chebyshev.T ℝ L).eval (1 + 2 / (mu * lam)) with ht
  have ht1 : 1 ≤ t := Chebyshev.one_le_eval_T_real L (by have : 0 < 2 / (mu * lam) := by positivity
                                                         linarith)
  have hM1 : (0 : ℝ) < (M : ℝ) - 1 := by
    have : (2 : ℝ) ≤ M := by exact_mod_cast hM
    linarith
  have h1 := fit_close (r := fun x => 1 / (1 + mu * x)) hp hq hl hM hdM hpts (hopt q hq) (τ := 1 / t) (by positivity)
    (fun y hy => by
      rw [hpts] at hy
      obtain ⟨i, hi, rfl⟩ := List.mem_map.1 hy
      have hi' : (i : ℝ) ≤ (M : ℝ) - 1 := by
        have : (i : ℝ) + 1 ≤ M := by exact_mod_cast List.mem_range.1 hi
        linarith
      have hy0 : 0 ≤ (i : ℝ) * (lam / ((M : ℝ) - 1)) := by positivity
      have hyl : (i : ℝ) * (lam / ((M : ℝ) - 1)) ≤ lam := by
        rw [mul_div_assoc', div_le_iff₀ hM1, mul_comm]
        exact mul_le_mul_of_nonneg_left hi' hl.le
      refine (hqr _ hy0).trans ?_
      refine div_le_div_of_nonneg_right ?_ (by linarith)
      refine Chebyshev.abs_eval_T_real_le_one L (abs_le.2 ⟨?_, ?_⟩)
      · have : 0 ≤ 2 * ((i : ℝ) * (lam / ((M : ℝ) - 1))) / lam := by positivity
        linarith
      · rw [sub_le_iff_le_add, div_le_iff₀ hl]
        linarith) hε hx0 hx
  have h2 := hqr x hx0
  have h3 : |(Chebyshev.T ℝ L).eval (2 * x / lam - 1)| ≤ (Chebyshev.T ℝ L).eval (1 + 2 * ε) := by
    refine T_abs_le L hε ?_ ?_
    · have : 0 ≤ 2 * x / lam := by positivity
      linarith
    · rw [sub_le_iff_le_add, div_le_iff₀ hl]
      linarith
  have h4 := T_mono_degree (m := L - 1) (n := L) (by omega) (y := 1 + 2 * ε) (by linarith)
  set a := (Chebyshev.T ℝ L).eval (1 + 2 * ε) with ha
  have h5 : |q.eval x - 1 / (1 + mu * x)| ≤ a / t := h2.trans (div_le_div_of_nonneg_right h3 (by linarith))
  have h6 : |p.eval x - q.eval x| ≤ 2 * ((√M + 1) * (1 / t)) * a := h1.trans (by gcongr)
  have h7 : |p.eval x - 1 / (1 + mu * x)| ≤ |p.eval x - q.eval x| + |q.eval x - 1 / (1 + mu * x)| :=
    abs_sub_le _ _ _
  have h8 : 2 * ((√M + 1) * (1 / t)) * a + a / t = (2 * √M + 3) * (a / t) := by ring
  linarith

theorem denoiser_eig {P H U : Matrix (Fin E) (Fin E) ℝ} {w : Fin E → ℝ} (hP : SymmPSD P) (h : IsEig P U w)
    {mu : ℝ} (hmu : 0 < mu) (hH : IsDenoiser P H mu) : H * U = U * diagonal fun i => 1 / (1 + mu * w i) := by
  have h1 : (1 + mu • P) * (U * diagonal fun i => 1 / (1 + mu * w i)) = U := by
    rw [add_mul, one_mul, smul_mul_assoc, ← Matrix.mul_assoc P]
    ext i j
    have hw := h.nonneg hP j
    have he := congrFun (h.col_eig j) i
    have he' : (P * U) i j = w j * U i j := he
    have hpos : 0 < 1 + mu * w j := by positivity
    simp only [Matrix.add_apply, Matrix.smul_apply, mul_diagonal, smul_eq_mul, he']
    field_simp
  have h2 : H * (1 + mu • P) = 1 := mul_eq_one_comm.1 hH.1
  calc H * U = H * ((1 + mu • P) * (U * diagonal fun i => 1 / (1 + mu * w i))) := by rw [h1]
    _ = _ := by rw [← Matrix.mul_assoc, h2, Matrix.one_mul]

/-- the grid design of denoising runs when the estimate is finite and the parameter is positive -/
theorem grid_denoise_total (lib : NumLib) (sc : SC ℝ) (hE : 0 < sc.E) (f t : Fin sc.E → ℝ) (pChoice : String)
    {P : Matrix (Fin sc.E) (Fin sc.E) ℝ} {lam mu : ℝ} (h2 : sc.getPMatrix pChoice = .ok P) (h3 : lambdaMax P = some lam)
    (hlam : 0 < lam) (hmu : 0 < mu) {L : Int} (hL : 0 < L) :
    ∃ a, GridFilter.denoiseDesign lib sc f t pChoice L mu = .ok a := by
  unfold GridFilter.denoiseDesign
  have hg : ∀ l : List ℝ, (∀ x ∈ l, 0 ≤ x) → (l.map fun x => GridFilter.frequencyResponseHp x mu).mapM id =
      some (l.map fun x => 1 / (1 + mu * x)) := by
    intro l hl
    induction l with
    | nil => rfl
    | cons x l ih =>
      have hx := hl x (by simp)
      have hne : 1 + mu * x ≠ 0 := by positivity
      have := ih fun y hy => hl y (by simp [hy])
      have e : GridFilter.frequencyResponseHp x mu = some (1 / (1 + mu * x)) := by
        rw [GridFilter.frequencyResponseHp, fdiv, if_neg hne]
      rw [List.map_cons, List.mapM_cons, this, e]
      rfl
  have hpts : ∀ x ∈ (List.range sc.E).map (fun i : ℕ => (i : ℝ) * (lam / ((sc.E : ℝ) - 1))), 0 ≤ x := by
    intro x hx
    obtain ⟨i, -, rfl⟩ := List.mem_map.1 hx
    have : (1 : ℝ) ≤ sc.E := by exact_mod_cast hE
    exact mul_nonneg (Nat.cast_nonneg i) (div_nonneg hlam.le (by linarith))
  have hneg : ¬ ((sc.E : Int) < 0) := by omega
  simp only [h2, bind, Except.bind, getEigendecomposition_dense lib hE, GridFilter.sampledResponse,
    GridFilter.sampleGridPoints, h3, GridFilter.linspace0, hneg, if_false, pure, Except.pure, Option.map_some,
    Int.toNat_natCast, Option.bind_some, hg _ hpts, GridFilter.applyFilterF]
  exact ⟨_, applyFilter_eq lib _ _ _ _ _ _ L hL (by simp)⟩

/-- C166: let the estimate of the largest eigenvalue be `lam > 0` and the spectrum end at `(1 + ε) lam` at most.  A filter of
size `L` with `4 (L - 1)² < E` then differs from the edge-flow denoising with the same parameter by the stated fraction of
the flow at most: the Chebyshev polynomial of degree `L` at `1 + 2 / (mu lam)` is what the error is divided by. -/
theorem C166_denoise (hE : 2 ≤ sc.E) {pChoice : String} {P : Matrix (Fin sc.E) (Fin sc.E) ℝ}
    (hP : sc.getPMatrix pChoice = .ok P) {lam : ℝ} (hl : lambdaMax P = some lam) (hlam : 0 < lam) {mu : ℝ} (hmu : 0 < mu)
    {L : ℕ} (hL : 1 ≤ L) (hLE : 4 * (L - 1) ^ 2 < sc.E) {ε : ℝ} (hε : 0 ≤ ε)
    (hspec : ∀ x, IsEigenvalue P x → x ≤ (1 + ε) * lam) {st st₂ : FilterSt sc.E} (hst : st.Valid) (hst₂ : st₂.Valid)
    (f fTrue fTrue₂ : Fin sc.E → ℝ) :
    ∃ s s₂ y x, GridFilter.denoise lib sc st f fTrue pChoice L mu = (.ok (), s) ∧
      edgeFlowDenoise lib sc st₂ f fTrue₂ pChoice [mu] = (.ok (), s₂) ∧
      s.history.get? "f_estimated" = some (.vec y) ∧ s₂.history.get? "f_estimated" = some (.vec x) ∧
      norm2 (y - x) ≤ (2 * √sc.E + 3) *
        ((Chebyshev.T ℝ L).eval (1 + 2 * ε) / (Chebyshev.T ℝ L).eval (1 + 2 / (mu * lam))) * norm2 f := by
  obtain ⟨a, ha⟩ := grid_denoise_total lib sc (by omega) f fTrue pChoice hP hl hlam hmu (L := L) (by omega)
  have hrun : GridFilter.denoise lib sc st f fTrue pChoice L mu = (.ok (), setHistory st a.design) := by
    rw [GridFilter.denoise, ha]; rfl
  obtain ⟨P', resp, pts, h0, h1, hr⟩ := C51_grid_denoise st _ hst f fTrue pChoice L mu hrun
  rw [hP] at h0
  obtain rfl := Except.ok.inj h0
  obtain ⟨s₂, H, e1, -, e3, hH⟩ := C59_denoise (lib := lib) (by omega : 0 < sc.E) hP st₂ hst₂ f fTrue₂ [mu]
    (by intro m hm; rw [List.mem_singleton] at hm; rw [hm]; exact hmu.le) mu rfl
  have hpts : pts = (List.range sc.E).map fun i : ℕ => (i : ℝ) * (lam / ((sc.E : ℝ) - 1)) := by
    have hneg : ¬ ((sc.E : Int) < 0) := by omega
    simp only [GridFilter.sampledResponse, GridFilter.sampleGridPoints, hl, GridFilter.linspace0, hneg, if_false, bind,
      Except.bind, pure, Except.pure, Option.map_some, Int.toNat_natCast, Except.ok.injEq, Option.some.injEq,
      Prod.mk.injEq] at h1
    exact h1.2.symm
  obtain ⟨-, p, hp, -, hfe, -⟩ := hr
  have hps := getPMatrix_psd hP
  have hI := lib.isEig hps
  rw [Int.toNat_natCast] at hp hfe
  refine ⟨_, s₂, _, _, hrun, e1, hfe, e3, ?_⟩
  rw [← sub_mulVec]
  refine hI.norm2_le (d := fun i => (p (L - 1)).eval ((lib.eigh sc.E P).1 i) - 1 / (1 + mu * (lib.eigh sc.E P).1 i)) ?_
    (fun i => ?_) f
  · rw [sub_mul, hI.aeval_mul, denoiser_eig hps hI hmu hH]
    ext i j
    simp only [Matrix.sub_apply, mul_diagonal]
    ring
  · obtain ⟨hd, ho⟩ := hp (L - 1) (by omega)
    exact denoise_response hL hd hmu hlam hE (by omega) hpts ho hε (hI.nonneg hps i)
      (hspec _ ⟨_, hI.col_ne_zero i, hI.col_eig i⟩)

/-- C166 without Chebyshev polynomials: the error falls geometrically with the size as long as `(√ε + √(1 + ε))²` is below
`1 + 2 / √(mu lam)`. -/
theorem C166_geometric (hE : 2 ≤ sc.E) {pChoice : String} {P : Matrix (Fin sc.E) (Fin sc.E) ℝ}
    (hP : sc.getPMatrix pChoice = .ok P) {lam : ℝ} (hl : lambdaMax P = some lam) (hlam : 0 < lam) {mu : ℝ} (hmu : 0 < mu)
    {L : ℕ} (hL : 1 ≤ L) (hLE : 4 * (L - 1) ^ 2 < sc.E) {ε : ℝ} (hε : 0 ≤ ε)
    (hspec : ∀ x, IsEigenvalue P x → x ≤ (1 + ε) * lam) {st st₂ : FilterSt sc.E} (hst : st.Valid) (hst₂ : st₂.Valid)
    (f fTrue fTrue₂ : Fin sc.E → ℝ) :
    ∃ s s₂ y x, GridFilter.denoise lib sc st f fTrue pChoice L mu = (.ok (), s) ∧
      edgeFlowDenoise lib sc st₂ f fTrue₂ pChoice [mu] = (.ok (), s₂) ∧
      s.history.get? "f_estimated" = some (.vec y) ∧ s₂.history.get? "f_estimated" = some (.vec x) ∧
      norm2 (y - x) ≤ (4 * √sc.E + 6) * ((√ε + √(1 + ε)) ^ 2 / (1 + 2 / √(mu * lam))) ^ L * norm2 f := by
  obtain ⟨s, s₂, y, x, h1, h2, h3, h4, h5⟩ := C166_denoise (lib := lib) hE hP hl hlam hmu hL hLE hε hspec hst hst₂ f fTrue
    fTrue₂
  refine ⟨s, s₂, y, x, h1, h2, h3, h4, h5.trans ?_⟩
  have hm : 0 < mu * lam := by positivity
  have hy : 1 ≤ 1 + 2 / (mu * lam) := by have : 0 < 2 / (mu * lam) := by positivity
                                         linarith
  have up : (Chebyshev.T ℝ L).eval (1 + 2 * ε) ≤ ((√ε + √(1 + ε)) ^ 2) ^ L := by
    have h6 : (√ε + √(1 + ε)) ^ 2 = Real.exp (Real.arcosh (1 + 2 * ε)) := by
      rw [Real.exp_arcosh (by linarith), show (1 + 2 * ε) ^ 2 - 1 = 2 ^ 2 * (ε * (1 + ε)) by ring,
        Real.sqrt_mul (by norm_num), Real.sqrt_sq (by norm_num), Real.sqrt_mul hε, add_sq, Real.sq_sqrt hε,
        Real.sq_sqrt (by linarith)]
      ring
    rw [T_cosh L (by linarith), h6, ← Real.exp_nat_mul]
    have h0 : 0 ≤ L * Real.arcosh (1 + 2 * ε) := mul_nonneg (Nat.cast_nonneg L) (Real.arcosh_nonneg (by linarith))
    rw [Real.cosh_eq]
    have := Real.exp_le_exp.2 (by linarith : -(L * Real.arcosh (1 + 2 * ε)) ≤ L * Real.arcosh (1 + 2 * ε))
    linarith
  have lo : (1 + 2 / √(mu * lam)) ^ L / 2 ≤ (Chebyshev.T ℝ L).eval (1 + 2 / (mu * lam)) := by
    have h6 : 1 + 2 / √(mu * lam) ≤ Real.exp (Real.arcosh (1 + 2 / (mu * lam))) := by
      rw [Real.exp_arcosh hy]
      have h7 : 2 / √(mu * lam) ≤ √((1 + 2 / (mu * lam)) ^ 2 - 1) := by
        refine Real.le_sqrt_of_sq_le ?_
        rw [div_pow, Real.sq_sqrt hm.le]
        have h8 : (1 + 2 / (mu * lam)) ^ 2 - 1 = 2 ^ 2 / (mu * lam) + (2 / (mu * lam)) ^ 2 := by ring
        rw [h8]
        nlinarith [sq_nonneg (2 / (mu * lam))]
      have : 0 < 2 / (mu * lam) := by positivity
      linarith
    rw [T_cosh L hy, Real.cosh_eq]
    have h9 : (1 + 2 / √(mu * lam)) ^ L ≤ Real.exp (L * Real.arcosh (1 + 2 / (mu * lam))) := by
      rw [Real.exp_nat_mul]
      exact pow_le_pow_left₀ (by positivity) h6 L
    have := Real.exp_pos (-(L * Real.arcosh (1 + 2 / (mu * lam))))
    linarith
  have hpos : 0 < (1 + 2 / √(mu * lam)) ^ L := by positivity
  refine mul_le_mul_of_nonneg_right ?_ (norm2_nonneg f)
  calc (2 * √sc.E + 3) * ((Chebyshev.T ℝ L).eval (1 + 2 * ε) / (Chebyshev.T ℝ L).eval (1 + 2 / (mu * lam)))
      ≤ (2 * √sc.E + 3) * (((√ε + √(1 + ε)) ^ 2) ^ L / ((1 + 2 / √(mu * lam)) ^ L / 2)) := by
        gcongr
    _ = _ := by rw [div_pow]; field_simp; ring

/-- C166 for `subcomponent_extraction`: with more than `4 (L - 1)²` samples no polynomial filter of the same size does much
better on the samples without doing much the same on every flow: if `q` is within `τ` of the logistic function at the
sampled frequencies, the estimate differs from the flow filtered by `q` by the stated fraction of the flow at most. -/
theorem C166_extraction {component pChoice : String} {P : Matrix (Fin sc.E) (Fin sc.E) ℝ}
    (hP : sc.getPMatrix pChoice = .ok P) {lam : ℝ} (hl : lambdaMax P = some lam) (hlam : 0 < lam) {L num : ℕ}
    (hnum : 2 ≤ num) (hLn : 4 * (L - 1) ^ 2 < num) {mu cutOff steep ε : ℝ} (hε : 0 ≤ ε)
    (hspec : ∀ x, IsEigenvalue P x → x ≤ (1 + ε) * lam) {st st' : FilterSt sc.E} (hst : st.Valid) {f : Fin sc.E → ℝ}
    (h : GridFilter.subcomponentExtraction lib sc st f component pChoice L num mu cutOff steep = (.ok (), st'))
    (q : ℝ[X]) (hq : q.natDegree ≤ L - 1) {τ : ℝ} (hτ : 0 ≤ τ)
    (hqr : ∀ i < num, |q.eval (i * (lam / ((num : ℝ) - 1))) - logisticFunction cutOff steep (i * (lam / ((num : ℝ) - 1)))| ≤ τ) :
    ∃ y, st'.history.get? "f_estimated" = some (.vec y) ∧
      norm2 (y - (aeval P q).mulVec f) ≤ 2 * ((√num + 1) * τ) * (Chebyshev.T ℝ (L - 1 : ℕ)).eval (1 + 2 * ε) * norm2 f := by
  obtain ⟨P', t, resp, pts, h0, -, h1, hr⟩ := C51_grid_extraction st st' hst f component pChoice L num mu cutOff steep h
  rw [hP] at h0
  obtain rfl := Except.ok.inj h0
  have hpts : pts = (List.range num).map fun i : ℕ => (i : ℝ) * (lam / ((num : ℝ) - 1)) := by
    have hneg : ¬ ((num : Int) < 0) := by omega
    simp only [GridFilter.sampledResponse, GridFilter.sampleGridPoints, hl, GridFilter.linspace0, hneg, if_false, bind,
      Except.bind, pure, Except.pure, Option.map_some, Int.toNat_natCast, Except.ok.injEq, Option.some.injEq,
      Prod.mk.injEq] at h1
    exact h1.2.symm
  obtain ⟨hL, p, hp, -, hfe, -⟩ := hr
  have hps := getPMatrix_psd hP
  have hI := lib.isEig hps
  rw [Int.toNat_natCast] at hp hfe hL
  refine ⟨_, hfe, ?_⟩
  rw [← sub_mulVec]
  refine hI.norm2_le (d := fun i => (p (L - 1)).eval ((lib.eigh sc.E P).1 i) - q.eval ((lib.eigh sc.E P).1 i)) ?_
    (fun i => ?_) f
  · rw [sub_mul, hI.aeval_mul, hI.aeval_mul]
    ext i j
    simp only [Matrix.sub_apply, mul_diagonal]
    ring
  · obtain ⟨hd, ho⟩ := hp (L - 1) (by omega)
    refine fit_close (r := logisticFunction cutOff steep) hd hq hlam hnum (by omega) hpts (ho q hq) hτ (fun x hx => ?_) hε
      (hI.nonneg hps i) (hspec _ ⟨_, hI.col_ne_zero i, hI.col_eig i⟩)
    rw [hpts] at hx
    obtain ⟨j, hj, rfl⟩ := List.mem_map.1 hx
    exact hqr j (List.mem_range.1 hj)

theorem twoTri_ones : ∃ lam, lambdaMax twoTri.L1l = some lam ∧ 0 < lam := by
  have e : twoTri.L1l = (twoTriB1.transpose * twoTriB1).map (Int.cast : ℤ → ℝ) := SC.ofInt_L1l ..
  have h1 : ((twoTriB1.transpose * twoTriB1).map (Int.cast : ℤ → ℝ)).mulVec (fun _ => 1) =
      (2 : ℝ) • fun k => ((![1, 2, 1, 1, 2, 1] : Fin 6 → ℤ) k : ℝ) := by
    have := mulVec_int (twoTriB1.transpose * twoTriB1) (fun _ => 1) (2 • ![1, 2, 1, 1, 2, 1]) (by decide +kernel)
    have h1 : (fun _ : Fin 6 => ((1 : ℤ) : ℝ)) = fun _ => 1 := by funext; simp
    rw [h1] at this
    rw [this]
    funext k; fin_cases k <;> norm_num
  have h2 : ((twoTriB1.transpose * twoTriB1).map (Int.cast : ℤ → ℝ)).mulVec
      (fun k => ((![1, 2, 1, 1, 2, 1] : Fin 6 → ℤ) k : ℝ)) =
      (3 : ℝ) • fun k => ((![1, 2, 1, 1, 2, 1] : Fin 6 → ℤ) k : ℝ) := by
    have := mulVec_int (twoTriB1.transpose * twoTriB1) ![1, 2, 1, 1, 2, 1] (3 • ![1, 2, 1, 1, 2, 1]) (by decide +kernel)
    rw [this]
    funext k; fin_cases k <;> norm_num
  have h3 : ∀ k, (0 : ℝ) < ((![1, 2, 1, 1, 2, 1] : Fin 6 → ℤ) k : ℝ) := by
    intro i; fin_cases i <;> norm_num
  obtain ⟨lam, hlam⟩ := lambdaMax_finite (n := 6) (by norm_num) _ _ 2 3 (by norm_num) (by norm_num) h1 h2 (fun i => by
    have : machineEps ^ 2 * 12 < 1 := by unfold machineEps; norm_num
    fin_cases i <;> simp [dotProduct, Fin.sum_univ_succ] <;> linarith)
  have h4 := lambdaMax_pos (n := 6) _ _ 2 3 (by norm_num) (by norm_num) h1 h2 h3 hlam
  exact ⟨lam, by rw [e]; exact hlam, h4⟩

/-- the hypotheses of `C166_geometric` hold for a filter of size 2 on a filled triangle beside a hollow one -/
example (lib : NumLib) (f fTrue : Fin twoTri.E → ℝ) : ∃ lam ε s s₂ y x, lambdaMax twoTri.L1l = some lam ∧ 0 < lam ∧
    GridFilter.denoise lib twoTri (initFilter _) f fTrue "L1L" 2 = (.ok (), s) ∧
    edgeFlowDenoise lib twoTri (initFilter _) f fTrue "L1L" = (.ok (), s₂) ∧
    s.history.get? "f_estimated" = some (.vec y) ∧ s₂.history.get? "f_estimated" = some (.vec x) ∧
    norm2 (y - x) ≤ (4 * √6 + 6) * ((√ε + √(1 + ε)) ^ 2 / (1 + 2 / √(1 / 2 * lam))) ^ 2 * norm2 f := by
  obtain ⟨lam, hl, hpos⟩ := twoTri_ones
  have hv : (initFilter twoTri.E).Valid := by simp [FilterSt.Valid, initFilter]
  obtain ⟨s, s₂, y, x, h⟩ := C166_geometric (lib := lib) (sc := twoTri) (by decide) (pChoice := "L1L") (P := twoTri.L1l)
    (by simp [SC.getPMatrix]) hl hpos (mu := 1 / 2) (by norm_num) (L := 2) (by norm_num) (by decide) (ε := 3 / lam)
    (by positivity) (fun x hx => by
      have : (1 + 3 / lam) * lam = lam + 3 := by field_simp
      rw [this]
      rcases twoTri_lower hx with rfl | rfl <;> linarith) hv hv f fTrue fTrue
  exact ⟨lam, 3 / lam, s, s₂, y, x, hl, hpos, h⟩

end Pytspl
