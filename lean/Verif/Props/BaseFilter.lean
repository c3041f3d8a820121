import Verif.Model.PolyFilter
import Verif.Props.Eigen
import Mathlib.Algebra.Order.BigOperators.Ring.Finset
import Mathlib.Tactic.FieldSimp

/-!
# C46-C48, C50, C81: the base filter
-/

namespace Pytspl

open Matrix

variable {n : ℕ}

/-! ## C46 -/

/-- C46: the choice of the shift operator. -/
theorem C46_p_matrix (sc : SC ℝ) (p : String) :
    (p = "L1" → sc.getPMatrix p = .ok (sc.B1.transpose * sc.B1 + sc.B2 * sc.B2.transpose)) ∧
    (p = "L1L" → sc.getPMatrix p = .ok (sc.B1.transpose * sc.B1)) ∧
    (p = "L1U" → sc.getPMatrix p = .ok (sc.B2 * sc.B2.transpose)) ∧
    (p ≠ "L1" → p ≠ "L1L" → p ≠ "L1U" → sc.getPMatrix p = .error .valueError) := by
  refine ⟨?_, ?_, ?_, ?_⟩
  · rintro rfl; simp [SC.getPMatrix, SC.L1, SC.L1l, SC.L1u]
  · rintro rfl; simp [SC.getPMatrix, SC.L1l]
  · rintro rfl; simp [SC.getPMatrix, SC.L1u]
  · intro h1 h2 h3; simp [SC.getPMatrix, h1, h2, h3]

example (sc : SC ℝ) : sc.getPMatrix "L2" = .error .valueError :=
  (C46_p_matrix sc "L2").2.2.2 (by decide) (by decide) (by decide)

/-- whatever the choice, a returned matrix is symmetric and positive semidefinite -/
theorem getPMatrix_psd {sc : SC ℝ} {p : String} {P : Matrix (Fin sc.E) (Fin sc.E) ℝ}
    (h : sc.getPMatrix p = .ok P) : SymmPSD P := by
  unfold SC.getPMatrix at h
  split_ifs at h
  · rw [← Except.ok.inj h]; exact symmPSD_L1 sc
  · rw [← Except.ok.inj h]; exact symmPSD_L1l sc
  · rw [← Except.ok.inj h]; exact symmPSD_L1u sc

/-! ## C47 -/

theorem norm2_nonneg (v : Fin n → ℝ) : 0 ≤ norm2 v := Real.sqrt_nonneg _

theorem norm2_sq (v : Fin n → ℝ) : norm2 v ^ 2 = v ⬝ᵥ v := Real.sq_sqrt (dot_self_nonneg v)

theorem norm2_eq_zero {v : Fin n → ℝ} : norm2 v = 0 ↔ v = 0 := by
  rw [norm2, Real.sqrt_eq_zero (dot_self_nonneg v), dotProduct_self_eq_zero]

theorem norm2_smul (c : ℝ) (v : Fin n → ℝ) : norm2 (c • v) = |c| * norm2 v := by
  rw [norm2, smul_dotProduct, dotProduct_smul, smul_eq_mul, smul_eq_mul, ← mul_assoc,
    Real.sqrt_mul (mul_self_nonneg c), Real.sqrt_mul_self_eq_abs, norm2]

theorem dot_le_norm2 (a b : Fin n → ℝ) : a ⬝ᵥ b ≤ norm2 a * norm2 b := by
  have h : (a ⬝ᵥ b) ^ 2 ≤ (a ⬝ᵥ a) * (b ⬝ᵥ b) := by
    have := Finset.sum_mul_sq_le_sq_mul_sq Finset.univ a b
    simpa [dotProduct, sq] using this
  rw [norm2, norm2, ← Real.sqrt_mul (dot_self_nonneg a)]
  exact Real.le_sqrt_of_sq_le h

theorem norm2_add_le (a b : Fin n → ℝ) : norm2 (a + b) ≤ norm2 a + norm2 b := by
  refine Real.sqrt_le_iff.2 ⟨add_nonneg (norm2_nonneg a) (norm2_nonneg b), ?_⟩
  rw [dot_add_sq, add_sq, norm2_sq, norm2_sq]
  have := dot_le_norm2 a b
  linarith

/-- C47: for a non-zero reference the error is finite, is the root of the energy ratio, vanishes
exactly at the reference, is invariant under a common scaling and obeys a triangle inequality. -/
theorem C47_nrmse (t : Fin n → ℝ) (ht : t ≠ 0) (f g : Fin n → ℝ) (c : ℝ) (hc : c ≠ 0) :
    ∃ e e' : ℝ, calculateErrorNRMSE f t = some e ∧ calculateErrorNRMSE g t = some e' ∧
      0 ≤ e ∧ e ^ 2 * (t ⬝ᵥ t) = (f - t) ⬝ᵥ (f - t) ∧ (e = 0 ↔ f = t) ∧
      calculateErrorNRMSE (c • f) (c • t) = some e ∧
      e ≤ e' + Real.sqrt ((f - g) ⬝ᵥ (f - g)) / Real.sqrt (t ⬝ᵥ t) := by
  have hn : norm2 t ≠ 0 := fun h => ht (norm2_eq_zero.1 h)
  have hpos : 0 < norm2 t := lt_of_le_of_ne (norm2_nonneg t) (Ne.symm hn)
  refine ⟨norm2 (f - t) / norm2 t, norm2 (g - t) / norm2 t, ?_, ?_, ?_, ?_, ?_, ?_, ?_⟩
  · simp [calculateErrorNRMSE, fdiv, hn]
  · simp [calculateErrorNRMSE, fdiv, hn]
  · exact div_nonneg (norm2_nonneg _) hpos.le
  · rw [div_pow, ← norm2_sq t, ← norm2_sq (f - t)]
    field_simp
  · rw [div_eq_zero_iff, or_iff_left hn, norm2_eq_zero, sub_eq_zero]
  · have hn' : norm2 (c • t) ≠ 0 := by
      rw [norm2_smul]; exact mul_ne_zero (abs_ne_zero.2 hc) hn
    rw [calculateErrorNRMSE, fdiv, if_neg hn', ← smul_sub, norm2_smul, norm2_smul,
      mul_div_mul_left _ _ (abs_ne_zero.2 hc)]
  · change _ ≤ _ + norm2 (f - g) / norm2 t
    rw [← add_div]
    apply div_le_div_of_nonneg_right _ hpos.le
    have : f - t = (g - t) + (f - g) := by abel
    rw [this]
    exact norm2_add_le _ _

/-- C47: a zero reference gives no finite error. -/
theorem C47_zero_reference (f : Fin n → ℝ) : calculateErrorNRMSE f 0 = none := by
  simp [calculateErrorNRMSE, fdiv, norm2]

example : ∃ e : ℝ, calculateErrorNRMSE ![3, 0] ![0, 4] = some e ∧ e ≠ 0 := by
  obtain ⟨e, -, h, -, -, -, h0, -⟩ := C47_nrmse (![0, 4] : Fin 2 → ℝ) (fun h => by
    have := congrFun h 1; simp at this) ![3, 0] 0 1 one_ne_zero
  exact ⟨e, h, fun he => by have := congrFun (h0.1 he) 0; simp at this⟩

/-! ## C48 -/

/-- C48: without a cut-off frequency and a steepness the response is one half at 0.01 and has steepness 100. -/
theorem C48_default (x : ℝ) : logisticFunction (lam := x) = 1 / (1 + Real.exp (-100 * (x - 1 / 100))) := by
  unfold logisticFunction
  norm_num

/-- C48: the logistic response. -/
theorem C48_logistic (c s : ℝ) (hs : 0 < s) :
    StrictMono (logisticFunction c s) ∧
    (∀ x, 0 < logisticFunction c s x ∧ logisticFunction c s x < 1) ∧
    logisticFunction c s c = 1 / 2 ∧
    (∀ d, logisticFunction c s (c + d) + logisticFunction c s (c - d) = 1) := by
  refine ⟨?_, ?_, ?_, ?_⟩
  · intro x y hxy
    unfold logisticFunction
    apply one_div_lt_one_div_of_lt
    · positivity
    · have : Real.exp (-s * (y - c)) < Real.exp (-s * (x - c)) := by
        apply Real.exp_lt_exp.2
        nlinarith
      linarith
  · intro x
    have := Real.exp_pos (-s * (x - c))
    unfold logisticFunction
    refine ⟨by positivity, ?_⟩
    rw [div_lt_one (by positivity)]
    linarith
  · simp [logisticFunction]; norm_num
  · intro d
    unfold logisticFunction
    have h1 : Real.exp (-s * (c - d - c)) = (Real.exp (-s * (c + d - c)))⁻¹ := by
      rw [← Real.exp_neg]; congr 1; ring
    rw [h1]
    have := Real.exp_pos (-s * (c + d - c))
    field_simp
    ring

example : logisticFunction (1 / 100) 100 0 < logisticFunction (1 / 100) 100 3 :=
  (C48_logistic (1 / 100) 100 (by norm_num)).1 (by norm_num)

/-! ## C50 -/

/-- the normalised iterate, for any number of passes -/
private theorem power_state (P : Matrix (Fin n) (Fin n) ℝ) (k : ℕ) :
    (powerStep P)^[k + 1] (some fun _ => 1) =
      if (P ^ (k + 1)).mulVec (fun _ => 1) = 0 then none
      else some ((norm2 ((P ^ (k + 1)).mulVec fun _ => 1))⁻¹ • (P ^ (k + 1)).mulVec fun _ => 1) := by
  induction k with
  | zero =>
    simp only [zero_add, Function.iterate_one, pow_one, powerStep, Option.bind_eq_bind,
      Option.bind_some, norm2_eq_zero]
  | succ k ih =>
    rw [Function.iterate_succ_apply', ih]
    have hp : (P ^ (k + 1 + 1)).mulVec (fun _ => 1) = P.mulVec ((P ^ (k + 1)).mulVec fun _ => 1) := by
      rw [mulVec_mulVec, ← pow_succ']
    by_cases h : (P ^ (k + 1)).mulVec (fun _ => 1) = 0
    · rw [if_pos h, hp, h]
      simp [powerStep]
    · rw [if_neg h]
      have hn : 0 < norm2 ((P ^ (k + 1)).mulVec fun _ => 1) :=
        lt_of_le_of_ne (norm2_nonneg _) fun h0 => h (norm2_eq_zero.1 h0.symm)
      simp only [powerStep, Option.bind_eq_bind, Option.bind_some]
      rw [mulVec_smul, norm2_smul, hp]
      set u := P.mulVec ((P ^ (k + 1)).mulVec fun _ => 1)
      set a := norm2 ((P ^ (k + 1)).mulVec fun _ => 1)
      have ha : |a⁻¹| = a⁻¹ := abs_of_pos (inv_pos.2 hn)
      by_cases hu : u = 0
      · simp [hu, norm2_eq_zero.2 rfl]
      · have hu' : norm2 u ≠ 0 := fun h0 => hu (norm2_eq_zero.1 h0)
        rw [if_neg hu, if_neg (mul_ne_zero (by rw [ha]; exact (inv_pos.2 hn).ne') hu'), ha, smul_smul]
        congr 2
        field_simp

/-- C50: the result for `k >= 1` passes: the normalised `k`-th iterate of the all-ones vector plus
machine epsilon, non-finite exactly when that iterate vanishes. -/
theorem C50_power_iteration (P : Matrix (Fin n) (Fin n) ℝ) (k : ℕ) (hk : 1 ≤ k) :
    ((P ^ k).mulVec (fun _ => 1) = 0 → powerIteration P k = none) ∧
    ((P ^ k).mulVec (fun _ => 1) ≠ 0 → powerIteration P k = some fun i =>
      (P ^ k).mulVec (fun _ => 1) i /
        Real.sqrt ((P ^ k).mulVec (fun _ => 1) ⬝ᵥ (P ^ k).mulVec (fun _ => 1)) + machineEps) := by
  obtain ⟨k, rfl⟩ : ∃ j, k = j + 1 := ⟨k - 1, by omega⟩
  constructor
  · intro h
    rw [powerIteration, power_state, if_pos h]; rfl
  · intro h
    rw [powerIteration, power_state, if_neg h]
    simp only [Option.bind_eq_bind, Option.bind_some, Option.pure_def]
    congr 1
    funext i
    rw [Pi.smul_apply, smul_eq_mul, inv_mul_eq_div]; rfl

/-- a power of a symmetric positive semidefinite matrix has the kernel of the matrix -/
theorem pow_ker {P : Matrix (Fin n) (Fin n) ℝ} (hP : SymmPSD P) (v : Fin n → ℝ) (k : ℕ)
    (h : (P ^ (k + 1)).mulVec v = 0) : P.mulVec v = 0 := by
  induction k with
  | zero => simpa using h
  | succ k ih =>
    apply ih
    have h1 : P.mulVec (P.mulVec ((P ^ k).mulVec v)) = 0 := by
      rw [mulVec_mulVec, mulVec_mulVec, ← sq, ← pow_add, ← h]
      congr 2; ring
    have h2 : P.mulVec ((P ^ k).mulVec v) ⬝ᵥ P.mulVec ((P ^ k).mulVec v) = 0 := by
      rw [dot_mulVec_transpose, hP.1, h1, zero_dotProduct]
    have h3 := dotProduct_self_eq_zero.1 h2
    rwa [mulVec_mulVec, ← pow_succ'] at h3

/-- C50: for a symmetric positive semidefinite matrix the result is finite exactly when the all-ones
vector is not annihilated, and an all-ones eigenvector is reproduced together with its eigenvalue. -/
theorem C50_finite_iff (P : Matrix (Fin n) (Fin n) ℝ) (hP : SymmPSD P) (k : ℕ) (hk : 1 ≤ k) :
    (powerIteration P k = none ↔ P.mulVec (fun _ => 1) = 0) ∧
    (∀ lam : ℝ, 0 < lam → 0 < n → P.mulVec (fun _ => 1) = lam • (fun _ => 1) →
      powerIteration P k = some (fun _ => 1 / Real.sqrt n + machineEps) ∧ lambdaMax P = some lam) := by
  have hpow : ∀ (lam : ℝ), P.mulVec (fun _ => 1) = lam • (fun _ => (1 : ℝ)) → ∀ k : ℕ,
      (P ^ k).mulVec (fun _ => 1) = lam ^ k • (fun _ => (1 : ℝ)) := by
    intro lam h k
    induction k with
    | zero => simp
    | succ k ih => rw [pow_succ, ← mulVec_mulVec, h, mulVec_smul, ih, smul_smul, pow_succ']
  have hval : ∀ (lam : ℝ), 0 < lam → 0 < n → P.mulVec (fun _ => 1) = lam • (fun _ => (1 : ℝ)) →
      ∀ k : ℕ, 1 ≤ k → powerIteration P k = some (fun _ => 1 / Real.sqrt n + machineEps) := by
    intro lam hl hn h k hk
    have e := hpow lam h k
    have hne : (P ^ k).mulVec (fun _ => 1) ≠ 0 := by
      intro h0
      rw [e] at h0
      have := congrFun h0 ⟨0, hn⟩
      simp only [Pi.smul_apply, smul_eq_mul, mul_one, Pi.zero_apply] at this
      exact (pow_pos hl k).ne' this
    rw [(C50_power_iteration P k hk).2 hne, e]
    congr 1
    funext i
    have hd : (lam ^ k • fun _ : Fin n => (1 : ℝ)) ⬝ᵥ (lam ^ k • fun _ => (1 : ℝ)) =
        (lam ^ k) ^ 2 * n := by
      simp only [dotProduct, Pi.smul_apply, smul_eq_mul, mul_one, Finset.sum_const, Finset.card_univ,
        Fintype.card_fin, nsmul_eq_mul]
      ring
    rw [hd, Real.sqrt_mul (sq_nonneg _), Real.sqrt_sq (pow_pos hl k).le]
    simp only [Pi.smul_apply, smul_eq_mul, mul_one]
    have h1 := (pow_pos hl k).ne'
    have h2 : Real.sqrt n ≠ 0 := (Real.sqrt_pos.2 (by exact_mod_cast hn)).ne'
    field_simp
  refine ⟨⟨fun h => ?_, fun h => ?_⟩, fun lam hl hn h => ⟨hval lam hl hn h k hk, ?_⟩⟩
  · by_contra hne
    obtain ⟨j, rfl⟩ : ∃ j, k = j + 1 := ⟨k - 1, by omega⟩
    rw [(C50_power_iteration P (j + 1) hk).2 fun h0 => hne (pow_ker hP _ j h0)] at h
    cases h
  · apply (C50_power_iteration P k hk).1
    obtain ⟨j, rfl⟩ : ∃ j, k = j + 1 := ⟨k - 1, by omega⟩
    rw [pow_succ, ← mulVec_mulVec, h, mulVec_zero]
  · have hv := hval lam hl hn h 50 (by norm_num)
    have hpos : 0 < 1 / Real.sqrt n + machineEps :=
      add_pos_of_nonneg_of_pos (by positivity) machineEps_pos
    have hPv : P.mulVec (fun _ => 1 / Real.sqrt n + machineEps) =
        lam • fun _ => (1 / Real.sqrt n + machineEps) := by
      have e : (fun _ : Fin n => 1 / Real.sqrt n + machineEps) =
          (1 / Real.sqrt n + machineEps) • fun _ => (1 : ℝ) := by funext i; simp
      rw [e, mulVec_smul, h, smul_comm]
    rw [lambdaMax, hv]
    simp only [Option.bind_eq_bind, Option.bind_some]
    rw [if_neg]
    · congr 1
      rw [hPv]
      simp only [Pi.smul_apply, smul_eq_mul]
      have hn' : (n : ℝ) ≠ 0 := by exact_mod_cast hn.ne'
      rw [mul_div_assoc, div_self hpos.ne', mul_one, Finset.sum_const, Finset.card_univ,
        Fintype.card_fin, nsmul_eq_mul]
      field_simp
    · rintro (⟨i, hi⟩ | h0)
      · exact hpos.ne' hi
      · omega

/-- C50: the upper Laplacian of a complex without triangles, and the lower Laplacian of a complex in
which the constant unit flow has no divergence (e.g. a directed cycle), give non-finite values. -/
theorem C50_degenerate (sc : SC ℝ) (k : ℕ) (hk : 1 ≤ k) :
    (sc.triangles = [] → powerIteration sc.L1u k = none) ∧
    (sc.getDivergence (fun _ => 1) = 0 → powerIteration sc.L1l k = none) := by
  constructor
  · intro hT
    rw [(C50_finite_iff _ (symmPSD_L1u sc) k hk).1, SC.L1u, ← mulVec_mulVec]
    funext i
    have : ∀ y : Fin sc.T → ℝ, (sc.B2.mulVec y) i = ∑ j, sc.B2 i j * y j := fun y => rfl
    rw [this]
    refine Finset.sum_eq_zero fun j _ => ?_
    have hj : (j : ℕ) < sc.triangles.length := j.isLt
    have hl : sc.triangles.length = 0 := by rw [hT]; rfl
    omega
  · intro hd
    rw [(C50_finite_iff _ (symmPSD_L1l sc) k hk).1, SC.L1l, ← mulVec_mulVec]
    unfold SC.getDivergence at hd
    rw [hd, mulVec_zero]

/-- the directed 3-cycle: its constant unit flow has no divergence -/
example : ∃ sc : SC ℝ, sc.WellFormed ∧ sc.edges = [(0, 1), (1, 2), (2, 0)] ∧
    powerIteration sc.L1l 50 = none ∧ powerIteration sc.L1u 50 = none := by
  let sc : SC ℝ := SC.ofInt [0, 1, 2] [(0, 1), (1, 2), (2, 0)] []
    (!![-1, 0, 1; 1, -1, 0; 0, 1, -1] : Matrix (Fin 3) (Fin 3) ℤ) (Matrix.of fun _ j => j.elim0)
  refine ⟨sc, ⟨SC.ofInt_built (okEq_spec (by decide +kernel)) (okEq_spec (by decide +kernel)),
    ?_, ?_, ?_⟩, rfl, (C50_degenerate sc 50 (by norm_num)).2 ?_,
    (C50_degenerate sc 50 (by norm_num)).1 rfl⟩
  · show EdgesInRange 3 [(0, 1), (1, 2), (2, 0)]
    decide
  · show NoLoops [(0, 1), (1, 2), (2, 0)]
    decide
  · intro t ht
    exact absurd ht (List.not_mem_nil)
  · have h : ∀ B : Matrix (Fin 3) (Fin 3) ℝ,
        B = (!![-1, 0, 1; 1, -1, 0; 0, 1, -1] : Matrix (Fin 3) (Fin 3) ℤ).map (Int.cast : ℤ → ℝ) →
        B.mulVec (fun _ => 1) = 0 := by
      rintro B rfl
      funext i
      fin_cases i <;> simp [Matrix.mulVec, dotProduct, Fin.sum_univ_three]
    exact h _ rfl

/-! ## C81 -/

/-- C81: the sampled frequencies and the denoising targets. -/
theorem C81_grid_sampling (P : Matrix (Fin n) (Fin n) ℝ) (num : Int) (mu : ℝ) :
    (num < 0 → GridFilter.sampledResponse P num mu = .error .valueError) ∧
    (0 ≤ num → lambdaMax P = none → GridFilter.sampledResponse P num mu = .ok none) ∧
    (∀ lam, 0 ≤ num → lambdaMax P = some lam →
      ∃ (resp : List (Option ℝ)) (pts : List ℝ),
        GridFilter.sampledResponse P num mu = .ok (some (resp, pts)) ∧
        (pts.length : Int) = num ∧ resp.length = pts.length ∧
        (∀ x, pts[0]? = some x → x = 0) ∧
        (2 ≤ num → pts[num.toNat - 1]? = some lam) ∧
        (∀ (i : ℕ) (x y : ℝ), pts[i]? = some x → pts[i + 1]? = some y → y - x = lam / ((num : ℝ) - 1)) ∧
        (∀ (i : ℕ) (x : ℝ), pts[i]? = some x → 1 + mu * x ≠ 0 → resp[i]? = some (some (1 / (1 + mu * x)))) ∧
        (∀ (i : ℕ) (x : ℝ), pts[i]? = some x → 1 + mu * x = 0 → resp[i]? = some none)) := by
  refine ⟨fun h => ?_, fun h0 h => ?_, fun lam h0 h => ?_⟩
  · simp [GridFilter.sampledResponse, GridFilter.sampleGridPoints, h, bind, Except.bind]
  · simp [GridFilter.sampledResponse, GridFilter.sampleGridPoints, h, not_lt.2 h0, bind, Except.bind,
      pure, Except.pure]
  · have hc : ((num.toNat : ℕ) : ℝ) = (num : ℝ) := by
      rw [show ((num.toNat : ℕ) : ℝ) = ((num.toNat : ℤ) : ℝ) by norm_cast, Int.toNat_of_nonneg h0]
    have hget : ∀ (i : ℕ) (x : ℝ), ((List.range num.toNat).map fun i : ℕ =>
        (i : ℝ) * (lam / ((num.toNat : ℝ) - 1)))[i]? = some x →
        i < num.toNat ∧ x = (i : ℝ) * (lam / ((num.toNat : ℝ) - 1)) := by
      intro i x hx
      rw [List.getElem?_map, Option.map_eq_some_iff] at hx
      obtain ⟨j, hj, rfl⟩ := hx
      rw [List.getElem?_eq_some_iff] at hj
      obtain ⟨hi, hj⟩ := hj
      simp only [List.getElem_range] at hj
      subst hj
      exact ⟨by simpa using hi, rfl⟩
    refine ⟨((List.range num.toNat).map fun i : ℕ => (i : ℝ) * (lam / ((num.toNat : ℝ) - 1))).map
        fun x => GridFilter.frequencyResponseHp x mu,
      (List.range num.toNat).map fun i : ℕ => (i : ℝ) * (lam / ((num.toNat : ℝ) - 1)), by
      simp only [GridFilter.sampledResponse, GridFilter.sampleGridPoints, h, not_lt.2 h0,
        GridFilter.linspace0, bind, Except.bind, pure, Except.pure, if_false, Option.map_some], ?_, ?_,
      ?_, ?_, ?_, ?_, ?_⟩
    · simp [h0]
    · simp
    · intro x hx
      simpa using (hget 0 x hx).2
    · intro h2
      rw [List.getElem?_map, List.getElem?_range (by omega)]
      simp only [Option.map_some, Option.some.injEq]
      have h1 : (1 : ℕ) ≤ num.toNat := by omega
      rw [Nat.cast_sub h1, Nat.cast_one, mul_div_cancel₀]
      rw [hc]
      have : (2 : ℝ) ≤ num := by exact_mod_cast h2
      linarith
    · intro i x y hx hy
      rw [(hget i x hx).2, (hget (i + 1) y hy).2, hc]
      push_cast
      ring
    · intro i x hx h1
      rw [List.getElem?_map, hx]
      simp [GridFilter.frequencyResponseHp, fdiv, h1]
    · intro i x hx h1
      rw [List.getElem?_map, hx]
      simp [GridFilter.frequencyResponseHp, fdiv, h1]

/-- the lower Laplacian of the triangle with edges 0-1, 1-2, 2-0 shifted by the identity: the estimate
of the largest eigenvalue is finite -/
example : lambdaMax (!![2, 1; 1, 2] : Matrix (Fin 2) (Fin 2) ℝ) = some 3 := by
  refine ((C50_finite_iff _ ⟨?_, ?_⟩ 1 le_rfl).2 3 (by norm_num) (by norm_num) ?_).2
  · ext i j; fin_cases i <;> fin_cases j <;> simp
  · intro v
    simp [Matrix.mulVec, dotProduct, Fin.sum_univ_two]
    nlinarith [sq_nonneg (v 0 + v 1), sq_nonneg (v 0), sq_nonneg (v 1)]
  · funext i
    fin_cases i <;> simp [Matrix.mulVec, dotProduct, Fin.sum_univ_two] <;> norm_num

end Pytspl
