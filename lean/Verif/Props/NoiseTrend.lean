import Verif.Props.NoiseAverage
import Verif.Props.TrendFilter
import Mathlib.Analysis.SpecialFunctions.Log.Base

/-!
# C171 (trend filter) and C172: the noise the trend filters draw
-/

namespace Pytspl

open Matrix MeasureTheory

variable {sc : SC ℝ} {Ω : Type*} [MeasurableSpace Ω]

/-! ## Specification -/

/-- The signal to noise ratio of random observations of a flow: energy of the flow over mean energy of the noise. -/
noncomputable def meanSNR {E : ℕ} (Pr : Measure Ω) (flow : Fin E → ℝ) (observed : Ω → Fin E → ℝ) : ℝ :=
  (∑ e, flow e ^ 2) / ∫ ω, (∑ e, (observed ω e - flow e) ^ 2) ∂Pr

/-! ## Auxiliary -/

private theorem misfit_sum {E : ℕ} (f y : Fin E → ℝ) : ∑ e, (y e - f e) ^ 2 = misfit f y := by
  rw [misfit, dotProduct]
  exact Finset.sum_congr rfl fun e _ => by rw [Pi.sub_apply, sq]

private theorem noisy_add {E : ℕ} (flow : Fin E → ℝ) (db : ℝ) (nz : Fin E → ℝ) :
    noisy flow db nz = flow + (norm2 flow / ((10 : ℝ) ^ (db / 10) * E)) • nz := rfl

private theorem stored_exists {E s r : ℕ} {st : TrendHistory E} (h : StoredShape st s r) {i j : ℕ} (hi : i < s) (hj : j < r) :
    ∃ x, Stored st i j x := by
  obtain ⟨rows, h1, h2, h3⟩ := h
  have hi' : i < rows.length := by omega
  have hj' : j < (rows[i]).length := by rw [h3 _ (List.getElem_mem hi')]; exact hj
  exact ⟨(rows[i])[j], rows, rows[i], h1, List.getElem?_eq_getElem hi', List.getElem?_eq_getElem hj'⟩

private theorem l2_stored (hE : 0 < sc.E) (st : TrendHistory sc.E) (flow : Fin sc.E → ℝ)
    (component : String) (hc : component = "divergence" ∨ component = "curl") (realisations : ℕ) (snrDb : List ℝ)
    (mu : ℝ) (hmu : 0 ≤ mu) (noise : ℕ → ℕ → Fin sc.E → ℝ) (i j : ℕ) (db : ℝ) (hi : snrDb[i]? = some db)
    (hj : j < realisations) :
    ∃ st', sc.denoisingL2 st flow component realisations snrDb mu noise = (.ok (), st') ∧
      Stored st' i j ((1 + mu • sc.L1l)⁻¹.mulVec (noisy flow db (noise i j))) := by
  have hs : snrDb ≠ [] := by rintro rfl; simp at hi
  obtain ⟨st', H, h1, -, -, h3, h2⟩ := C67_divergence_partial sc hE st flow component hc realisations (by omega) snrDb hs
    mu hmu noise
  obtain ⟨x, hx⟩ := stored_exists h3 (List.getElem?_eq_some_iff.1 hi).1 hj
  obtain ⟨e, -, -⟩ := h2 i j db x hi hj hx
  refine ⟨st', h1, ?_⟩
  have hd := isDenoiser_inv (symmPSD_L1l sc) hmu
  have e2 : (1 + mu • sc.L1l).mulVec x = noisy flow db (noise i j) := by
    rw [← e, add_mulVec, one_mulVec, smul_mulVec, SC.L1l, ← mulVec_mulVec]
    rfl
  have hl : (1 + mu • sc.L1l)⁻¹ * (1 + mu • sc.L1l) = 1 := mul_eq_one_comm.mp hd.1
  rw [← e2, mulVec_mulVec, hl, one_mulVec]
  exact hx

private theorem l1_stored (cvx : CvxSolver) (hE : 0 < sc.E) (st : TrendHistory sc.E) (flow : Fin sc.E → ℝ)
    (component : String) (hc : component = "divergence" ∨ component = "curl") (realisations : ℕ) (snrDb : List ℝ)
    (order : ℕ) (noise : ℕ → ℕ → Fin sc.E → ℝ) (i j : ℕ) (db : ℝ) (hi : snrDb[i]? = some db)
    (hj : j < realisations) :
    ∃ st', sc.denoisingL1 cvx st flow component realisations snrDb order 0 noise = (.ok (), st') ∧
      Stored st' i j (noisy flow db (noise i j)) := by
  obtain ⟨st', m, S, h1, -, h3, h2⟩ := C68_minimiser cvx sc hE st flow component hc realisations snrDb order 0 le_rfl noise
  obtain ⟨x, hx⟩ := stored_exists h3 (List.getElem?_eq_some_iff.1 hi).1 hj
  refine ⟨st', h1, ?_⟩
  have h4 := h2 i j db x hi hj hx (noisy flow db (noise i j))
  rw [sub_self, zero_mul, zero_mul, add_zero, add_zero, norm2_eq_zero.2 rfl] at h4
  have h5 := norm2_eq_zero.1 (le_antisymm h4 (norm2_nonneg _))
  rw [sub_eq_zero.1 h5]
  exact hx

/-! ## C171 -/

/-- C171: the l2 trend filter reduces the expected squared error below that of the noise it added, if `mu` times the
squared norm of the divergence of the flow is at most twice the squared noise amplitude. -/
theorem C171_trend (hE : 0 < sc.E) (hL : sc.L1l ≠ 0) (st : Ω → TrendHistory sc.E) (flow : Fin sc.E → ℝ) (hf0 : flow ≠ 0)
    (component : String) (hc : component = "divergence" ∨ component = "curl") (realisations : ℕ) (snrDb : List ℝ)
    (mu : ℝ) (hmu : 0 < mu) {Pr : Measure Ω} (noise : Ω → ℕ → ℕ → Fin sc.E → ℝ) (i j : ℕ) (db : ℝ)
    (hi : snrDb[i]? = some db) (hj : j < realisations) (hx : WhiteNoise Pr (fun ω => noise ω i j) 1)
    (hf : mu * norm2 (sc.getDivergence flow) ^ 2 ≤ 2 * (norm2 flow / ((10 : ℝ) ^ (db / 10) * sc.E)) ^ 2) :
    ∃ est : Ω → Fin sc.E → ℝ,
      (∀ ω, ∃ st', sc.denoisingL2 (st ω) flow component realisations snrDb mu (noise ω) = (.ok (), st') ∧
        Stored st' i j (est ω)) ∧
      ∫ ω, (∑ e, (est ω e - flow e) ^ 2) ∂Pr < ∫ ω, (∑ e, (noisy flow db (noise ω i j) e - flow e) ^ 2) ∂Pr := by
  refine ⟨fun ω => (1 + mu • sc.L1l)⁻¹.mulVec (noisy flow db (noise ω i j)), fun ω =>
    l2_stored hE (st ω) flow component hc realisations snrDb mu hmu.le (noise ω) i j db hi hj, ?_⟩
  have hw := hx.scale (norm2 flow / ((10 : ℝ) ^ (db / 10) * sc.E))
  rw [mul_one] at hw
  simp only [misfit_sum, noisy_add]
  rw [(hw.filter _ flow).2, (hw.unfiltered flow).2]
  have hE' : (0 : ℝ) < sc.E := by exact_mod_cast hE
  have hn : 0 < norm2 flow := lt_of_le_of_ne (norm2_nonneg _) fun h => hf0 (norm2_eq_zero.1 h.symm)
  have hr : roughness sc.L1l flow = norm2 (sc.getDivergence flow) ^ 2 := by
    rw [roughness, SC.L1l, ← mulVec_mulVec, dotProduct_mulVec, vecMul_transpose, norm2_sq]
    rfl
  refine denoiser_helps (symmPSD_L1l sc) hmu (isDenoiser_inv (symmPSD_L1l sc) hmu.le) (by positivity) hL flow ?_
  rw [hr]
  exact hf

/-! ## C172 -/

private theorem snr_value (hE : 0 < sc.E) (flow : Fin sc.E → ℝ) (hf0 : flow ≠ 0) (db : ℝ) {Pr : Measure Ω}
    {x : Ω → Fin sc.E → ℝ} (hx : WhiteNoise Pr x 1) :
    meanSNR Pr flow (fun ω => noisy flow db (x ω)) = ((10 : ℝ) ^ (db / 10)) ^ 2 * sc.E := by
  have hw := hx.scale (norm2 flow / ((10 : ℝ) ^ (db / 10) * sc.E))
  rw [mul_one] at hw
  have hE' : (0 : ℝ) < sc.E := by exact_mod_cast hE
  have hn : 0 < norm2 flow := lt_of_le_of_ne (norm2_nonneg _) fun h => hf0 (norm2_eq_zero.1 h.symm)
  have hp : (0 : ℝ) < (10 : ℝ) ^ (db / 10) := Real.rpow_pos_of_pos (by norm_num) _
  have e : ∑ e, flow e ^ 2 = norm2 flow ^ 2 := by
    rw [norm2_sq, dotProduct]
    exact Finset.sum_congr rfl fun e _ => sq _
  unfold meanSNR
  simp only [misfit_sum, noisy_add]
  rw [(hw.unfiltered flow).2, e]
  field_simp

/-- C172, what the code does: the noisy flows that the l2 and l1 denoising functions process (they store them unchanged
for `mu = 0`) have the signal to noise ratio `snr ^ 2 * E` instead of `snr = 10 ^ (dB / 10)`; in decibel, twice the
requested value plus ten times the decimal logarithm of the number of edges.  Missing: that it is the requested ratio,
which is the case only if `snr * E = 1`. -/
theorem C172_ratio_partial (hE : 0 < sc.E) (cvx : CvxSolver) (st : Ω → TrendHistory sc.E) (flow : Fin sc.E → ℝ) (hf0 : flow ≠ 0)
    (component : String) (hc : component = "divergence" ∨ component = "curl") (realisations : ℕ) (snrDb : List ℝ)
    (order : ℕ) {Pr : Measure Ω} (noise : Ω → ℕ → ℕ → Fin sc.E → ℝ) (i j : ℕ) (db : ℝ)
    (hi : snrDb[i]? = some db) (hj : j < realisations) (hx : WhiteNoise Pr (fun ω => noise ω i j) 1) :
    ∃ observed : Ω → Fin sc.E → ℝ,
      (∀ ω, ∃ st', sc.denoisingL2 (st ω) flow component realisations snrDb 0 (noise ω) = (.ok (), st') ∧
        Stored st' i j (observed ω)) ∧
      (∀ ω, ∃ st', sc.denoisingL1 cvx (st ω) flow component realisations snrDb order 0 (noise ω) = (.ok (), st') ∧
        Stored st' i j (observed ω)) ∧
      meanSNR Pr flow observed = ((10 : ℝ) ^ (db / 10)) ^ 2 * sc.E ∧
      10 * Real.logb 10 (meanSNR Pr flow observed) = 2 * db + 10 * Real.logb 10 sc.E ∧
      (meanSNR Pr flow observed = (10 : ℝ) ^ (db / 10) ↔ (10 : ℝ) ^ (db / 10) * sc.E = 1) := by
  have hE' : (0 : ℝ) < sc.E := by exact_mod_cast hE
  have hp : (0 : ℝ) < (10 : ℝ) ^ (db / 10) := Real.rpow_pos_of_pos (by norm_num) _
  refine ⟨fun ω => noisy flow db (noise ω i j), fun ω => ?_, fun ω =>
    l1_stored cvx hE (st ω) flow component hc realisations snrDb order (noise ω) i j db hi hj, ?_⟩
  · have h := l2_stored hE (st ω) flow component hc realisations snrDb 0 le_rfl (noise ω) i j db hi hj
    rwa [zero_smul, add_zero, inv_one, one_mulVec] at h
  · rw [snr_value hE flow hf0 db hx]
    refine ⟨rfl, ?_, ?_⟩
    · rw [Real.logb_mul (pow_pos hp 2).ne' hE'.ne', Real.logb_pow, Real.logb_rpow (by norm_num) (by norm_num)]
      push_cast
      ring
    · rw [sq, mul_assoc]
      exact mul_eq_left₀ hp.ne'

/-- C172 is false: for at least two edges and `dB >= 0` the flows are less noisy than requested, by at least a factor of
the number of edges; with 100 edges and 20 dB requested the ratio is 60 dB. -/
theorem C172_counterexample (hE : 2 ≤ sc.E) (st : Ω → TrendHistory sc.E) (flow : Fin sc.E → ℝ) (hf0 : flow ≠ 0)
    (component : String) (hc : component = "divergence" ∨ component = "curl") (realisations : ℕ) (snrDb : List ℝ)
    {Pr : Measure Ω} (noise : Ω → ℕ → ℕ → Fin sc.E → ℝ) (i j : ℕ) (db : ℝ)
    (hi : snrDb[i]? = some db) (hj : j < realisations) (hdb : 0 ≤ db) (hx : WhiteNoise Pr (fun ω => noise ω i j) 1) :
    ∃ observed : Ω → Fin sc.E → ℝ,
      (∀ ω, ∃ st', sc.denoisingL2 (st ω) flow component realisations snrDb 0 (noise ω) = (.ok (), st') ∧
        Stored st' i j (observed ω)) ∧
      (10 : ℝ) ^ (db / 10) < meanSNR Pr flow observed ∧
      sc.E * (10 : ℝ) ^ (db / 10) ≤ meanSNR Pr flow observed ∧
      (sc.E = 100 → db = 20 → 10 * Real.logb 10 (meanSNR Pr flow observed) = 60) := by
  have hE' : (2 : ℝ) ≤ sc.E := by exact_mod_cast hE
  have hp : (1 : ℝ) ≤ (10 : ℝ) ^ (db / 10) := Real.one_le_rpow (by norm_num) (by positivity)
  refine ⟨fun ω => noisy flow db (noise ω i j), fun ω => ?_, ?_⟩
  · have h := l2_stored (by omega) (st ω) flow component hc realisations snrDb 0 le_rfl (noise ω) i j db hi hj
    rwa [zero_smul, add_zero, inv_one, one_mulVec] at h
  · rw [snr_value (by omega) flow hf0 db hx]
    set s := (10 : ℝ) ^ (db / 10) with hs
    have h3 : 0 ≤ (s * sc.E) * (s - 1) := mul_nonneg (by positivity) (by linarith)
    refine ⟨by nlinarith, by nlinarith, fun h1 h2 => ?_⟩
    have e1 : s = 100 := by
      rw [hs, h2]
      norm_num
    have e2 : ((sc.E : ℕ) : ℝ) = 100 := by rw [h1]; norm_num
    rw [e1, e2]
    have e3 : ((100 : ℝ) ^ 2 * 100) = (10 : ℝ) ^ (6 : ℕ) := by norm_num
    rw [e3, Real.logb_pow, Real.logb_self_eq_one (by norm_num)]
    norm_num

/-- on the filled triangle: noise for all values and realisations exists, and the circular flow is not zero and has no
divergence, so every `mu` helps -/
example : ∃ (Pr : Measure (Fin tri.E × Bool)) (noise : Fin tri.E × Bool → ℕ → ℕ → Fin tri.E → ℝ) (flow : Fin tri.E → ℝ),
    (∀ i j, WhiteNoise Pr (fun ω => noise ω i j) 1) ∧ 2 ≤ tri.E ∧ tri.L1l ≠ 0 ∧ flow ≠ 0 ∧ ∀ mu db : ℝ,
      mu * norm2 (tri.getDivergence flow) ^ 2 ≤ 2 * (norm2 flow / ((10 : ℝ) ^ (db / 10) * tri.E)) ^ 2 := by
  obtain ⟨Pr, x, hx⟩ := WhiteNoise.exists tri.E (by decide) zero_le_one
  have hc : tri.getDivergence (fun k => ((![1, -1, 1] : Fin 3 → ℤ) k : ℝ)) = 0 := by
    have h1 := mulVec_int triB1 ![1, -1, 1] 0 (by decide)
    refine Eq.trans ?_ (h1.trans ?_)
    · rfl
    · funext k; exact Int.cast_zero
  refine ⟨Pr, fun ω _ _ => x ω, fun k => ((![1, -1, 1] : Fin 3 → ℤ) k : ℝ), fun _ _ => hx, by decide, fun h => ?_,
    fun h => ?_, fun mu db => ?_⟩
  · have e : tri.L1l = (triB1.transpose * triB1).map Int.cast := SC.ofInt_L1l ..
    rw [e] at h
    have h1 := congrFun (congrFun h (0 : Fin 3)) (0 : Fin 3)
    change (((triB1.transpose * triB1) 0 0 : ℤ) : ℝ) = (0 : ℝ) at h1
    have h2 : (triB1.transpose * triB1) 0 0 = 2 := by decide
    rw [h2] at h1
    norm_num at h1
  · have h1 := congrFun h (⟨0, by decide⟩ : Fin 3)
    change (((![1, -1, 1] : Fin 3 → ℤ) 0 : ℤ) : ℝ) = (0 : ℝ) at h1
    norm_num at h1
  · rw [hc, norm2_eq_zero.2 rfl, zero_pow two_ne_zero, mul_zero]
    positivity

end Pytspl
