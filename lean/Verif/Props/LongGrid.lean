import Verif.Props.LongFilters
import Verif.Props.GridAccuracy
import Verif.Props.PowerAccuracy

/-!
# C167: long grid-based filters lose what denoising should keep
-/

namespace Pytspl

open Matrix Polynomial

variable {lib : NumLib} {sc : SC ℝ} {L : ℕ}

/-- what the sampled frequencies and targets are -/
private theorem sampled {P : Matrix (Fin sc.E) (Fin sc.E) ℝ} {lam mu : ℝ} (hl : lambdaMax P = some lam) (hlam : 0 < lam)
    (hmu : 0 ≤ mu) {resp : List (Option ℝ)} {pts g : List ℝ}
    (h : GridFilter.sampledResponse P sc.E mu = .ok (some (resp, pts))) (hg : resp = g.map some) :
    pts = (List.range sc.E).map (fun i : ℕ => (i : ℝ) * (lam / ((sc.E : ℝ) - 1))) ∧
      g = pts.map (fun x => 1 / (1 + mu * x)) ∧ ∀ x ∈ pts, 0 ≤ x := by
  have hneg : ¬ ((sc.E : Int) < 0) := by omega
  simp only [GridFilter.sampledResponse, GridFilter.sampleGridPoints, hl, GridFilter.linspace0, hneg, if_false, bind,
    Except.bind, pure, Except.pure, Option.map_some, Int.toNat_natCast, Except.ok.injEq, Option.some.injEq,
    Prod.mk.injEq] at h
  obtain ⟨h1, h2⟩ := h
  have hpos : ∀ x ∈ pts, 0 ≤ x := by
    intro x hx
    rw [← h2] at hx
    obtain ⟨i, hi, rfl⟩ := List.mem_map.1 hx
    have : ((i : ℕ) : ℝ) + 1 ≤ sc.E := by exact_mod_cast List.mem_range.1 hi
    have h0 : (0 : ℝ) ≤ i := Nat.cast_nonneg i
    exact mul_nonneg h0 (div_nonneg hlam.le (by linarith))
  refine ⟨h2.symm, ?_, hpos⟩
  rw [h2, hg] at h1
  have h3 : (pts.map fun x => 1 / (1 + mu * x)).map some = g.map some := by
    rw [← h1, List.map_map]
    refine List.map_congr_left fun x hx => ?_
    have := hpos x hx
    have hne : 1 + mu * x ≠ 0 := by positivity
    simp only [Function.comp, GridFilter.frequencyResponseHp, fdiv, hne, if_false]
  exact (List.map_injective_iff.2 (Option.some_injective ℝ) h3).symm

/-- C167, the gain: a flow which the chosen Laplacian maps to zero - edge-flow denoising returns it unchanged - is returned
at most `2^52 / (sqrt E lam^(L-1))` times as large, where `lam` is the estimated largest eigenvalue. -/
theorem C167_lost (hE : 2 ≤ sc.E) {pChoice : String} {P : Matrix (Fin sc.E) (Fin sc.E) ℝ}
    (hP : sc.getPMatrix pChoice = .ok P) {lam mu : ℝ} (hl : lambdaMax P = some lam) (hlam : 0 < lam) (hmu : 0 ≤ mu)
    {f fEst : Fin sc.E → ℝ} {H : Matrix (Fin sc.E) (Fin sc.E) ℝ} (hf : P.mulVec f = 0) (hL : 0 < L)
    (h : GridFilter.DenoiseRcond sc f pChoice L mu H fEst) :
    Real.sqrt sc.E * lam ^ (L - 1) * norm2 fEst ≤ 2 ^ 52 * norm2 f := by
  obtain ⟨P', resp, pts, g, hP', hs, hg, hp⟩ := h
  rw [hP] at hP'
  obtain rfl := Except.ok.inj hP'
  obtain ⟨h1, h2, h3⟩ := sampled hl hlam hmu hs hg
  have hlen : pts.length = sc.E := by rw [h1]; simp
  obtain ⟨r, hr, hb⟩ := C164_gain hL hp (lam := 0) (v := f) (by rw [hf, zero_smul])
  have hest : fEst = H.mulVec f := by
    obtain ⟨h, -, rfl, rfl⟩ := hp
    rfl
  have hb := hb ⟨sc.E - 1, by omega⟩
  have hlast : pts[(⟨sc.E - 1, by omega⟩ : Fin pts.length)] = lam := by
    simp only [h1, Fin.getElem_fin, List.getElem_map, List.getElem_range]
    have : (2 : ℝ) ≤ sc.E := by exact_mod_cast hE
    rw [Nat.cast_sub (by omega), Nat.cast_one]
    field_simp
    rw [div_self (by linarith)]
  rw [hlast, abs_of_pos hlam] at hb
  have e1 : ∑ j ∈ Finset.range L, ((0 : ℝ) ^ j) ^ 2 = 1 := by
    rw [Finset.sum_eq_single_of_mem 0 (Finset.mem_range.2 hL)]
    · norm_num
    · intro j _ hj
      rw [zero_pow hj]; norm_num
  rw [e1, Real.sqrt_one, one_mul] at hb
  have e2 : norm2 (fun i : Fin pts.length => g[(i : ℕ)]?.getD 0) ≤ Real.sqrt sc.E := by
    refine Real.sqrt_le_sqrt ?_
    rw [dotProduct]
    calc ∑ i : Fin pts.length, (g[(i : ℕ)]?.getD 0) * (g[(i : ℕ)]?.getD 0) ≤ ∑ i : Fin pts.length, (1 : ℝ) := by
          refine Finset.sum_le_sum fun i _ => ?_
          have hi : (i : ℕ) < pts.length := i.isLt
          have hx := h3 pts[(i : ℕ)] (List.getElem_mem _)
          have e3 : g[(i : ℕ)]?.getD 0 = 1 / (1 + mu * pts[(i : ℕ)]) := by
            rw [h2]; simp [hi]
          rw [e3]
          have h5 : 1 / (1 + mu * pts[(i : ℕ)]) ≤ 1 := by
            rw [div_le_one (by positivity)]
            have := mul_nonneg hmu hx
            linarith
          have h6 : 0 ≤ 1 / (1 + mu * pts[(i : ℕ)]) := by positivity
          nlinarith
      _ = sc.E := by simp [hlen]
  have hEpos : (0 : ℝ) < Real.sqrt sc.E := Real.sqrt_pos.2 (by exact_mod_cast (by omega : 0 < sc.E))
  have hEs : Real.sqrt sc.E * Real.sqrt sc.E = sc.E := Real.mul_self_sqrt (by positivity)
  have e3 : (sc.E : ℝ) ≤ ((max pts.length L : ℕ) : ℝ) := by
    rw [hlen]; exact_mod_cast le_max_left _ _
  have e4 : Real.sqrt sc.E * lam ^ (L - 1) * |r| ≤ 2 ^ 52 := by
    have h5 : machineEps * (Real.sqrt sc.E * Real.sqrt sc.E) * lam ^ (L - 1) * |r| ≤ Real.sqrt sc.E := by
      rw [hEs]
      refine le_trans ?_ (hb.trans e2)
      have he : (0 : ℝ) ≤ machineEps := by unfold machineEps; positivity
      gcongr
    have h6 : Real.sqrt sc.E * (machineEps * (Real.sqrt sc.E * lam ^ (L - 1) * |r|)) ≤ Real.sqrt sc.E * 1 := by
      rw [mul_one]; refine le_trans (le_of_eq ?_) h5; ring
    have h7 := le_of_mul_le_mul_left h6 hEpos
    unfold machineEps at h7
    linarith
  rw [hest, hr, norm2_smul]
  calc Real.sqrt sc.E * lam ^ (L - 1) * (|r| * norm2 f) = (Real.sqrt sc.E * lam ^ (L - 1) * |r|) * norm2 f := by ring
    _ ≤ _ := mul_le_mul_of_nonneg_right e4 (norm2_nonneg f)

/-- C167 is false: whenever the estimated largest eigenvalue is 2 or more, the grid-based denoising filter of size 64 or more
returns less than a thousandth of every flow that edge-flow denoising returns unchanged. -/
theorem C167_counterexample (hE : 2 ≤ sc.E) {pChoice : String} {P : Matrix (Fin sc.E) (Fin sc.E) ℝ}
    (hP : sc.getPMatrix pChoice = .ok P) {lam mu : ℝ} (hl : lambdaMax P = some lam) (hlam : 2 ≤ lam) (hmu : 0 ≤ mu)
    {f fEst : Fin sc.E → ℝ} {H : Matrix (Fin sc.E) (Fin sc.E) ℝ} (hf : P.mulVec f = 0) (hL : 64 ≤ L)
    (h : GridFilter.DenoiseRcond sc f pChoice L mu H fEst) {st : FilterSt sc.E} (hst : st.Valid) (fTrue : Fin sc.E → ℝ) :
    norm2 fEst ≤ 1 / 1000 * norm2 f ∧ ∃ s, edgeFlowDenoise lib sc st f fTrue pChoice [mu] = (.ok (), s) ∧
      s.history.get? "f_estimated" = some (.vec f) := by
  constructor
  · have h1 := C167_lost hE hP hl (by linarith) hmu hf (by omega) h
    have h2 : (2 : ℝ) ^ 63 ≤ lam ^ (L - 1) :=
      (pow_le_pow_right₀ (by norm_num) (by omega : 63 ≤ L - 1)).trans (pow_le_pow_left₀ (by norm_num) hlam _)
    have h3 : (1 : ℝ) ≤ Real.sqrt sc.E := by
      rw [Real.one_le_sqrt]
      exact_mod_cast (by omega : 1 ≤ sc.E)
    have h4 : (2 : ℝ) ^ 63 * norm2 fEst ≤ 2 ^ 52 * norm2 f := by
      refine le_trans (mul_le_mul_of_nonneg_right ?_ (norm2_nonneg fEst)) h1
      calc (2 : ℝ) ^ 63 = 1 * 2 ^ 63 := (one_mul _).symm
        _ ≤ _ := mul_le_mul h3 h2 (by positivity) (by positivity)
    have h5 := norm2_nonneg f
    linarith
  · obtain ⟨s, H', e1, -, e3, hH⟩ := C59_denoise (lib := lib) (by omega : 0 < sc.E) hP st hst f fTrue [mu]
      (by intro m hm; rw [List.mem_singleton] at hm; rw [hm]; exact hmu) mu rfl
    rw [hH.2.2.2 f hf] at e3
    exact ⟨s, e1, e3⟩

/-- C167, the part that holds: at sizes `L` with `4 (L - 1)² < E` where the powers of the estimate `lam` are moderate, the
estimate is close to that of edge-flow denoising.  The error is the one of the best polynomial response `q` of that size
(`τ`), magnified by the grid as in C166, plus machine precision times the size of the system and of the coefficients of
`q`. -/
theorem C167_moderate_partial (hE : 2 ≤ sc.E) {pChoice : String} {P : Matrix (Fin sc.E) (Fin sc.E) ℝ}
    (hP : sc.getPMatrix pChoice = .ok P) {lam : ℝ} (hl : lambdaMax P = some lam) (hlam : 0 < lam) {mu : ℝ} (hmu : 0 < mu)
    (hL : 1 ≤ L) (hLE : 4 * (L - 1) ^ 2 < sc.E) {ε : ℝ} (hε : 0 ≤ ε)
    (hspec : ∀ x, IsEigenvalue P x → x ≤ (1 + ε) * lam) {f fEst : Fin sc.E → ℝ} {H : Matrix (Fin sc.E) (Fin sc.E) ℝ}
    (h : GridFilter.DenoiseRcond sc f pChoice L mu H fEst) (q : ℝ[X]) (hq : q.natDegree ≤ L - 1) {τ Lam : ℝ} (hτ : 0 ≤ τ)
    (hqr : ∀ x, 0 ≤ x → x ≤ (1 + ε) * lam → |q.eval x - 1 / (1 + mu * x)| ≤ τ) (hLam : 1 ≤ Lam) (hLam' : lam ≤ Lam)
    {st : FilterSt sc.E} (hst : st.Valid) (fTrue : Fin sc.E → ℝ) :
    ∃ s x, edgeFlowDenoise lib sc st f fTrue pChoice [mu] = (.ok (), s) ∧
      s.history.get? "f_estimated" = some (.vec x) ∧
      norm2 (fEst - x) ≤ (τ + 2 * ((√sc.E + 1) * τ + machineEps * (max sc.E L : ℕ) * (√(sc.E * L) * Lam ^ (L - 1)) *
        √(∑ j ∈ Finset.range L, q.coeff j ^ 2)) * (Chebyshev.T ℝ (L - 1 : ℕ)).eval (1 + 2 * ε)) * norm2 f := by
  obtain ⟨P', resp, pts, g, hP', hs, hg, hp⟩ := h
  rw [hP] at hP'
  obtain rfl := Except.ok.inj hP'
  obtain ⟨h1, h2, h3⟩ := sampled hl hlam hmu.le hs hg
  have hlen : pts.length = sc.E := by rw [h1]; simp
  have hE1 : (0 : ℝ) < (sc.E : ℝ) - 1 := by
    have : (2 : ℝ) ≤ sc.E := by exact_mod_cast hE
    linarith
  have hmax : ∀ x ∈ pts, x ≤ lam := by
    intro x hx
    rw [h1] at hx
    obtain ⟨i, hi, rfl⟩ := List.mem_map.1 hx
    have : ((i : ℕ) : ℝ) + 1 ≤ sc.E := by exact_mod_cast List.mem_range.1 hi
    rw [mul_div_assoc', div_le_iff₀ hE1, mul_comm]
    exact mul_le_mul_of_nonneg_left (by linarith) hlam.le
  obtain ⟨s, H', e1, -, e3, hH⟩ := C59_denoise (lib := lib) (by omega : 0 < sc.E) hP st hst f fTrue [mu]
    (by intro m hm; rw [List.mem_singleton] at hm; rw [hm]; exact hmu.le) mu rfl
  refine ⟨s, _, e1, e3, ?_⟩
  obtain ⟨p, hpd, rfl, rfl, hfit⟩ := C139_fit (by omega) hp
  have hb := hfit q hq
  have hal : ∀ i : Fin pts.length, g[(i : ℕ)]?.getD 0 = 1 / (1 + mu * pts[i]) := by
    intro i
    have hi : (i : ℕ) < pts.length := i.isLt
    rw [h2]; simp [hi]
  simp only [hal] at hb
  rw [show L - 1 + 1 = L by omega] at hb
  set κ := √(∑ j ∈ Finset.range L, q.coeff j ^ 2) with hκ
  have he : (0 : ℝ) ≤ machineEps := by unfold machineEps; positivity
  have hq1 : √(∑ i : Fin pts.length, (q.eval pts[i] - 1 / (1 + mu * pts[i])) ^ 2) ≤ √sc.E * τ := by
    refine Real.sqrt_le_iff.2 ⟨by positivity, ?_⟩
    rw [mul_pow, Real.sq_sqrt (by positivity)]
    calc ∑ i : Fin pts.length, (q.eval pts[i] - 1 / (1 + mu * pts[i])) ^ 2 ≤ ∑ i : Fin pts.length, τ ^ 2 := by
          refine Finset.sum_le_sum fun i _ => ?_
          have hm : pts[i] ∈ pts := List.getElem_mem _
          have := abs_le.1 (hqr pts[i] (h3 _ hm) ((hmax _ hm).trans (by nlinarith)))
          exact sq_le_sq' (by linarith [this.1]) this.2
      _ = sc.E * τ ^ 2 := by simp [hlen]
  have hq2 : √(∑ i : Fin pts.length, ∑ j ∈ Finset.range L, (pts[i] ^ j) ^ 2) ≤ √(sc.E * L) * Lam ^ (L - 1) := by
    refine Real.sqrt_le_iff.2 ⟨by positivity, ?_⟩
    rw [mul_pow, Real.sq_sqrt (by positivity)]
    calc ∑ i : Fin pts.length, ∑ j ∈ Finset.range L, (pts[i] ^ j) ^ 2
        ≤ ∑ i : Fin pts.length, ∑ j ∈ Finset.range L, (Lam ^ (L - 1)) ^ 2 := by
          refine Finset.sum_le_sum fun i _ => Finset.sum_le_sum fun j hj => ?_
          have hm : pts[i] ∈ pts := List.getElem_mem _
          refine pow_le_pow_left₀ (pow_nonneg (h3 _ hm) j) ?_ 2
          refine (pow_le_pow_left₀ (h3 _ hm) ((hmax _ hm).trans hLam') j).trans ?_
          have := Finset.mem_range.1 hj
          exact pow_le_pow_right₀ hLam (by omega)
      _ = sc.E * L * (Lam ^ (L - 1)) ^ 2 := by
          simp [hlen]
          ring
  set K := machineEps * (max sc.E L : ℕ) * (√(sc.E * L) * Lam ^ (L - 1)) * κ with hK
  have hb' : √(∑ i : Fin pts.length, (p.eval pts[i] - 1 / (1 + mu * pts[i])) ^ 2) ≤ √sc.E * τ + K := by
    refine hb.trans (add_le_add hq1 ?_)
    rw [hK, show max pts.length L = max sc.E L by rw [hlen]]
    gcongr
  have hgrid : ∀ i < sc.E, |(p - q).eval (i * (lam / ((sc.E : ℝ) - 1)))| ≤ (√sc.E + 1) * τ + K := by
    intro i hi
    have hi' : i < pts.length := by omega
    have hx : pts[(⟨i, hi'⟩ : Fin pts.length)] = (i : ℝ) * (lam / ((sc.E : ℝ) - 1)) := by simp [h1]
    have hm : pts[(⟨i, hi'⟩ : Fin pts.length)] ∈ pts := List.getElem_mem _
    have a1 := hqr _ (h3 _ hm) ((hmax _ hm).trans (by nlinarith))
    have a2 : |p.eval pts[(⟨i, hi'⟩ : Fin pts.length)] - 1 / (1 + mu * pts[(⟨i, hi'⟩ : Fin pts.length)])| ≤
        √sc.E * τ + K := by
      refine le_trans (Real.le_sqrt_of_sq_le ?_) hb'
      rw [sq_abs]
      exact Finset.single_le_sum (f := fun i : Fin pts.length => (p.eval pts[i] - 1 / (1 + mu * pts[i])) ^ 2)
        (fun i _ => sq_nonneg _) (Finset.mem_univ (⟨i, hi'⟩ : Fin pts.length))
    rw [hx] at a1 a2
    rw [eval_sub]
    rw [abs_le] at *
    constructor <;> linarith [a1.1, a1.2, a2.1, a2.2]
  have hps := getPMatrix_psd hP
  have hI := lib.isEig hps
  rw [← sub_mulVec]
  refine hI.norm2_le (d := fun i => p.eval ((lib.eigh sc.E P).1 i) - 1 / (1 + mu * (lib.eigh sc.E P).1 i)) ?_
    (fun i => ?_) f
  · rw [sub_mul, hI.aeval_mul, denoiser_eig hps hI hmu hH]
    ext i j
    simp only [Matrix.sub_apply, mul_diagonal]
    ring
  · have hx0 := hI.nonneg hps i
    have hx1 := hspec _ ⟨_, hI.col_ne_zero i, hI.col_eig i⟩
    have b1 := grid_beyond (p := p - q) (d := L - 1) ((natDegree_sub_le _ _).trans (max_le hpd hq)) hlam hE (by omega)
      hgrid hε hx0 hx1
    rw [eval_sub] at b1
    have b2 := hqr _ hx0 hx1
    have b3 := abs_sub_le (p.eval ((lib.eigh sc.E P).1 i)) (q.eval ((lib.eigh sc.E P).1 i))
      (1 / (1 + mu * (lib.eigh sc.E P).1 i))
    linarith

theorem GridFilter.DenoiseRcond.exists {pChoice : String} {P : Matrix (Fin sc.E) (Fin sc.E) ℝ}
    (hP : sc.getPMatrix pChoice = .ok P) {lam mu : ℝ} (hl : lambdaMax P = some lam) (hlam : 0 < lam) (hmu : 0 ≤ mu)
    (hE : 0 < sc.E) (f : Fin sc.E → ℝ) (L : ℕ) : ∃ H fEst, GridFilter.DenoiseRcond sc f pChoice L mu H fEst := by
  set pts := (List.range sc.E).map (fun i : ℕ => (i : ℝ) * (lam / ((sc.E : ℝ) - 1))) with hpts
  obtain ⟨H, fEst, h⟩ := FilterPassRcond.exists P f (fun i : Fin pts.length => pts[i])
    (fun i => (pts.map fun x => 1 / (1 + mu * x))[(i : ℕ)]?.getD 0) L (L - 1)
  refine ⟨H, fEst, P, (pts.map fun x => 1 / (1 + mu * x)).map some, pts, _, hP, ?_, rfl, h⟩
  have hneg : ¬ ((sc.E : Int) < 0) := by omega
  simp only [GridFilter.sampledResponse, GridFilter.sampleGridPoints, hl, GridFilter.linspace0, hneg, if_false, bind,
    Except.bind, pure, Except.pure, Option.map_some, Int.toNat_natCast, ← hpts]
  refine congrArg (fun r => Except.ok (some (r, pts))) ?_
  refine Eq.trans ?_ (List.map_map ..).symm
  refine List.map_congr_left fun x hx => ?_
  obtain ⟨i, hi, rfl⟩ := List.mem_map.1 hx
  have h1 : (1 : ℝ) ≤ sc.E := by exact_mod_cast hE
  have h0 : (0 : ℝ) ≤ (i : ℝ) * (lam / ((sc.E : ℝ) - 1)) :=
    mul_nonneg (Nat.cast_nonneg i) (div_nonneg hlam.le (by linarith))
  have hne : 1 + mu * ((i : ℝ) * (lam / ((sc.E : ℝ) - 1))) ≠ 0 := by positivity
  simp only [Function.comp, GridFilter.frequencyResponseHp, fdiv, hne, if_false]

private def circ : Fin 3 → ℝ := ![1, -1, 1]

private theorem circ_lower : tri.L1l.mulVec circ = 0 := by
  have e : tri.L1l = (triB1.transpose * triB1).map (Int.cast : ℤ → ℝ) := SC.ofInt_L1l ..
  rw [e]
  have := mulVec_int (triB1.transpose * triB1) ![1, -1, 1] 0 (by decide +kernel)
  have h1 : (fun k => ((![1, -1, 1] : Fin 3 → ℤ) k : ℝ)) = circ := by
    funext k; fin_cases k <;> simp [circ]
  rw [h1] at this
  refine this.trans ?_
  funext k; exact Int.cast_zero

/-- On a filled triangle, with the lower Laplacian and the unit flow around the triangle: edge-flow denoising returns the
flow, and the grid-based filter of size 64 less than a thousandth of it. -/
example (lib : NumLib) (st : FilterSt tri.E) (hst : st.Valid) : ∃ f fEst : Fin tri.E → ℝ, ∃ H s, f ≠ 0 ∧
    GridFilter.DenoiseRcond tri f "L1L" 64 (1 / 2) H fEst ∧ norm2 fEst ≤ 1 / 1000 * norm2 f ∧
    edgeFlowDenoise lib tri st f f "L1L" = (.ok (), s) ∧ s.history.get? "f_estimated" = some (.vec f) := by
  obtain ⟨lam, hl, hb⟩ := C152_triangle
  have hlam : 2 ≤ lam := by
    have := (abs_le.1 hb).1
    unfold machineEps at this
    norm_num at this
    linarith
  have hP : tri.getPMatrix "L1L" = .ok tri.L1l := by simp [SC.getPMatrix]
  obtain ⟨H, fEst, h⟩ := GridFilter.DenoiseRcond.exists (sc := tri) hP hl (by linarith) (mu := 1 / 2) (by norm_num) (by decide)
    circ 64
  obtain ⟨h1, s, h2, h3⟩ := C167_counterexample (lib := lib) (sc := tri) (by decide) hP hl hlam (by norm_num) circ_lower le_rfl
    h hst circ
  refine ⟨circ, fEst, H, s, ?_, h, h1, h2, h3⟩
  intro h0
  have h4 : circ 0 = 0 := congrFun h0 (0 : Fin 3)
  simp [circ] at h4

/-- the hypotheses of `C167_moderate_partial` hold for a filter of size 2 on a filled triangle beside a hollow one -/
example (lib : NumLib) (f : Fin twoTri.E → ℝ) : ∃ H fEst s x, GridFilter.DenoiseRcond twoTri f "L1L" 2 (1 / 2) H fEst ∧
    edgeFlowDenoise lib twoTri (initFilter _) f f "L1L" = (.ok (), s) ∧
    s.history.get? "f_estimated" = some (.vec x) ∧ ∃ K, norm2 (fEst - x) ≤ K * norm2 f := by
  obtain ⟨lam, hl, hlam⟩ := twoTri_ones
  have hP : twoTri.getPMatrix "L1L" = .ok twoTri.L1l := by simp [SC.getPMatrix]
  have hv : (initFilter twoTri.E).Valid := by simp [FilterSt.Valid, initFilter]
  obtain ⟨H, fEst, h⟩ := GridFilter.DenoiseRcond.exists (sc := twoTri) hP hl hlam (mu := 1 / 2) (by norm_num) (by decide)
    f 2
  obtain ⟨s, x, h1, h2, h3⟩ := C167_moderate_partial (lib := lib) (sc := twoTri) (by decide) hP hl hlam (mu := 1 / 2)
    (by norm_num) (L := 2) (by norm_num) (by decide) (ε := 3 / lam) (by positivity) (fun x hx => by
      have : (1 + 3 / lam) * lam = lam + 3 := by field_simp
      rw [this]
      rcases twoTri_lower hx with rfl | rfl <;> linarith) h 1 (by simp) (τ := 1) zero_le_one (fun x hx _ => by
      have h4 : 0 < 1 / (1 + 1 / 2 * x) := by positivity
      have h5 : 1 / (1 + 1 / 2 * x) ≤ 1 := by rw [div_le_one (by positivity)]; linarith
      rw [eval_one, abs_le]
      constructor <;> linarith) (Lam := max 1 lam) (le_max_left _ _) (le_max_right _ _) hv f
  exact ⟨H, fEst, s, x, h, h1, h2, _, h3⟩

end Pytspl
