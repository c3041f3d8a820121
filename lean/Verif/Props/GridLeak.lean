import Verif.Props.GridAccuracy
import Mathlib.LinearAlgebra.Lagrange

/-!
# C175: what the grid-based extraction leaves of the other components

A sub-component extraction should remove every flow that the chosen Laplacian maps to zero. The logistic
response it fits is not zero at zero, and a filter with as many coefficients as samples reproduces it exactly.
-/

namespace Pytspl

open Matrix Polynomial

variable {lib : NumLib} {sc : SC ℝ} {E : ℕ}

/-! ## Fits with enough coefficients pass through every sample -/

private theorem sum_map_nonneg_of_zero {α : Type*} (g : α → ℝ) (hg : ∀ x, 0 ≤ g x) (l : List α)
    (h : (l.map g).sum ≤ 0) : ∀ x ∈ l, g x = 0 := by
  induction l with
  | nil => intro x hx; cases hx
  | cons a l ih =>
    have h1 : 0 ≤ (l.map g).sum := List.sum_nonneg fun x hx => by
      obtain ⟨y, -, rfl⟩ := List.mem_map.1 hx
      exact hg y
    rw [List.map_cons, List.sum_cons] at h
    have h2 := hg a
    intro x hx
    rcases List.mem_cons.1 hx with rfl | hx
    · linarith
    · exact ih (by linarith) x hx

/-- a least-squares fit of degree at most `n - 1` (at least) to the values of `r` at `n` distinct points attains
them -/
private theorem fit_exact {pts : List ℝ} (hn : pts.Nodup) {d : ℕ} (hd : pts.length ≤ d + 1) (r : ℝ → ℝ) {p : ℝ[X]}
    (hp : ∀ q : ℝ[X], q.natDegree ≤ d → fitResidual (pts.map fun x => (x, r x)) p ≤
      fitResidual (pts.map fun x => (x, r x)) q) : ∀ x ∈ pts, p.eval x = r x := by
  let q : ℝ[X] := Lagrange.interpolate pts.toFinset id r
  have hq : ∀ x ∈ pts, q.eval x = r x := fun x hx =>
    Lagrange.eval_interpolate_at_node r Function.injective_id.injOn (List.mem_toFinset.2 hx)
  have hqd : q.natDegree ≤ d := by
    have h1 : q.degree < pts.toFinset.card := Lagrange.degree_interpolate_lt r Function.injective_id.injOn
    rw [List.toFinset_card_of_nodup hn] at h1
    by_cases h2 : q = 0
    · rw [h2]; simp
    · rw [degree_eq_natDegree h2] at h1
      have : q.natDegree < pts.length := by exact_mod_cast h1
      omega
  have h0 : fitResidual (pts.map fun x => (x, r x)) q = 0 := by
    rw [fitResidual, List.map_map]
    apply List.sum_eq_zero
    intro y hy
    obtain ⟨x, hx, rfl⟩ := List.mem_map.1 hy
    simp [hq x hx]
  have h1 := hp q hqd
  rw [h0, fitResidual, List.map_map] at h1
  intro x hx
  have := sum_map_nonneg_of_zero _ (fun x => by simp only [Function.comp]; positivity) _ h1 x hx
  have h2 : p.eval x - r x = 0 := by simpa using this
  linarith

/-- C175: a grid-based extraction with at least as many coefficients as samples multiplies a flow whose
frequency is one of the sampled frequencies by exactly the logistic response there. -/
theorem C175_samples {component pChoice : String} {P : Matrix (Fin sc.E) (Fin sc.E) ℝ}
    (hP : sc.getPMatrix pChoice = .ok P) {lam : ℝ} (hl : lambdaMax P = some lam) (hlam : lam ≠ 0) {L num : ℕ}
    (hnum : 2 ≤ num) (hL : num ≤ L) {mu cutOff steep : ℝ} {st st' : FilterSt sc.E} (hst : st.Valid)
    {f : Fin sc.E → ℝ} {j : ℕ} (hj : j < num) (hf : P.mulVec f = (j * (lam / ((num : ℝ) - 1))) • f)
    (h : GridFilter.subcomponentExtraction lib sc st f component pChoice L num mu cutOff steep = (.ok (), st')) :
    st'.history.get? "f_estimated" =
      some (.vec ((1 / (1 + Real.exp (-steep * (j * (lam / ((num : ℝ) - 1)) - cutOff)))) • f)) := by
  obtain ⟨P', t, resp, pts, h0, -, h1, hr⟩ := C51_grid_extraction st st' hst f component pChoice L num mu cutOff steep h
  rw [hP] at h0
  obtain rfl := Except.ok.inj h0
  have hpts : pts = (List.range num).map fun i : ℕ => (i : ℝ) * (lam / ((num : ℝ) - 1)) := by
    have hneg : ¬ ((num : Int) < 0) := by omega
    simp only [GridFilter.sampledResponse, GridFilter.sampleGridPoints, hl, GridFilter.linspace0, hneg, if_false, bind,
      Except.bind, pure, Except.pure, Option.map_some, Int.toNat_natCast, Except.ok.injEq, Option.some.injEq,
      Prod.mk.injEq] at h1
    exact h1.2.symm
  obtain ⟨hL0, p, hp, -, hfe, -⟩ := hr
  rw [Int.toNat_natCast] at hp hfe hL0
  have hc : lam / ((num : ℝ) - 1) ≠ 0 := by
    have : (2 : ℝ) ≤ num := by exact_mod_cast hnum
    exact div_ne_zero hlam (by linarith)
  have hnd : pts.Nodup := by
    rw [hpts]
    refine List.nodup_range.map fun a b hab => ?_
    exact_mod_cast mul_right_cancel₀ hc hab
  have hlen : pts.length ≤ (L - 1) + 1 := by
    rw [hpts, List.length_map, List.length_range]; omega
  have hmem : (j : ℝ) * (lam / ((num : ℝ) - 1)) ∈ pts := by
    rw [hpts]
    exact List.mem_map.2 ⟨j, List.mem_range.2 hj, rfl⟩
  have he := fit_exact hnd hlen (logisticFunction cutOff steep) (hp (L - 1) (by omega)).2 _ hmem
  rw [hfe, aeval_eig _ _ hf, he, logisticFunction]

/-- C175, what holds of it: with at least as many coefficients as samples, a flow that the chosen Laplacian maps to
zero is multiplied by `1 / (1 + exp (steep * cutOff))`: not removed, but left with less than
`exp (-(steep * cutOff))` of its size. -/
theorem C175_leak_partial {component pChoice : String} {P : Matrix (Fin sc.E) (Fin sc.E) ℝ}
    (hP : sc.getPMatrix pChoice = .ok P) {lam : ℝ} (hl : lambdaMax P = some lam) (hlam : lam ≠ 0) {L num : ℕ}
    (hnum : 2 ≤ num) (hL : num ≤ L) {mu cutOff steep : ℝ} {st st' : FilterSt sc.E} (hst : st.Valid)
    {f : Fin sc.E → ℝ} (hf : P.mulVec f = 0)
    (h : GridFilter.subcomponentExtraction lib sc st f component pChoice L num mu cutOff steep = (.ok (), st')) :
    ∃ y, st'.history.get? "f_estimated" = some (.vec y) ∧ y = (1 / (1 + Real.exp (steep * cutOff))) • f ∧
      norm2 y ≤ Real.exp (-(steep * cutOff)) * norm2 f ∧ (f ≠ 0 → y ≠ 0) := by
  have h1 := C175_samples hP hl hlam hnum hL hst (j := 0) (by omega) (by simpa using hf) h
  have e : -steep * (((0 : ℕ) : ℝ) * (lam / ((num : ℝ) - 1)) - cutOff) = steep * cutOff := by push_cast; ring
  rw [e] at h1
  refine ⟨_, h1, rfl, ?_, fun hne h0 => ?_⟩
  · rw [norm2_smul, abs_of_pos (by positivity)]
    refine mul_le_mul_of_nonneg_right ?_ (norm2_nonneg f)
    rw [Real.exp_neg, one_div]
    exact inv_anti₀ (Real.exp_pos _) (by linarith)
  · rcases smul_eq_zero.1 h0 with h2 | h2
    · have : 0 < 1 / (1 + Real.exp (steep * cutOff)) := by positivity
      exact this.ne' h2
    · exact hne h2

/-- C175 for `general_filter(f, L1, L2)` with ten coefficients or more (it always uses ten samples, the cut-off 0.01
and the steepness 100): a flow without divergence comes back as a gradient component of `1 / (1 + e)` of it, a flow
without curl as a curl component of `1 / (1 + e)` of it, and only the rest of a harmonic flow counts as harmonic. -/
theorem C175_general {st st' : FilterSt sc.E} (hst : st.Valid) {f h c g : Fin sc.E → ℝ} {L1 L2 : ℕ}
    (hr : GridFilter.generalFilter lib sc st f L1 L2 = (.ok (h, c, g), st')) :
    (∀ lam, lambdaMax sc.L1l = some lam → lam ≠ 0 → 10 ≤ L1 → sc.B1.mulVec f = 0 →
      g = (1 / (1 + Real.exp 1)) • f) ∧
    (∀ lam, lambdaMax sc.L1u = some lam → lam ≠ 0 → 10 ≤ L2 → sc.B2.transpose.mulVec f = 0 →
      c = (1 / (1 + Real.exp 1)) • f) ∧
    (∀ lam lam', lambdaMax sc.L1l = some lam → lam ≠ 0 → lambdaMax sc.L1u = some lam' → lam' ≠ 0 → 10 ≤ L1 → 10 ≤ L2 →
      sc.B1.mulVec f = 0 → sc.B2.transpose.mulVec f = 0 → h = (1 - 2 / (1 + Real.exp 1)) • f) := by
  obtain ⟨hsum, -, -, hg, hc⟩ := C55_grid st st' hst f h c g L1 L2 hr
  have e : (100 : ℝ) * (1 / 100) = 1 := by norm_num
  have hgrad : ∀ lam, lambdaMax sc.L1l = some lam → lam ≠ 0 → 10 ≤ L1 → sc.B1.mulVec f = 0 →
      g = (1 / (1 + Real.exp 1)) • f := by
    intro lam hl hlam hL hf
    obtain ⟨s', h1, h2⟩ := hg (by omega) st hst
    have hz : sc.L1l.mulVec f = 0 := by
      rw [SC.L1l, ← mulVec_mulVec, hf, mulVec_zero]
    obtain ⟨y, h3, h4, -⟩ := C175_leak_partial (pChoice := "L1L") (P := sc.L1l) (by simp [SC.getPMatrix]) hl hlam
      (num := 10) (by norm_num) hL hst hz h1
    rw [h2] at h3
    simp only [Option.some.injEq, HVal.vec.injEq] at h3
    rw [h3, h4, e]
  have hcurl : ∀ lam, lambdaMax sc.L1u = some lam → lam ≠ 0 → 10 ≤ L2 → sc.B2.transpose.mulVec f = 0 →
      c = (1 / (1 + Real.exp 1)) • f := by
    intro lam hl hlam hL hf
    obtain ⟨s', h1, h2⟩ := hc (by omega) st hst
    have hz : sc.L1u.mulVec f = 0 := by
      rw [SC.L1u, ← mulVec_mulVec, hf, mulVec_zero]
    obtain ⟨y, h3, h4, -⟩ := C175_leak_partial (pChoice := "L1U") (P := sc.L1u) (by simp [SC.getPMatrix]) hl hlam
      (num := 10) (by norm_num) hL hst hz h1
    rw [h2] at h3
    simp only [Option.some.injEq, HVal.vec.injEq] at h3
    rw [h3, h4, e]
  refine ⟨hgrad, hcurl, fun lam lam' hl hlam hl' hlam' hL1 hL2 h1 h2 => ?_⟩
  have a := hgrad lam hl hlam hL1 h1
  have b := hcurl lam' hl' hlam' hL2 h2
  have : h = f - c - g := by rw [← hsum]; abel
  rw [this, a, b]
  funext i
  simp only [Pi.sub_apply, Pi.smul_apply, smul_eq_mul]
  ring

/-! ## The conditions are met -/

/-- the power iteration gives a positive finite estimate when it settles on a direction whose entries are zero or
not tiny -/
private theorem lambdaMax_some {n : ℕ} (P : Matrix (Fin n) (Fin n) ℝ) (d : Fin n → ℝ) (s c : ℝ)
    (hs : 0 < s) (hc : 0 < c) (h1 : P.mulVec (fun _ => 1) = s • d) (h2 : P.mulVec d = c • d) (i₀ : Fin n) (hi₀ : d i₀ ≠ 0)
    (hd : ∀ i, d i = 0 ∨ machineEps ^ 2 * (d ⬝ᵥ d) < d i ^ 2) : ∃ lam, lambdaMax P = some lam ∧ 0 < lam := by
  have hpow : ∀ k : ℕ, (P ^ (k + 1)).mulVec (fun _ => 1) = (s * c ^ k) • d := by
    intro k
    induction k with
    | zero => simpa using h1
    | succ k ih =>
      rw [pow_succ', ← mulVec_mulVec, ih, mulVec_smul, h2, smul_smul]
      congr 1; ring
  set t := s * c ^ 49 with htdef
  have ht : 0 < t := by positivity
  have hx : (P ^ 50).mulVec (fun _ => 1) = t • d := hpow 49
  have hdd : 0 < d ⬝ᵥ d := by
    refine lt_of_le_of_ne (dot_self_nonneg d) fun h0 => hi₀ ?_
    rw [dotProduct_self_eq_zero.1 h0.symm]; rfl
  have hne : (P ^ 50).mulVec (fun _ => 1) ≠ 0 := by
    rw [hx]
    intro h0
    rcases smul_eq_zero.1 h0 with h | h
    · exact ht.ne' h
    · rw [h] at hdd; simp at hdd
  have hp := (C50_power_iteration P 50 (by norm_num)).2 hne
  set k := 1 / Real.sqrt (d ⬝ᵥ d) with hk
  have hq : 0 < Real.sqrt (d ⬝ᵥ d) := Real.sqrt_pos.2 hdd
  have hkp : 0 < k := by positivity
  have hv : (fun i => (P ^ 50).mulVec (fun _ => 1) i /
      Real.sqrt ((P ^ 50).mulVec (fun _ => 1) ⬝ᵥ (P ^ 50).mulVec (fun _ => 1)) + machineEps) =
      k • d + machineEps • fun _ => (1 : ℝ) := by
    funext i
    rw [hx, smul_dotProduct, dotProduct_smul, smul_eq_mul, smul_eq_mul, ← mul_assoc, ← sq,
      Real.sqrt_mul (sq_nonneg t), Real.sqrt_sq ht.le, Pi.smul_apply, smul_eq_mul,
      mul_div_mul_left _ _ ht.ne']
    simp only [Pi.smul_apply, Pi.add_apply, smul_eq_mul, mul_one, hk]
    ring
  rw [hv] at hp
  have he := machineEps_pos
  have hkd : ∀ i, d i ≠ 0 → machineEps ^ 2 < (k * d i) ^ 2 := by
    intro i hi
    have h3 := (hd i).resolve_left hi
    rw [mul_pow, hk, div_pow, one_pow, Real.sq_sqrt hdd.le, div_mul_eq_mul_div, one_mul, lt_div_iff₀ hdd]
    exact h3
  have hterm : ∀ i, k * d i + machineEps ≠ 0 ∧
      0 ≤ (P.mulVec (k • d + machineEps • fun _ => (1 : ℝ))) i / (k * d i + machineEps) ∧
      (d i ≠ 0 → 0 < (P.mulVec (k • d + machineEps • fun _ => (1 : ℝ))) i / (k * d i + machineEps)) := by
    intro i
    have hPv : (P.mulVec (k • d + machineEps • fun _ => (1 : ℝ))) i = (k * c + machineEps * s) * d i := by
      rw [mulVec_add, mulVec_smul, mulVec_smul, h1, h2]
      simp only [Pi.smul_apply, Pi.add_apply, smul_eq_mul]
      ring
    rw [hPv]
    have hcoef : 0 < k * c + machineEps * s := by positivity
    rcases lt_trichotomy (d i) 0 with h3 | h3 | h3
    · have h4 := hkd i h3.ne
      have h5 : k * d i < 0 := mul_neg_of_pos_of_neg hkp h3
      have h6 : k * d i + machineEps < 0 := by nlinarith
      have h7 : 0 < (k * c + machineEps * s) * d i / (k * d i + machineEps) :=
        div_pos_of_neg_of_neg (mul_neg_of_pos_of_neg hcoef h3) h6
      exact ⟨h6.ne, h7.le, fun _ => h7⟩
    · rw [h3]
      simp [he.ne']
    · have h7 : 0 < (k * c + machineEps * s) * d i / (k * d i + machineEps) := by positivity
      exact ⟨by positivity, h7.le, fun _ => h7⟩
  rw [lambdaMax, hp]
  simp only [Option.bind_eq_bind, Option.bind_some]
  have hn : 0 < n := i₀.pos
  rw [if_neg]
  · refine ⟨_, rfl, div_pos ?_ (by exact_mod_cast hn)⟩
    refine Finset.sum_pos' (fun i _ => ?_) ⟨i₀, Finset.mem_univ _, ?_⟩
    · simpa using (hterm i).2.1
    · simpa using (hterm i₀).2.2 hi₀
  · rintro (⟨i, hi⟩ | h0)
    · exact (hterm i).1 (by simpa using hi)
    · omega

theorem twoTri_ones_upper : ∃ lam, lambdaMax twoTri.L1u = some lam ∧ 0 < lam := by
  have e : twoTri.L1u = (twoTriB2 * twoTriB2.transpose).map (Int.cast : ℤ → ℝ) := SC.ofInt_L1u ..
  have h1 : ((twoTriB2 * twoTriB2.transpose).map (Int.cast : ℤ → ℝ)).mulVec (fun _ => 1) =
      (1 : ℝ) • fun k => ((![1, -1, 1, 0, 0, 0] : Fin 6 → ℤ) k : ℝ) := by
    have := mulVec_int (twoTriB2 * twoTriB2.transpose) (fun _ => 1) ![1, -1, 1, 0, 0, 0] (by decide +kernel)
    have h1 : (fun _ : Fin 6 => ((1 : ℤ) : ℝ)) = fun _ => 1 := by funext; simp
    rw [h1] at this
    rw [this, one_smul]
  have h2 : ((twoTriB2 * twoTriB2.transpose).map (Int.cast : ℤ → ℝ)).mulVec
      (fun k => ((![1, -1, 1, 0, 0, 0] : Fin 6 → ℤ) k : ℝ)) =
      (3 : ℝ) • fun k => ((![1, -1, 1, 0, 0, 0] : Fin 6 → ℤ) k : ℝ) := by
    have := mulVec_int (twoTriB2 * twoTriB2.transpose) ![1, -1, 1, 0, 0, 0] (3 • ![1, -1, 1, 0, 0, 0]) (by decide +kernel)
    rw [this]
    funext k; fin_cases k <;> norm_num
  obtain ⟨lam, hlam⟩ := lambdaMax_some (n := 6) _ _ 1 3 (by norm_num) (by norm_num) h1 h2 0 (by norm_num) (fun i => by
    have : machineEps ^ 2 * 3 < 1 := by unfold machineEps; norm_num
    fin_cases i <;> simp [dotProduct, Fin.sum_univ_succ] <;> linarith)
  exact ⟨lam, by rw [e]; exact hlam.1, hlam.2⟩

private theorem branch_ok (hist : ℕ) (key : String) (size : Int) (hs : 0 < size)
    {r : Py (Applied E)} {a : Applied E} (hr : r = .ok a) (st : FilterSt E) (hst : st.Valid) :
    generalBranch hist key size (fun st => recordDesign st r) st =
      (.ok a.fEst, (setHistory st a.design).setKey hist key (.ref st.cur)) := by
  have hr' : readEstimate (setHistory st a.design) = .ok a.fEst := by
    obtain ⟨-, g2, -⟩ := setHistory_get st hst a.design
    rw [readEstimate, FilterSt.history, setHistory_cur, g2]; rfl
  rw [generalBranch, if_pos hs]
  simp only [hr, recordDesign, hr', setHistory_cur]

/-- C175 is false: on a filled triangle beside a hollow one, with any ten coefficients or more, a harmonic flow comes
back with non-zero gradient and curl components, and as a harmonic component less than half of it. -/
theorem C175_counterexample (lib : NumLib) (L1 L2 : ℕ) (h1 : 10 ≤ L1) (h2 : 10 ≤ L2) :
    ∃ (f h c g : Fin twoTri.E → ℝ) (st' : FilterSt twoTri.E), f ≠ 0 ∧ twoTri.B1.mulVec f = 0 ∧
      twoTri.B2.transpose.mulVec f = 0 ∧
      twoTri.getComponentFlow lib f "gradient" false = .ok 0 ∧ twoTri.getComponentFlow lib f "curl" false = .ok 0 ∧
      GridFilter.generalFilter lib twoTri (initFilter _) f L1 L2 = (.ok (h, c, g), st') ∧
      g = (1 / (1 + Real.exp 1)) • f ∧ c = (1 / (1 + Real.exp 1)) • f ∧ g ≠ 0 ∧ c ≠ 0 ∧
      norm2 h < norm2 f / 2 := by
  let f : Fin twoTri.E → ℝ := fun k : Fin 6 => ((![0, 0, 0, 1, -1, 1] : Fin 6 → ℤ) k : ℝ)
  have hf0 : f ≠ 0 := fun h0 => by
    have := congrFun (show (fun k : Fin 6 => ((![0, 0, 0, 1, -1, 1] : Fin 6 → ℤ) k : ℝ)) = 0 from h0) 3
    have h1 : ((1 : ℤ) : ℝ) = 0 := this
    norm_num at h1
  have hB1 : twoTri.B1.mulVec f = 0 := by
    have := mulVec_int twoTriB1 ![0, 0, 0, 1, -1, 1] 0 (by decide +kernel)
    refine Eq.trans ?_ (this.trans ?_)
    · rfl
    · funext k; exact Int.cast_zero
  have hB2 : twoTri.B2.transpose.mulVec f = 0 := by
    have := mulVec_int twoTriB2.transpose ![0, 0, 0, 1, -1, 1] 0 (by decide +kernel)
    refine Eq.trans ?_ (this.trans ?_)
    · rfl
    · funext k; exact Int.cast_zero
  obtain ⟨lam, hl, hlam⟩ := twoTri_ones
  obtain ⟨lam', hl', hlam'⟩ := twoTri_ones_upper
  obtain ⟨g', c', h', hp⟩ := HodgeParts.exists lib twoTri f
  obtain ⟨a, ha⟩ := extraction_total lib twoTri (by decide) f "gradient" "L1L" hp.grad
    (by simp [SC.getPMatrix]) hl L1 (by omega)
  obtain ⟨b, hb⟩ := extraction_total lib twoTri (by decide) f "curl" "L1U" hp.curl
    (by simp [SC.getPMatrix]) hl' L2 (by omega)
  have hv : (initFilter twoTri.E).Valid := by simp [FilterSt.Valid, initFilter]
  have hr : ∃ r st', GridFilter.generalFilter lib twoTri (initFilter _) f L1 L2 = (.ok r, st') := by
    unfold GridFilter.generalFilter generalFilter GridFilter.subcomponentExtraction
    simp only [FilterSt.alloc]
    rw [branch_ok _ _ _ (by omega) ha _ (by simp [FilterSt.Valid, initFilter])]
    simp only
    rw [branch_ok _ _ _ (by omega) hb _ (by simp [FilterSt.Valid, initFilter])]
    exact ⟨_, _, rfl⟩
  obtain ⟨⟨h, c, g⟩, st', hr⟩ := hr
  obtain ⟨k1, k2, k3⟩ := C175_general hv hr
  have eg := k1 lam hl hlam.ne' h1 hB1
  have ec := k2 lam' hl' hlam'.ne' h2 hB2
  have eh := k3 lam lam' hl hlam.ne' hl' hlam'.ne' h1 h2 hB1 hB2
  have hpos : 0 < 1 / (1 + Real.exp 1) := by positivity
  have hnz : (1 / (1 + Real.exp 1)) • f ≠ 0 := smul_ne_zero hpos.ne' hf0
  have he1 : 2 < Real.exp 1 := by linarith [Real.exp_one_gt_d9]
  have he2 : Real.exp 1 < 3 := by linarith [Real.exp_one_lt_d9]
  have hg0 : g' = 0 := hp.proj.1.unique (.zero (by rw [transpose_transpose]; exact hB1))
  have hc0 : c' = 0 := hp.proj.2.1.unique (.zero hB2)
  refine ⟨f, h, c, g, st', hf0, hB1, hB2, ?_, ?_, hr, eg, ec, by rw [eg]; exact hnz, by rw [ec]; exact hnz, ?_⟩
  · rw [← hg0]; exact hp.grad
  · rw [← hc0]; exact hp.curl
  · rw [eh, norm2_smul]
    have hn : 0 < norm2 f := lt_of_le_of_ne (norm2_nonneg f) fun h0 => hf0 (norm2_eq_zero.1 h0.symm)
    have hab : |1 - 2 / (1 + Real.exp 1)| < 1 / 2 := by
      have h3 : 1 / 2 < 2 / (1 + Real.exp 1) := by rw [lt_div_iff₀ (by positivity)]; linarith
      have h4 : 2 / (1 + Real.exp 1) ≤ 1 := by rw [div_le_iff₀ (by positivity)]; linarith
      rw [abs_of_nonneg (by linarith)]; linarith
    nlinarith

end Pytspl
