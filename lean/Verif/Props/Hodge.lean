import Verif.Model.HodgeDecomposition
import Verif.Lemmas.LeastSquares
import Verif.Lemmas.NumLibExists
import Verif.Spec.Samples
import Mathlib.Tactic.LinearCombination
import Mathlib.Tactic.FinCases
import Mathlib.Tactic.NormNum

/-!
# Properties C18 - C25: the Hodge decomposition
-/

namespace Pytspl

open Matrix

variable {lib : NumLib} {sc : SC ℝ}

/-- `g`, `c`, `h` are what `get_component_flow(f, component, round_fig=False)` returns for the three
components. -/
structure HodgeParts (lib : NumLib) (sc : SC ℝ) (f g c h : Fin sc.E → ℝ) : Prop where
  grad : sc.getComponentFlow lib f "gradient" false = .ok g
  curl : sc.getComponentFlow lib f "curl" false = .ok c
  harm : sc.getComponentFlow lib f "harmonic" false = .ok h

/-- the three calls always succeed -/
theorem HodgeParts.exists (lib : NumLib) (sc : SC ℝ) (f : Fin sc.E → ℝ) :
    ∃ g c h, HodgeParts lib sc f g c h := by
  refine ⟨getGradientFlow lib sc.B1 f false 2, getCurlFlow lib sc.B2 f false 2,
    getHarmonicFlow lib sc.B1 sc.B2 f false 2, ?_, ?_, ?_⟩
  · simp [SC.getComponentFlow]
  · simp [SC.getComponentFlow]
  · simp [SC.getComponentFlow]

/-- what the calls return, as projections -/
theorem HodgeParts.proj {f g c h : Fin sc.E → ℝ} (hp : HodgeParts lib sc f g c h) :
    IsProj sc.B1.transpose f g ∧ IsProj sc.B2 f c ∧ h = f - g - c := by
  obtain ⟨h1, h2, h3⟩ := hp
  have h1' := Except.ok.inj h1
  have h2' := Except.ok.inj h2
  have h3' := Except.ok.inj h3
  simp only [getGradientFlow, getCurlFlow, getHarmonicFlow, Bool.false_eq_true, if_false] at h1' h2' h3'
  rw [h1', h2'] at h3'
  refine ⟨?_, ?_, h3'.symm⟩
  · rw [← h1']; exact lib.isProj _ _
  · rw [← h2']; exact lib.isProj _ _

/-- conversely, projections are what the calls return -/
theorem HodgeParts.of_proj (lib : NumLib) {f g c : Fin sc.E → ℝ} (h1 : IsProj sc.B1.transpose f g)
    (h2 : IsProj sc.B2 f c) : HodgeParts lib sc f g c (f - g - c) := by
  obtain ⟨g', c', h', hp⟩ := HodgeParts.exists lib sc f
  obtain ⟨p1, p2, p3⟩ := hp.proj
  have := h1.unique p1
  have := h2.unique p2
  subst_vars
  exact hp

/-- C18: the three components add up to the flow. -/
theorem C18_components_sum (f g c h : Fin sc.E → ℝ) (hp : HodgeParts lib sc f g c h) :
    g + c + h = f := by
  obtain ⟨-, -, rfl⟩ := hp.proj
  abel

private theorem b2t_b1t (hw : sc.WellFormed) (x : Fin sc.N → ℝ) :
    sc.B2.transpose.mulVec (sc.B1.transpose.mulVec x) = 0 := by
  rw [mulVec_mulVec, ← transpose_mul, hw.b1_mul_b2, transpose_zero, zero_mulVec]

private theorem b1_b2 (hw : sc.WellFormed) (y : Fin sc.T → ℝ) :
    sc.B1.mulVec (sc.B2.mulVec y) = 0 := by
  rw [mulVec_mulVec, hw.b1_mul_b2, zero_mulVec]

/-- C20: differential behaviour of the three components. -/
theorem C20_component_behaviour (hw : sc.WellFormed) (f g c h : Fin sc.E → ℝ)
    (hp : HodgeParts lib sc f g c h) :
    (sc.getCurl g = 0 ∧ sc.getDivergence g = sc.getDivergence f) ∧
    (sc.getDivergence c = 0 ∧ sc.getCurl c = sc.getCurl f) ∧
    (sc.getDivergence h = 0 ∧ sc.getCurl h = 0 ∧ sc.L1.mulVec h = 0) := by
  obtain ⟨⟨⟨p, rfl⟩, h1⟩, ⟨⟨w, rfl⟩, h2⟩, rfl⟩ := hp.proj
  rw [transpose_transpose] at h1
  have e1 : sc.getCurl (sc.B1.transpose.mulVec p) = 0 := b2t_b1t hw p
  have e2 : sc.getDivergence (sc.B2.mulVec w) = 0 := b1_b2 hw w
  have e3 : sc.getDivergence (f - sc.B1.transpose.mulVec p - sc.B2.mulVec w) = 0 := by
    unfold SC.getDivergence at *
    rw [mulVec_sub, mulVec_sub, h1, e2]; simp
  have e4 : sc.getCurl (f - sc.B1.transpose.mulVec p - sc.B2.mulVec w) = 0 := by
    unfold SC.getCurl at *
    rw [mulVec_sub, mulVec_sub, h2, e1]; simp
  refine ⟨⟨e1, h1⟩, ⟨e2, h2⟩, e3, e4, ?_⟩
  unfold SC.getDivergence at e3
  unfold SC.getCurl at e4
  rw [SC.L1, SC.L1l, SC.L1u, add_mulVec, ← mulVec_mulVec, ← mulVec_mulVec, e3, e4]
  simp

/-- C19: the components are orthogonal and the energies add up. -/
theorem C19_orthogonal (hw : sc.WellFormed) (f g c h : Fin sc.E → ℝ)
    (hp : HodgeParts lib sc f g c h) :
    g ⬝ᵥ c = 0 ∧ g ⬝ᵥ h = 0 ∧ c ⬝ᵥ h = 0 ∧ f ⬝ᵥ f = g ⬝ᵥ g + c ⬝ᵥ c + h ⬝ᵥ h := by
  have hs := C18_components_sum f g c h hp
  obtain ⟨⟨c1, -⟩, ⟨-, -⟩, d3, c3, -⟩ := C20_component_behaviour hw f g c h hp
  obtain ⟨⟨⟨p, hpg⟩, -⟩, ⟨⟨w, hwc⟩, -⟩, -⟩ := hp.proj
  have e1 : g ⬝ᵥ c = 0 := by
    rw [← hwc, dot_mulVec_transpose]
    unfold SC.getCurl at c1
    rw [c1, zero_dotProduct]
  have e2 : g ⬝ᵥ h = 0 := by
    rw [← hpg, dotProduct_comm, dot_mulVec_transpose, transpose_transpose]
    unfold SC.getDivergence at d3
    rw [d3, zero_dotProduct]
  have e3 : c ⬝ᵥ h = 0 := by
    rw [← hwc, dotProduct_comm, dot_mulVec_transpose]
    unfold SC.getCurl at c3
    rw [c3, zero_dotProduct]
  refine ⟨e1, e2, e3, ?_⟩
  rw [← hs, dot_add_sq, dot_add_sq, e1, add_dotProduct, e2, e3]
  ring

/-- C21: the gradient component is the closest potential difference flow, strictly closer than any
other, and likewise for the curl component. -/
theorem C21_best_approximation (f g c h : Fin sc.E → ℝ) (hp : HodgeParts lib sc f g c h) :
    (∃ p, sc.B1.transpose.mulVec p = g) ∧ (∃ w, sc.B2.mulVec w = c) ∧
    (∀ p, sc.B1.transpose.mulVec p ≠ g →
      (f - g) ⬝ᵥ (f - g) < (f - sc.B1.transpose.mulVec p) ⬝ᵥ (f - sc.B1.transpose.mulVec p)) ∧
    (∀ w, sc.B2.mulVec w ≠ c →
      (f - c) ⬝ᵥ (f - c) < (f - sc.B2.mulVec w) ⬝ᵥ (f - sc.B2.mulVec w)) := by
  obtain ⟨hg, hc, -⟩ := hp.proj
  have pos : ∀ {k : ℕ} (v : Fin k → ℝ), v ≠ 0 → 0 < v ⬝ᵥ v := by
    intro k v hv
    exact lt_of_le_of_ne (dot_self_nonneg v) fun h => hv (dotProduct_self_eq_zero.mp h.symm)
  refine ⟨hg.1, hc.1, ?_, ?_⟩
  · intro p hne
    rw [hg.closest p]
    have := pos (g - sc.B1.transpose.mulVec p) (sub_ne_zero.mpr (Ne.symm hne))
    linarith
  · intro w hne
    rw [hc.closest w]
    have := pos (c - sc.B2.mulVec w) (sub_ne_zero.mpr (Ne.symm hne))
    linarith

/-- C21: the answer does not depend on the solver. -/
theorem C21_solver_independent (lib lib' : NumLib) (f : Fin sc.E → ℝ) (component : String)
    (roundFig : Bool) (sig : ℤ) :
    sc.getComponentFlow lib f component roundFig sig =
      sc.getComponentFlow lib' f component roundFig sig := by
  have h1 : sc.B1.transpose.mulVec (lib.lstsq _ _ sc.B1.transpose f) =
      sc.B1.transpose.mulVec (lib'.lstsq _ _ sc.B1.transpose f) :=
    (lib.isProj sc.B1.transpose f).unique (lib'.isProj sc.B1.transpose f)
  have h2 : sc.B2.mulVec (lib.lstsq _ _ sc.B2 f) = sc.B2.mulVec (lib'.lstsq _ _ sc.B2 f) :=
    (lib.isProj sc.B2 f).unique (lib'.isProj sc.B2 f)
  unfold SC.getComponentFlow getHarmonicFlow getCurlFlow getGradientFlow
  simp only [h1, h2]

/-- C22: extraction is linear (for all complexes). -/
theorem C22_linear (f f' g g' c c' h h' : Fin sc.E → ℝ) (a b : ℝ)
    (hp : HodgeParts lib sc f g c h) (hp' : HodgeParts lib sc f' g' c' h') :
    HodgeParts lib sc (a • f + b • f') (a • g + b • g') (a • c + b • c') (a • h + b • h') := by
  obtain ⟨p1, p2, p3⟩ := hp.proj
  obtain ⟨q1, q2, q3⟩ := hp'.proj
  have := HodgeParts.of_proj lib (p1.add q1 a b) (p2.add q2 a b)
  have e : a • h + b • h' = a • f + b • f' - (a • g + b • g') - (a • c + b • c') := by
    rw [p3, q3]
    simp only [smul_sub]
    abel
  rw [e]
  exact this

/-- C22: extracting a gradient (curl) component twice changes nothing (for all complexes). -/
theorem C22_idempotent (f g c h : Fin sc.E → ℝ) (hp : HodgeParts lib sc f g c h) :
    sc.getComponentFlow lib g "gradient" false = .ok g ∧
    sc.getComponentFlow lib c "curl" false = .ok c := by
  obtain ⟨p1, p2, -⟩ := hp.proj
  constructor
  · obtain ⟨g1, c1, h1, hg⟩ := HodgeParts.exists lib sc g
    have := hg.proj.1.unique (IsProj.self p1.1)
    rw [← this]
    nth_rewrite 1 [this]
    exact hg.grad
  · obtain ⟨g1, c1, h1, hg⟩ := HodgeParts.exists lib sc c
    have := hg.proj.2.1.unique (IsProj.self p2.1)
    rw [← this]
    nth_rewrite 1 [this]
    exact hg.curl

/-- C22: on a consistently oriented complex the components of a component are itself and zeros. -/
theorem C22_cross (hw : sc.WellFormed) (f g c h : Fin sc.E → ℝ) (hp : HodgeParts lib sc f g c h) :
    HodgeParts lib sc g g 0 0 ∧ HodgeParts lib sc c 0 c 0 ∧ HodgeParts lib sc h 0 0 h := by
  obtain ⟨⟨c1, -⟩, ⟨d2, -⟩, d3, c3, -⟩ := C20_component_behaviour hw f g c h hp
  obtain ⟨p1, p2, -⟩ := hp.proj
  refine ⟨?_, ?_, ?_⟩
  · have := HodgeParts.of_proj lib (IsProj.self p1.1) (IsProj.zero (A := sc.B2) c1)
    simpa using this
  · have := HodgeParts.of_proj lib (IsProj.zero (A := sc.B1.transpose)
      (by rw [transpose_transpose]; exact d2)) (IsProj.self p2.1)
    simpa using this
  · have := HodgeParts.of_proj lib (IsProj.zero (A := sc.B1.transpose)
      (by rw [transpose_transpose]; exact d3)) (IsProj.zero (A := sc.B2) c3)
    simpa using this

/-- C23: the decomposition is unique. -/
theorem C23_unique (hw : sc.WellFormed) (f g c h : Fin sc.E → ℝ) (hf : f = g + c + h)
    (hg : ∃ p, g = sc.B1.transpose.mulVec p) (hc : ∃ w, c = sc.B2.mulVec w)
    (hd : sc.getDivergence h = 0) (hcu : sc.getCurl h = 0) : HodgeParts lib sc f g c h := by
  obtain ⟨p, rfl⟩ := hg
  obtain ⟨w, rfl⟩ := hc
  have h1 : IsProj sc.B1.transpose f (sc.B1.transpose.mulVec p) := by
    refine ⟨⟨p, rfl⟩, ?_⟩
    unfold SC.getDivergence at hd
    rw [transpose_transpose, hf, mulVec_add, mulVec_add, b1_b2 hw, hd]
    simp
  have h2 : IsProj sc.B2 f (sc.B2.mulVec w) := by
    refine ⟨⟨w, rfl⟩, ?_⟩
    unfold SC.getCurl at hcu
    rw [hf, mulVec_add, mulVec_add, b2t_b1t hw, hcu]
    simp
  have := HodgeParts.of_proj lib h1 h2
  have e : f - sc.B1.transpose.mulVec p - sc.B2.mulVec w = h := by rw [hf]; abel
  rw [e] at this
  exact this

/-- the hypotheses of C19-C23 are met: a complex with a triangle and a hole, any flow, any solver -/
example : ∃ (lib : NumLib) (sc : SC ℝ) (f g c h : Fin sc.E → ℝ),
    sc.WellFormed ∧ sc.triangles ≠ [] ∧ f ≠ 0 ∧ HodgeParts lib sc f g c h := by
  obtain ⟨lib⟩ := NumLib.exists
  obtain ⟨sc, hw, -, -, h2, h3⟩ := sample_wellFormed ℝ
  obtain ⟨g, c, h, hp⟩ := HodgeParts.exists lib sc (fun _ => 1)
  refine ⟨lib, sc, _, g, c, h, hw, by rw [h3]; decide, ?_, hp⟩
  intro hz
  have := congrFun hz ⟨0, by rw [SC.E, h2]; decide⟩
  simp at this

/-! ## C24 -/

theorem rint_close (x : ℝ) : |(rint x : ℝ) - x| ≤ 1 / 2 := by
  have h0 := Int.fract_nonneg x
  have h1 := Int.fract_lt_one x
  have h2 := Int.floor_add_fract x
  unfold rint
  rw [abs_le]
  split
  · constructor <;> linarith
  · split
    · push_cast; constructor <;> linarith
    · split
      · constructor <;> linarith
      · push_cast; constructor <;> linarith

theorem rint_int (z : ℤ) : rint (z : ℝ) = z := by
  unfold rint
  simp

/-- halves go to the even neighbour -/
theorem rint_half (z : ℤ) : Even (rint ((z : ℝ) + 1 / 2)) := by
  have hfl : ⌊(z : ℝ) + 1 / 2⌋ = z := by
    rw [Int.floor_eq_iff]
    constructor <;> linarith
  have hfr : Int.fract ((z : ℝ) + 1 / 2) = 1 / 2 := by
    rw [Int.fract, hfl]; ring
  unfold rint
  rw [hfr, hfl]
  simp only [lt_irrefl, if_false]
  split
  · assumption
  · rename_i h
    rw [Int.not_even_iff_odd] at h
    exact h.add_one

/-- C24: one entry: the rounded value is a multiple of `10^-d` within half a unit, and rounding
again changes nothing. -/
theorem C24_round_entry (x : ℝ) (d : ℤ) :
    (∃ z : ℤ, npRound x d = z / (10 : ℝ) ^ d) ∧ |npRound x d - x| ≤ 1 / 2 / (10 : ℝ) ^ d ∧
    npRound (npRound x d) d = npRound x d := by
  have hpos : (0 : ℝ) < (10 : ℝ) ^ d := by positivity
  refine ⟨⟨_, rfl⟩, ?_, ?_⟩
  · unfold npRound
    have h := rint_close (x * (10 : ℝ) ^ d)
    have e : (rint (x * (10 : ℝ) ^ d) : ℝ) / (10 : ℝ) ^ d - x =
        ((rint (x * (10 : ℝ) ^ d) : ℝ) - x * (10 : ℝ) ^ d) / (10 : ℝ) ^ d := by
      field_simp
    rw [e, abs_div, abs_of_pos hpos]
    exact div_le_div_of_nonneg_right h hpos.le
  · unfold npRound
    rw [div_mul_cancel₀ _ hpos.ne', rint_int]

/-- C24: with rounding on, each component returned is the entrywise rounding of the unrounded one,
and the three add up to the flow within `1.5 * 10^-d` on every edge. -/
theorem C24_rounded_components (f g c h rg rc rh : Fin sc.E → ℝ) (d : ℤ)
    (hp : HodgeParts lib sc f g c h)
    (hg : sc.getComponentFlow lib f "gradient" true d = .ok rg)
    (hc : sc.getComponentFlow lib f "curl" true d = .ok rc)
    (hh : sc.getComponentFlow lib f "harmonic" true d = .ok rh) (i : Fin sc.E) :
    (∀ r u, (r = rg ∧ u = g) ∨ (r = rc ∧ u = c) ∨ (r = rh ∧ u = h) →
      (∃ z : ℤ, r i = z / (10 : ℝ) ^ d) ∧ |r i - u i| ≤ 1 / 2 / (10 : ℝ) ^ d) ∧
    |rg i + rc i + rh i - f i| ≤ 3 / 2 / (10 : ℝ) ^ d := by
  have eg : rg i = npRound (g i) d := by
    have h1 := Except.ok.inj hg
    have h2 := Except.ok.inj hp.grad
    simp only [getGradientFlow, if_true, Bool.false_eq_true, if_false] at h1 h2
    rw [← h1, ← h2]
  have ec : rc i = npRound (c i) d := by
    have h1 := Except.ok.inj hc
    have h2 := Except.ok.inj hp.curl
    simp only [getCurlFlow, if_true, Bool.false_eq_true, if_false] at h1 h2
    rw [← h1, ← h2]
  have eh : rh i = npRound (h i) d := by
    have h1 := Except.ok.inj hh
    have h2 := Except.ok.inj hp.harm
    simp only [getHarmonicFlow, if_true, Bool.false_eq_true, if_false] at h1 h2
    rw [← h1, ← h2]
  have kg := C24_round_entry (g i) d
  have kc := C24_round_entry (c i) d
  have kh := C24_round_entry (h i) d
  constructor
  · rintro r u (⟨rfl, rfl⟩ | ⟨rfl, rfl⟩ | ⟨rfl, rfl⟩)
    · rw [eg]; exact ⟨kg.1, kg.2.1⟩
    · rw [ec]; exact ⟨kc.1, kc.2.1⟩
    · rw [eh]; exact ⟨kh.1, kh.2.1⟩
  · have hs := congrFun (C18_components_sum f g c h hp) i
    simp only [Pi.add_apply] at hs
    rw [eg, ec, eh]
    have k1 := abs_le.mp kg.2.1
    have k2 := abs_le.mp kc.2.1
    have k3 := abs_le.mp kh.2.1
    have e : (3 : ℝ) / 2 / (10 : ℝ) ^ d = 1 / 2 / (10 : ℝ) ^ d + 1 / 2 / (10 : ℝ) ^ d
        + 1 / 2 / (10 : ℝ) ^ d := by ring
    rw [e, abs_le]
    constructor <;> linarith

private theorem squareB1_grad (B : Matrix (Fin 4) (Fin 4) ℝ)
    (h : B = !![-1, 0, 0, 1; 1, -1, 0, 0; 0, 1, -1, 0; 0, 0, 1, -1]) :
    B.transpose.mulVec ![0, 1/2, 1, 1/2] = ![1/2, 1/2, -1/2, -1/2] := by
  subst h
  ext i
  fin_cases i <;> simp [Matrix.mulVec, dotProduct, Fin.sum_univ_succ] <;> norm_num

private theorem squareB1_div (B : Matrix (Fin 4) (Fin 4) ℝ)
    (h : B = !![-1, 0, 0, 1; 1, -1, 0, 0; 0, 1, -1, 0; 0, 0, 1, -1]) :
    B.mulVec ![1/2, 1/2, 1/2, 1/2] = 0 := by
  subst h
  ext i
  fin_cases i <;> simp [Matrix.mulVec, dotProduct, Fin.sum_univ_succ]

/-- C24: the rounded components need not add up to the flow, even for a flow of integers and
rounding to integers. -/
theorem C24_equality_can_fail (lib : NumLib) : ∃ (sc : SC ℝ) (f rg rc rh : Fin sc.E → ℝ),
    sc.WellFormed ∧ (∀ i, ∃ z : ℤ, f i = z) ∧
    sc.getComponentFlow lib f "gradient" true 0 = .ok rg ∧
    sc.getComponentFlow lib f "curl" true 0 = .ok rc ∧
    sc.getComponentFlow lib f "harmonic" true 0 = .ok rh ∧ rg + rc + rh ≠ f := by
  obtain ⟨sc, hw, h1, h2, h3⟩ := square_wellFormed ℝ
  obtain ⟨nodes, edges, triangles, nf, ef, B1, B2⟩ := sc
  simp only at h1 h2 h3
  subst h1 h2 h3
  set sc : SC ℝ := ⟨_, _, _, nf, ef, B1, B2⟩ with hsc
  have hb := fun i j => hw.built.b1_entry hw.inRange hw.noLoops i j
  have hB : ∀ (i : Fin 4) (j : Fin 4), B1 i j = !![-1, 0, 0, 1; 1, -1, 0, 0; 0, 1, -1, 0; 0, 0, 1, -1] i j := by
    intro i j
    refine (hb i j).trans ?_
    fin_cases i <;> fin_cases j <;> simp [hsc]
  have hB' : B1 = !![-1, 0, 0, 1; 1, -1, 0, 0; 0, 1, -1, 0; 0, 0, 1, -1] := Matrix.ext hB
  have hp : HodgeParts lib sc (![1, 1, 0, 0] : Fin 4 → ℝ) (![1/2, 1/2, -1/2, -1/2] : Fin 4 → ℝ) 0
      (![1/2, 1/2, 1/2, 1/2] : Fin 4 → ℝ) := by
    refine C23_unique hw _ _ _ _ ?_ ⟨(![0, 1/2, 1, 1/2] : Fin 4 → ℝ), ?_⟩ ⟨0, by simp⟩ ?_ ?_
    · ext i
      fin_cases i <;> norm_num
    · exact (squareB1_grad B1 hB').symm
    · exact squareB1_div B1 hB'
    · ext i
      exact i.elim0
  have hr : rint (1/2 : ℝ) = 0 := by
    unfold rint
    have : Int.fract (1/2 : ℝ) = 1/2 := by rw [Int.fract_eq_self]; norm_num
    have h2 : ⌊(1/2 : ℝ)⌋ = 0 := by rw [Int.floor_eq_iff]; norm_num
    rw [this, h2]; simp
  have hr0 : rint (0 : ℝ) = 0 := by
    have := rint_int 0
    simpa using this
  refine ⟨sc, (![1, 1, 0, 0] : Fin 4 → ℝ), _, _, _, hw, ?_, rfl, rfl, rfl, ?_⟩
  · intro i
    fin_cases i
    · exact ⟨1, by simp⟩
    · exact ⟨1, by simp⟩
    · exact ⟨0, by simp⟩
    · exact ⟨0, by simp⟩
  · intro h
    have hi := congrFun h (0 : Fin 4)
    have e1 := Except.ok.inj hp.grad
    have e2 := Except.ok.inj hp.curl
    have e3 := Except.ok.inj hp.harm
    simp only [getGradientFlow, getCurlFlow, getHarmonicFlow, Bool.false_eq_true, if_false] at e1 e2 e3
    simp only [getGradientFlow, getCurlFlow, getHarmonicFlow, Bool.false_eq_true, if_false, if_true,
      Pi.add_apply] at hi
    rw [e3, e1, e2] at hi
    have hz : npRound (1 / 2) 0 + npRound 0 0 + npRound (1 / 2) 0 = 1 := hi
    simp only [npRound, zpow_zero, mul_one, div_one, hr, hr0] at hz
    norm_num at hz
/-- C25 (flows): unknown component names are rejected, known ones always give a result. -/
theorem C25_component_flow_names (f : Fin sc.E → ℝ) (component : String) (roundFig : Bool) (d : ℤ) :
    (component ≠ "gradient" ∧ component ≠ "curl" ∧ component ≠ "harmonic" →
      sc.getComponentFlow lib f component roundFig d = .error .valueError) ∧
    (component = "gradient" ∨ component = "curl" ∨ component = "harmonic" →
      ∃ r, sc.getComponentFlow lib f component roundFig d = .ok r) := by
  constructor
  · rintro ⟨h1, h2, h3⟩
    simp [SC.getComponentFlow, h1, h2, h3]
  · rintro (rfl | rfl | rfl)
    · exact ⟨_, rfl⟩
    · exact ⟨_, rfl⟩
    · exact ⟨_, rfl⟩

/-- C24, C25, the documented defaults: `get_component_flow(flow)` is the gradient component to two decimals, and with only a
component named the result also has two decimals. -/
theorem C24_defaults (f g c h : Fin sc.E → ℝ) (hp : HodgeParts lib sc f g c h) :
    ∃ rg rc rh, sc.getComponentFlow lib f = .ok rg ∧ sc.getComponentFlow lib f "gradient" = .ok rg ∧
      sc.getComponentFlow lib f "curl" = .ok rc ∧ sc.getComponentFlow lib f "harmonic" = .ok rh ∧
      ∀ r u, (r = rg ∧ u = g) ∨ (r = rc ∧ u = c) ∨ (r = rh ∧ u = h) →
        ∀ i, (∃ z : ℤ, r i = z / 100) ∧ |r i - u i| ≤ 1 / 200 := by
  obtain ⟨rg, hg⟩ := (C25_component_flow_names (lib := lib) f "gradient" true 2).2 (by simp)
  obtain ⟨rc, hc⟩ := (C25_component_flow_names (lib := lib) f "curl" true 2).2 (by simp)
  obtain ⟨rh, hh⟩ := (C25_component_flow_names (lib := lib) f "harmonic" true 2).2 (by simp)
  refine ⟨rg, rc, rh, hg, hg, hc, hh, fun r u hru i => ?_⟩
  have := (C24_rounded_components f g c h rg rc rh 2 hp hg hc hh i).1 r u hru
  norm_num at this
  exact ⟨this.1, this.2⟩

end Pytspl
