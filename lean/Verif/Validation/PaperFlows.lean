import Verif.Validation.Paper
import Verif.Props.BestFilter
import Verif.Props.EdgeFlow

/-!
# The model on the project's own test data: components, filters and errors

See `Verif.Validation.Paper`. All numbers below are asserted in the named tests of the project; the exact solutions
behind them are given as fractions.
-/

namespace Pytspl.Validation

open Matrix Polynomial

/-- a flow on the edges given by fractions -/
noncomputable def rv {n : ℕ} (v : Fin n → ℚ) : Fin n → ℝ := fun i => (v i : ℝ)

/-- an integer matrix times a vector of fractions -/
def mv {m n : ℕ} (M : Matrix (Fin m) (Fin n) ℤ) (v : Fin n → ℚ) : Fin m → ℚ := fun i => ∑ j, (M i j : ℚ) * v j

theorem cast_mv {m n : ℕ} (M : Matrix (Fin m) (Fin n) ℤ) (v : Fin n → ℚ) :
    (M.map (Int.cast : ℤ → ℝ)).mulVec (rv v) = rv (mv M v) := by
  funext i
  simp [mulVec, dotProduct, rv, mv]

def L1lZ : Matrix (Fin 10) (Fin 10) ℤ := !![2, 1, 1, -1, 0, 0, 0, 0, 0, 0;
    1, 2, 1, 1, -1, -1, 0, 0, 0, 0;
    1, 1, 2, 0, 1, 0, -1, 0, 0, 0;
    -1, 1, 0, 2, -1, -1, 0, 0, 0, 0;
    0, -1, 1, -1, 2, 1, -1, 0, 0, 0;
    0, -1, 0, -1, 1, 2, 0, 1, 0, -1;
    0, 0, -1, 0, -1, 0, 2, -1, -1, 0;
    0, 0, 0, 0, 0, 1, -1, 2, 1, -1;
    0, 0, 0, 0, 0, 0, -1, 1, 2, 1;
    0, 0, 0, 0, 0, -1, 0, -1, 1, 2]
def L1uZ : Matrix (Fin 10) (Fin 10) ℤ := !![1, -1, 0, 1, 0, 0, 0, 0, 0, 0;
    -1, 2, -1, -1, 1, 0, 0, 0, 0, 0;
    0, -1, 1, 0, -1, 0, 0, 0, 0, 0;
    1, -1, 0, 1, 0, 0, 0, 0, 0, 0;
    0, 1, -1, 0, 1, 0, 0, 0, 0, 0;
    0, 0, 0, 0, 0, 0, 0, 0, 0, 0;
    0, 0, 0, 0, 0, 0, 0, 0, 0, 0;
    0, 0, 0, 0, 0, 0, 0, 1, -1, 1;
    0, 0, 0, 0, 0, 0, 0, -1, 1, -1;
    0, 0, 0, 0, 0, 0, 0, 1, -1, 1]
def L1Z : Matrix (Fin 10) (Fin 10) ℤ := !![3, 0, 1, 0, 0, 0, 0, 0, 0, 0;
    0, 4, 0, 0, 0, -1, 0, 0, 0, 0;
    1, 0, 3, 0, 0, 0, -1, 0, 0, 0;
    0, 0, 0, 3, -1, -1, 0, 0, 0, 0;
    0, 0, 0, -1, 3, 1, -1, 0, 0, 0;
    0, -1, 0, -1, 1, 2, 0, 1, 0, -1;
    0, 0, -1, 0, -1, 0, 2, -1, -1, 0;
    0, 0, 0, 0, 0, 1, -1, 3, 0, 0;
    0, 0, 0, 0, 0, 0, -1, 0, 3, 0;
    0, 0, 0, 0, 0, -1, 0, 0, 0, 3]

theorem L1l_eq : paper.L1l = L1lZ.map (Int.cast : ℤ → ℝ) := by
  have h : paperB1.transpose * paperB1 = L1lZ := by decide +kernel
  rw [← h]
  exact SC.ofInt_L1l (nodes := [0, 1, 2, 3, 4, 5, 6]) (edges := paperEdges) (B1 := paperB1) (B2 := paperB2t.transpose)
    (triangles := [[0, 1, 2], [0, 2, 3], [4, 5, 6]])

theorem L1u_eq : paper.L1u = L1uZ.map (Int.cast : ℤ → ℝ) := by
  have h : paperB2t.transpose * paperB2t.transpose.transpose = L1uZ := by decide +kernel
  rw [← h]
  exact SC.ofInt_L1u (nodes := [0, 1, 2, 3, 4, 5, 6]) (edges := paperEdges) (B1 := paperB1) (B2 := paperB2t.transpose)
    (triangles := [[0, 1, 2], [0, 2, 3], [4, 5, 6]])

theorem L1_eq : paper.L1 = L1Z.map (Int.cast : ℤ → ℝ) := by
  have h : paperB1.transpose * paperB1 + paperB2t.transpose * paperB2t.transpose.transpose = L1Z := by decide +kernel
  rw [← h]
  exact SC.ofInt_L1 (nodes := [0, 1, 2, 3, 4, 5, 6]) (edges := paperEdges) (B1 := paperB1) (B2 := paperB2t.transpose)
    (triangles := [[0, 1, 2], [0, 2, 3], [4, 5, 6]])

/-! ## tests/test_simplicial_complex.py -/

/-- the flow of the shifting tests -/
def e7 : Fin 10 → ℚ := ![0, 0, 0, 0, 0, 0, 0, 1, 0, 0]

private theorem rv_eq {n : ℕ} {u v : Fin n → ℚ} (h : ∀ i, u i = v i) : rv u = rv v := by rw [funext h]

/-- `test_apply_lower_shifting` -/
theorem lowerShifting :
    paper.applyLowerShifting (rv e7) 1 = rv ![0, 0, 0, 0, 0, 1, -1, 2, 1, -1] ∧
    paper.applyLowerShifting (rv e7) 2 = rv ![0, -1, 1, -1, 2, 5, -5, 8, 4, -4] := by
  constructor
  · rw [SC.applyLowerShifting, if_pos rfl, L1l_eq]
    exact (cast_mv _ _).trans (rv_eq (by decide +kernel))
  · rw [SC.applyLowerShifting, if_neg (by decide), L1l_eq]
    erw [cast_mv, cast_mv]
    exact rv_eq (by decide +kernel)

/-- `test_apply_upper_shifting` -/
theorem upperShifting :
    paper.applyUpperShifting (rv e7) 1 = rv ![0, 0, 0, 0, 0, 0, 0, 1, -1, 1] ∧
    paper.applyUpperShifting (rv e7) 2 = rv ![0, 0, 0, 0, 0, 0, 0, 3, -3, 3] := by
  constructor
  · rw [SC.applyUpperShifting, if_pos rfl, L1u_eq]
    exact (cast_mv _ _).trans (rv_eq (by decide +kernel))
  · rw [SC.applyUpperShifting, if_neg (by decide), L1u_eq]
    erw [cast_mv, cast_mv]
    exact rv_eq (by decide +kernel)

/-- `test_apply_k_step_shifting` -/
theorem kStepShifting :
    paper.applyKStepShifting (rv e7) 2 = rv ![0, -1, 1, -1, 2, 5, -5, 11, 1, -1] := by
  rw [SC.applyKStepShifting, lowerShifting.2, upperShifting.2]
  funext i
  change rv _ i + rv _ i = _
  simp only [rv]
  rw [← Rat.cast_add]
  congr 1
  revert i
  change ∀ i : Fin 10, _
  decide +kernel

/-- `test_get_curl` -/
theorem curl : paper.getCurl (rv ![0.03, 0.5, 2.38, 0.88, -0.53, -0.52, 1.08, 0.47, -1.17, 0.09]) =
    rv ![0.41, -2.41, 1.73] :=
  (cast_mv paperB2t _).trans (rv_eq (by decide +kernel))
/-! ## tests/test_base_filter.py -/

/-- `f_mock` in tests/conftest.py -/
def fMock : Fin 10 → ℚ := ![2.90, 0.25, 1.78, -1.50, 1.76, 1.53, 1.32, 0.08, 0.67, 1.73]

/-- `f0_mock` in tests/conftest.py: the flow of the dataset -/
def f0Mock : Fin 10 → ℚ := ![2.25, 0.13, 1.72, -2.12, 1.59, 1.08, -0.30, -0.21, 1.25, 1.45]

/-- entries within half a hundredth are rounded to the hundredths -/
theorem round_of {q : ℚ} {n : ℤ} (h : |q * 100 - n| < 1 / 2) : npRound (q : ℝ) 2 = ((n / 100 : ℚ) : ℝ) := by
  have h' : |(q : ℝ) * 100 - n| < 1 / 2 := by
    have := (Rat.cast_lt (K := ℝ)).2 h
    push_cast at this
    exact this
  have h1 := rint_close ((q : ℝ) * 100)
  have h2 : rint ((q : ℝ) * 100) = n := by
    have a1 := abs_lt.1 h'
    have a2 := abs_le.1 h1
    have b1 : (rint ((q : ℝ) * 100) : ℝ) < n + 1 := by linarith
    have b2 : (n : ℝ) < rint ((q : ℝ) * 100) + 1 := by linarith
    have c1 : rint ((q : ℝ) * 100) < n + 1 := by exact_mod_cast b1
    have c2 : n < rint ((q : ℝ) * 100) + 1 := by exact_mod_cast b2
    omega
  have h100 : (10 : ℝ) ^ (2 : ℤ) = 100 := by norm_num
  rw [npRound, h100, h2]
  push_cast
  rfl

/-- the vector rounds to the vector of hundredths -/
def RoundsTo (x : Fin 10 → ℚ) (n : Fin 10 → ℤ) : Prop := ∀ i, |x i * 100 - n i| < 1 / 2

instance (x : Fin 10 → ℚ) (n : Fin 10 → ℤ) : Decidable (RoundsTo x n) := by unfold RoundsTo; infer_instance

theorem RoundsTo.eq {x : Fin 10 → ℚ} {n : Fin 10 → ℤ} (h : RoundsTo x n) (i : Fin 10) :
    npRound (rv x i) 2 = rv (fun i => (n i / 100 : ℚ)) i := round_of (h i)

/-- the potential of the gradient part of `f_mock` -/
def potMock : Fin 7 → ℚ := ![-1521/395, -5419/3950, -6504/1975, -15459/7900, -7479/7900, -11481/7900, 0]

/-- `test_get_true_signal_gradient` -/
theorem gradient (lib : NumLib) : ∃ g, paper.getTrueSignal lib (rv fMock) "gradient" = .ok g ∧
    ∀ i, npRound (g i) 2 = rv ![2.48, 0.56, 1.89, -1.92, 1.34, 1.84, 1.01, -0.51, 0.95, 1.45] i := by
  obtain ⟨g, c, h, hp⟩ := HodgeParts.exists lib paper (rv fMock)
  refine ⟨g, hp.grad, ?_⟩
  have hproj : IsProj paper.B1.transpose (rv fMock) (rv (mv paperB1.transpose potMock)) := by
    constructor
    · exact ⟨rv potMock, cast_mv paperB1.transpose potMock⟩
    · rw [transpose_transpose]
      refine (cast_mv paperB1 _).trans (Eq.trans (rv_eq ?_) (cast_mv paperB1 _).symm)
      decide +kernel
  rw [← gradient_eq_of_proj hp.grad hproj]
  have hr : RoundsTo (mv paperB1.transpose potMock) ![248, 56, 189, -192, 134, 184, 101, -51, 95, 145] := by
    decide +kernel
  intro i
  refine (hr.eq i).trans ?_
  refine congrFun (rv_eq (n := 10) ?_) i
  decide +kernel

/-- the squared norm -/
def sq (v : Fin 10 → ℚ) : ℚ := ∑ i, v i * v i

theorem norm2_rv (v : Fin 10 → ℚ) : norm2 (rv v) = Real.sqrt (sq v : ℝ) := by
  rw [norm2, dotProduct, sq]
  push_cast
  rfl

/-- an error given by a fraction of squares rounds to hundredths -/
theorem nrmse_round {x f0 : Fin 10 → ℚ} {n : ℤ} (h0 : 0 < sq f0) (hn : 0 < n)
    (h1 : (n - 1 / 2) ^ 2 * sq f0 < 10000 * sq (fun i => x i - f0 i))
    (h2 : 10000 * sq (fun i => x i - f0 i) < (n + 1 / 2) ^ 2 * sq f0) :
    ∃ e, calculateErrorNRMSE (rv x) (rv f0) = some e ∧ |e * 100 - n| < 1 / 2 := by
  have hsub : rv x - rv f0 = rv fun i => x i - f0 i := by
    funext i
    simp [rv]
  have h0' : (0 : ℝ) < sq f0 := by exact_mod_cast h0
  have hb := Real.sqrt_pos.2 h0'
  rw [calculateErrorNRMSE, hsub, norm2_rv, norm2_rv, fdiv, if_neg hb.ne']
  refine ⟨_, rfl, ?_⟩
  set a : ℝ := ((sq fun i => x i - f0 i : ℚ) : ℝ) with ha
  set b : ℝ := ((sq f0 : ℚ) : ℝ) with hbd
  have h1' : ((n : ℝ) - 1 / 2) ^ 2 * b < 10000 * a := by
    have := (Rat.cast_lt (K := ℝ)).2 h1; push_cast at this; exact this
  have h2' : 10000 * a < ((n : ℝ) + 1 / 2) ^ 2 * b := by
    have := (Rat.cast_lt (K := ℝ)).2 h2; push_cast at this; exact this
  have hn1 : (1 : ℝ) ≤ n := by exact_mod_cast hn
  have ha0 : 0 < a := by nlinarith [mul_nonneg (sq_nonneg ((n : ℝ) - 1 / 2)) h0'.le]
  have e1 : ((n : ℝ) - 1 / 2) * Real.sqrt b < 100 * Real.sqrt a := by
    have := Real.sqrt_lt_sqrt (by positivity) h1'
    rwa [Real.sqrt_mul (by positivity), Real.sqrt_mul (by norm_num), Real.sqrt_sq (by linarith),
      show (10000 : ℝ) = 100 ^ 2 by norm_num, Real.sqrt_sq (by norm_num)] at this
  have e2 : 100 * Real.sqrt a < ((n : ℝ) + 1 / 2) * Real.sqrt b := by
    have := Real.sqrt_lt_sqrt (by positivity) h2'
    rwa [Real.sqrt_mul (by norm_num), Real.sqrt_mul (by positivity), Real.sqrt_sq (by linarith),
      show (10000 : ℝ) = 100 ^ 2 by norm_num, Real.sqrt_sq (by norm_num)] at this
  have e3 : Real.sqrt a / Real.sqrt b * 100 - n = (100 * Real.sqrt a - n * Real.sqrt b) / Real.sqrt b := by
    field_simp
  rw [e3, abs_lt]
  constructor
  · rw [lt_div_iff₀ hb]; linarith
  · rw [div_lt_iff₀ hb]; linarith

/-- `test_calcualte_error` -/
theorem error : ∃ e, calculateErrorNRMSE (rv fMock) (rv f0Mock) = some e ∧ |e * 100 - 46| < 1 / 2 := by
  have := nrmse_round (x := fMock) (f0 := f0Mock) (n := 46) (by decide +kernel) (by decide) (by decide +kernel)
    (by decide +kernel)
  exact_mod_cast this

/-! ## tests/test_edge_flow_denoising.py -/

/-- the denoiser solves a linear equation; a solution given by fractions is the estimate -/
theorem denoised {P H : Matrix (Fin 10) (Fin 10) ℝ} {M : Matrix (Fin 10) (Fin 10) ℤ} {mu : ℚ} {x f : Fin 10 → ℚ}
    (hP : P = M.map (Int.cast : ℤ → ℝ)) (hH : IsDenoiser P H mu) (h : ∀ i, x i + mu * mv M x i = f i) :
    H.mulVec (rv f) = rv x := by
  have h1 : (1 + (mu : ℝ) • P).mulVec (rv x) = rv f := by
    rw [add_mulVec, one_mulVec, smul_mulVec, hP, cast_mv]
    funext i
    simp only [rv, Pi.add_apply, Pi.smul_apply, smul_eq_mul]
    exact_mod_cast h i
  rw [← h1, mulVec_mulVec, mul_eq_one_comm.mp hH.1, one_mulVec]

/-- `test_edge_flow_denoising_P_L1`: the flow for `mu = 1/2` -/
def xL1 : Fin 10 → ℚ := ![21246877/21025200, 216551/1051260, 628471/841008, -919757/3003600, 3082117/4205040,
    64473/87605, 207967/175210, 535273/4380250, 1106871/2190125, 3675863/4380250]

/-- `test_edge_flow_denoising_P_L1L`: the flow for `mu = 1/2` -/
def xL1L : Fin 10 → ℚ := ![1103569/876050, 92263/1752100, 228281/350420, -714/12515, 58085/70084, 64473/87605,
    207967/175210, 153397/438025, 243009/876050, 467456/438025]

private theorem initFilter_valid (E : ℕ) : (initFilter E).Valid := by simp [FilterSt.Valid, initFilter]

private theorem one_mu (lib : NumLib) {pChoice : String} {P : Matrix (Fin paper.E) (Fin paper.E) ℝ}
    (hP : paper.getPMatrix pChoice = .ok P) {M : Matrix (Fin 10) (Fin 10) ℤ} (hM : P = M.map (Int.cast : ℤ → ℝ))
    (x : Fin 10 → ℚ) (h : ∀ i, x i + (1 / 2) * mv M x i = fMock i) :
    ∃ st', edgeFlowDenoise lib paper (initFilter _) (rv fMock) (rv f0Mock) pChoice = (.ok (), st') ∧
      st'.history.get? "f_estimated" = some (.vec (rv x)) ∧
      st'.history.get? "extracted_component_error" = some (.errs [calculateErrorNRMSE (rv x) (rv f0Mock)]) := by
  have hE : 0 < paper.E := by decide
  have hmu : ∀ m ∈ [(1 / 2 : ℝ)], 0 ≤ m := by simp
  obtain ⟨st', H, h1, -, h3, h4⟩ := C59_denoise (lib := lib) hE hP (initFilter _) (initFilter_valid _) (rv fMock)
    (rv f0Mock) [1 / 2] hmu (1 / 2) rfl
  obtain ⟨st'', resp, errs, g1, -, -, g4, g5, g6⟩ := C61_response (lib := lib) hE hP (initFilter _)
    (initFilter_valid _) (rv fMock) (rv f0Mock) [1 / 2] hmu (by simp) _
    (eigh_isSpectrum lib (getPMatrix_psd hP))
  rw [h1] at g1
  obtain rfl : st' = st'' := (Prod.mk.inj g1).2
  have hd : ∀ H', IsDenoiser P H' (1 / 2) → H'.mulVec (rv fMock) = rv x := fun H' hH' =>
    denoised (P := P) (H := H') (mu := 1 / 2) hM (by push_cast; exact hH') h
  refine ⟨st', h1, ?_, ?_⟩
  · rw [h3, hd H h4]
    rfl
  · obtain ⟨H', k1, k2⟩ := g6 0 _ rfl
    rw [hd H' k1] at k2
    match errs, g5, k2, g4 with
    | [e], _, k2, g4 =>
      rw [g4]
      simp only [List.getElem?_cons_zero, Option.some.injEq] at k2
      rw [k2]
      rfl

/-- `test_edge_flow_denoising_P_L1`: the estimate and the error 0.70 -/
theorem denoiseL1 (lib : NumLib) : ∃ st' x e,
    edgeFlowDenoise lib paper (initFilter _) (rv fMock) (rv f0Mock) "L1" = (.ok (), st') ∧
    st'.history.get? "f_estimated" = some (.vec x) ∧
    (∀ i, npRound (x i) 2 = rv ![1.01, 0.21, 0.75, -0.31, 0.73, 0.74, 1.19, 0.12, 0.51, 0.84] i) ∧
    st'.history.get? "extracted_component_error" = some (.errs [some e]) ∧ |e * 100 - 70| < 1 / 2 := by
  obtain ⟨st', h1, h2, h3⟩ := one_mu lib (pChoice := "L1") (by rfl) L1_eq xL1 (by decide +kernel)
  obtain ⟨e, he, hb⟩ := nrmse_round (x := xL1) (f0 := f0Mock) (n := 70) (by decide +kernel) (by decide)
    (by decide +kernel) (by decide +kernel)
  rw [he] at h3
  have hr : RoundsTo xL1 ![101, 21, 75, -31, 73, 74, 119, 12, 51, 84] := by decide +kernel
  refine ⟨st', _, e, h1, h2, fun i => (hr.eq i).trans (congrFun (rv_eq (n := 10) ?_) i), h3, by exact_mod_cast hb⟩
  decide +kernel

/-- `test_edge_flow_denoising_P_L1L`: the estimate and the error 0.73 -/
theorem denoiseL1L (lib : NumLib) : ∃ st' x e,
    edgeFlowDenoise lib paper (initFilter _) (rv fMock) (rv f0Mock) "L1L" = (.ok (), st') ∧
    st'.history.get? "f_estimated" = some (.vec x) ∧
    (∀ i, npRound (x i) 2 = rv ![1.26, 0.05, 0.65, -0.06, 0.83, 0.74, 1.19, 0.35, 0.28, 1.07] i) ∧
    st'.history.get? "extracted_component_error" = some (.errs [some e]) ∧ |e * 100 - 73| < 1 / 2 := by
  obtain ⟨st', h1, h2, h3⟩ := one_mu lib (pChoice := "L1L") (by rfl) L1l_eq xL1L (by decide +kernel)
  obtain ⟨e, he, hb⟩ := nrmse_round (x := xL1L) (f0 := f0Mock) (n := 73) (by decide +kernel) (by decide)
    (by decide +kernel) (by decide +kernel)
  rw [he] at h3
  have hr : RoundsTo xL1L ![126, 5, 65, -6, 83, 74, 119, 35, 28, 107] := by decide +kernel
  refine ⟨st', _, e, h1, h2, fun i => (hr.eq i).trans (congrFun (rv_eq (n := 10) ?_) i), h3, by exact_mod_cast hb⟩
  decide +kernel

/-- the true and the noisy flow of `test_edge_flow_denoising_mu_values` -/
def fGrid0 : Fin 10 → ℚ := ![-689/10000, -689/5000, 2067/10000, -689/10000, 689/2000, -689/1250, 689/1250, 147/400,
    1837/10000, -1837/10000]
def fGrid : Fin 10 → ℚ := ![293/625, 16961/10000, -10261/5000, 7933/10000, 6633/10000, -18589/10000, 147/1250,
    7101/10000, 37621/10000, 25857/10000]

/-- the estimate for each of the twelve parameters, and the recorded error in hundredths -/
def gridRuns : List (ℚ × (Fin 10 → ℚ) × ℤ) :=
  [(1 / 100, ![7655425293567641851/16132965922944780000, 255228360796798351/158166332577890000,
    -32195362769815824253/16132965922944780000, 1750054588175522293/2304709417563540000,
    2162214053113880849/3226593184588956000, -5439272032094123/3041660241882500, 110309516839437/760415060470625,
    55467200968882049/78322751228474375, 1144744237665973073/313291004913897500,
    390521408355731951/156645502456948750], 548),
   (5 / 100, ![1548324672627/3187755860000, 2149040451397/1593877930000, -5723068527061/3187755860000,
    2077139743707/3187755860000, 435678449273/637551172000, -622639076983/398469482500, 23625002127/99617370625,
    1594050668989/2291199524375, 30076140810773/9164798097500, 9991905870511/4582399048750], 486),
   (1 / 10, ![34262293981/70936333125, 210714113417/189163555000, -112860292063/70936333125,
    316482053033/567490665000, 77515929907/113498133000, -36915066931/27023365000, 4349319153/13511682500,
    118753310051/175651872500, 1025344652971/351303745000, 330914040937/175651872500], 426),
   (25 / 100, ![28353383/65211360, 194960963/271714000, -9523667341/8151420000, 3237721891/8151420000,
    5309830021/8151420000, -354660947/339642500, 39498729/84910625, 73868821/118874875, 5269071113/2377497500,
    1579096751/1188748750], 315),
   (1 / 2, ![7514517/21901250, 37455563/87605000, -17037973/21901250, 3394587/12515000, 10451351/17521000,
    -72440303/87605000, 4886457/8760500, 122860747/219012500, 708022111/438025000, 190300097/219012500], 222),
   (1, ![70402837/318075000, 42957479/212050000, -33124447/79518750, 101538959/636150000, 336109871/636150000,
    -14487061/21205000, 321942/530125, 84844823/169640000, 185306021/169640000, 16137083/33928000], 140),
   (5 / 2, ![36166169656/453397085625, 21516124357/1209058895000, -37943955334/453397085625,
    178605028973/3627176685000, 1633090301483/3627176685000, -65963906323/109914445000, 33859554081/54957222500,
    412257783607/934272782500, 1165613807879/1868545565000, 119296014629/934272782500], 68),
   (5, ![5626489773/495831035000, -57353994503/991662070000, 3560543821/61978879375, -3723941469/991662070000,
    408024667571/991662070000, -41234170307/70833005000, 10724475057/17708251250, 941917739051/2266656160000,
    961940698501/2266656160000, -46035901013/2266656160000], 37),
   (10, ![-270912269333/9543412252500, -1267090749923/12724549670000, 2574446402659/19086824505000,
    -194025738431/5453378430000, 14821174732723/38173649010000, -179348364493/310354870000, 13189265313/22168205000,
    3860363781937/9621000970000, 430583314321/1374428710000, -990999057571/9621000970000], 20),
   (25, ![-209293447663948331/3859188127465755000, -19098627420357889/151340710881010000,
    177154894166160191/964797031866438750, -62800860564043231/1102625179275930000,
    2877404884205786183/7718376254931510000, -432802049342857/749211440005000, 54885049029411/93651430000625,
    44658152166002351/113880138880760000, 27591236328650021/113880138880760000,
    -17765630426300993/113880138880760000], 9),
   (50, ![-9736451036239345251/154055837033934417500, -825908670134879663/6101221268670670000,
    61697019314945983513/308111674067868835000, -39764653365420128139/616223348135737670000,
    226372713858533933161/616223348135737670000, -52643559430120339/91063004010010000,
    26525525610920613/45531502005005000, 5349394371745586351/13750513605511510000,
    2995140688478119921/13750513605511510000, -2396716362037334093/13750513605511510000], 6),
   (100, ![-3875635136415652740089/57202544974091103251250, -318771857265495169939/2276718207924024010000,
    47735309165798615358839/228810179896364413005000, -31305019330675677611767/457620359792728826010000,
    166836593097436728152333/457620359792728826010000, -3284016371968167089/5677601516020010000,
    824284950281165319/1419400379005002500, 662147282145808645601/1708958056322023010000,
    351073684775885007221/1708958056322023010000, -313721062956843769043/1708958056322023010000], 5)]

/-- the parameters of the test -/
noncomputable def gridMus : List ℝ := gridRuns.map fun r => (r.1 : ℝ)

/-- `test_edge_flow_denoising_mu_values`: the twelve errors, in hundredths -/
theorem denoiseGrid (lib : NumLib) : ∃ st' errs,
    edgeFlowDenoise lib paper (initFilter _) (rv fGrid) (rv fGrid0) "L1" gridMus = (.ok (), st') ∧
    st'.history.get? "extracted_component_error" = some (.errs errs) ∧ errs.length = 12 ∧
    ∀ (i : ℕ) (n : ℤ), [548, 486, 426, 315, 222, 140, 68, 37, 20, 9, 6, 5][i]? = some n →
      ∃ e, errs[i]? = some (some e) ∧ |e * 100 - n| < 1 / 2 := by
  have hE : 0 < paper.E := by decide
  have hall : ∀ r ∈ gridRuns, 0 ≤ r.1 ∧ (∀ i, r.2.1 i + r.1 * mv L1Z r.2.1 i = fGrid i) ∧ 0 < r.2.2 ∧
      (r.2.2 - 1 / 2) ^ 2 * sq fGrid0 < 10000 * sq (fun i => r.2.1 i - fGrid0 i) ∧
      10000 * sq (fun i => r.2.1 i - fGrid0 i) < (r.2.2 + 1 / 2) ^ 2 * sq fGrid0 := by
    decide +kernel
  have hmu : ∀ m ∈ gridMus, 0 ≤ m := by
    intro m hm
    obtain ⟨r, hr, rfl⟩ := List.mem_map.1 hm
    exact_mod_cast (hall r hr).1
  obtain ⟨st', resp, errs, g1, -, -, g4, g5, g6⟩ := C61_response (lib := lib) hE (pChoice := "L1") (P := paper.L1)
    (by rfl) (initFilter _) (initFilter_valid _) (rv fGrid) (rv fGrid0) gridMus hmu (by simp [gridMus, gridRuns]) _
    (eigh_isSpectrum lib (symmPSD_L1 paper))
  refine ⟨st', errs, g1, g4, by rw [g5]; simp [gridMus, gridRuns], ?_⟩
  intro i n hi
  have hn : (gridRuns.map fun r => r.2.2)[i]? = some n := by rw [← hi]; rfl
  rw [List.getElem?_map] at hn
  obtain ⟨r, hr, rfl⟩ := Option.map_eq_some_iff.1 hn
  obtain ⟨-, a2, a3, a4, a5⟩ := hall r (List.mem_of_getElem? hr)
  obtain ⟨H, k1, k2⟩ := g6 i r.1 (by rw [gridMus, List.getElem?_map, hr]; rfl)
  have hd : H.mulVec (rv fGrid) = rv r.2.1 := denoised (P := paper.L1) (H := H) L1_eq k1 a2
  rw [hd] at k2
  obtain ⟨e, he, hb⟩ := nrmse_round (x := r.2.1) (f0 := fGrid0) (n := r.2.2) (by decide +kernel) a3 a4 a5
  exact ⟨e, k2.trans (congrArg some he), hb⟩

/-! ## tests/test_ls_filter_design.py -/

theorem paper_wellFormed : paper.WellFormed := by
  refine ⟨paper_init, ?_, ?_, ?_⟩
  · show EdgesInRange 7 paperEdges
    decide
  · show NoLoops paperEdges
    decide
  · intro t ht
    have ht' : t ∈ [[(0 : Int), 1, 2], [0, 2, 3], [4, 5, 6]] := ht
    simp only [List.mem_cons, List.not_mem_nil, or_false] at ht'
    rcases ht' with rfl | rfl | rfl
    · exact ⟨0, 1, 2, rfl, by decide, by decide, by decide⟩
    · exact ⟨0, 2, 3, rfl, by decide, by decide, by decide⟩
    · exact ⟨4, 5, 6, rfl, by decide, by decide, by decide⟩

/-- spans the harmonic flows -/
def harmZ : Fin 10 → ℤ := ![3, 6, -9, 3, -15, 24, -24, -16, -8, 8]

/-- a multiple of the pseudo-inverse of the Hodge Laplacian -/
def pinvZ : Matrix (Fin 10) (Fin 10) ℤ := !![4714587, -271710, -1621629, -268101, 222813, -967392, -329472, 318816,
    -56736, -375552;
    -271710, 3421116, 695682, 547362, 420030, 1341504, 1456992, 250848, 591840, 340992;
    -1621629, 695682, 5044059, 744579, -369819, 2424384, 1466208, -637920, 329472, 967392;
    -268101, 547362, 744579, 5533659, 1769949, 2308896, 1786464, -67968, 648576, 716544;
    222813, 420030, -369819, 1769949, 3928347, 1082880, 9216, -888768, -262368, 626400;
    -967392, 1341504, 2424384, 2308896, 1082880, 6321600, 4872384, 366336, 2048832, 1682496;
    -329472, 1456992, 1466208, 1786464, 9216, 4872384, 5502528, -639360, 1409472, 2048832;
    318816, 250848, -637920, -67968, -888768, 366336, -639360, 3292448, -496256, 405248;
    -56736, 591840, 329472, 648576, -262368, 2048832, 1409472, -496256, 4522208, 824512;
    -375552, 340992, 967392, 716544, 626400, 1682496, 2048832, 405248, 824512, 4613216]

/-- no Hodge eigenvalue in `(0, 1/1000]` -/
theorem paper_gap : NoSmallEigenvalue paper.L1 (1 / 1000) := by
  intro mu v hv h hm
  change Fin 10 → ℝ at v
  have h' : (L1Z.map (Int.cast : ℤ → ℝ)).mulVec v = mu • v := by rw [← L1_eq]; exact h
  have hrow : ∀ i, ∑ j, (L1Z i j : ℝ) * v j = mu * v i := fun i => congrFun h' i
  have hh : ∑ i, (harmZ i : ℝ) * v i = 0 := by
    have e1 : ∑ i, (harmZ i : ℝ) * ∑ j, (L1Z i j : ℝ) * v j = 0 := by
      simp only [Finset.mul_sum]
      rw [Finset.sum_comm]
      refine Finset.sum_eq_zero fun j _ => ?_
      have e2 : ∑ i, harmZ i * L1Z i j = 0 := by
        revert j
        decide +kernel
      have e3 : ∑ i, (harmZ i : ℝ) * ((L1Z i j : ℝ) * v j) = ((∑ i, harmZ i * L1Z i j : ℤ) : ℝ) * v j := by
        push_cast
        rw [Finset.sum_mul]
        exact Finset.sum_congr rfl fun i _ => by ring
      rw [e3, e2]; simp
    simp only [hrow] at e1
    have e4 : mu * ∑ i, (harmZ i : ℝ) * v i = 0 := by
      rw [← e1, Finset.mul_sum]
      exact Finset.sum_congr rfl fun i _ => by ring
    exact (mul_eq_zero.1 e4).resolve_left hm.1.ne'
  have hG : ∀ i, (12581856 : ℝ) * v i = mu * ∑ k, (pinvZ i k : ℝ) * v k := by
    intro i
    have e1 : ∀ i j, ∑ k, pinvZ i k * L1Z k j = 12581856 * (if i = j then 1 else 0) - 6636 * harmZ i * harmZ j := by
      decide +kernel
    have e2 : ∑ j, ((∑ k, pinvZ i k * L1Z k j : ℤ) : ℝ) * v j = mu * ∑ k, (pinvZ i k : ℝ) * v k := by
      push_cast
      simp only [Finset.sum_mul, Finset.mul_sum]
      rw [Finset.sum_comm]
      refine Finset.sum_congr rfl fun k _ => ?_
      have := hrow k
      calc ∑ j, (pinvZ i k : ℝ) * L1Z k j * v j = pinvZ i k * ∑ j, (L1Z k j : ℝ) * v j := by
            rw [Finset.mul_sum]; exact Finset.sum_congr rfl fun j _ => by ring
        _ = mu * (pinvZ i k * v k) := by rw [this]; ring
    rw [← e2]
    simp only [e1]
    push_cast
    have e3 : ∀ j, ((12581856 : ℝ) * (if i = j then 1 else 0) - 6636 * harmZ i * harmZ j) * v j =
        12581856 * (if i = j then v j else 0) - 6636 * harmZ i * (harmZ j * v j) := by
      intro j; split_ifs <;> ring
    simp only [e3, Finset.sum_sub_distrib, ← Finset.mul_sum, hh]
    simp
  obtain ⟨i, -, hi⟩ := Finset.exists_max_image Finset.univ (fun i => |v i|) ⟨(0 : Fin 10), Finset.mem_univ _⟩
  have hsum : ∀ i, ∑ k, |pinvZ i k| ≤ 2 * 12581856 := by decide +kernel
  have hle : |∑ k, (pinvZ i k : ℝ) * v k| ≤ 2 * 12581856 * |v i| := by
    refine (Finset.abs_sum_le_sum_abs _ _).trans ?_
    have : ∑ k, |(pinvZ i k : ℝ) * v k| ≤ ∑ k, |(pinvZ i k : ℝ)| * |v i| := by
      refine Finset.sum_le_sum fun k _ => ?_
      rw [abs_mul]
      exact mul_le_mul_of_nonneg_left (hi k (Finset.mem_univ k)) (abs_nonneg _)
    refine this.trans ?_
    rw [← Finset.sum_mul]
    refine mul_le_mul_of_nonneg_right ?_ (abs_nonneg _)
    exact_mod_cast hsum i
  have hz : |v i| = 0 := by
    have e := congrArg abs (hG i)
    rw [abs_mul, abs_mul, abs_of_pos hm.1, abs_of_pos (by norm_num : (0 : ℝ) < 12581856)] at e
    have h1 : mu * |∑ k, (pinvZ i k : ℝ) * v k| ≤ 1 / 1000 * (2 * 12581856 * |v i|) :=
      mul_le_mul hm.2 hle (abs_nonneg _) (by norm_num)
    have := abs_nonneg (v i)
    linarith
  refine hv (funext fun k => ?_)
  have := hi k (Finset.mem_univ k)
  rw [hz] at this
  exact abs_eq_zero.1 (le_antisymm this (abs_nonneg _))

/-- the powers of the Hodge Laplacian -/
def powZ : Fin 4 → Matrix (Fin 10) (Fin 10) ℤ := ![1, L1Z, !![10, 0, 6, 0, 0, 0, -1, 0, 0, 0;
    0, 17, 0, 1, -1, -6, 0, -1, 0, 1;
    6, 0, 11, 0, 1, 0, -5, 1, 1, 0;
    0, 1, 0, 11, -7, -6, 1, -1, 0, 1;
    0, -1, 1, -7, 12, 6, -5, 2, 1, -1;
    0, -6, 0, -6, 6, 9, -2, 5, 0, -5;
    -1, 0, -5, 1, -5, -2, 8, -5, -5, 0;
    0, -1, 1, -1, 2, 5, -5, 11, 1, -1;
    0, 0, 1, 0, 1, 0, -5, 1, 10, 0;
    0, 1, 0, 1, -1, -5, 0, -1, 0, 10], !![36, 0, 29, 0, 1, 0, -8, 1, 1, 0;
    0, 74, 0, 10, -10, -33, 2, -9, 0, 9;
    29, 0, 44, -1, 8, 2, -24, 8, 8, 0;
    0, 10, -1, 46, -39, -33, 10, -10, -1, 9;
    1, -10, 8, -39, 54, 35, -26, 17, 8, -9;
    0, -33, 2, -33, 35, 46, -15, 26, 2, -24;
    -8, 2, -24, 10, -26, -15, 36, -25, -23, 2;
    1, -9, 8, -10, 17, 26, -25, 43, 8, -8;
    1, 0, 8, -1, 8, 2, -23, 8, 35, 0;
    0, 9, 0, 9, -9, -24, 2, -8, 0, 35]]

theorem pow_eq (k : Fin 4) : (L1Z.map (Int.cast : ℤ → ℝ)) ^ (k : ℕ) = (powZ k).map (Int.cast : ℤ → ℝ) := by
  have h2 : L1Z * L1Z = powZ 2 := by decide +kernel
  have h3 : L1Z * powZ 2 = powZ 3 := by decide +kernel
  have hmul : ∀ M N : Matrix (Fin 10) (Fin 10) ℤ, (M * N).map (Int.cast : ℤ → ℝ) = M.map Int.cast * N.map Int.cast :=
    fun M N => Matrix.map_mul (L := M) (M := N) (f := Int.castRingHom ℝ)
  have e2 : (L1Z.map (Int.cast : ℤ → ℝ)) ^ 2 = (powZ 2).map (Int.cast : ℤ → ℝ) := by
    rw [pow_two, ← hmul, h2]
  have e3 : (L1Z.map (Int.cast : ℤ → ℝ)) ^ 3 = (powZ 3).map (Int.cast : ℤ → ℝ) := by
    rw [pow_succ', e2, ← hmul, h3]
  fin_cases k
  · change _ ^ 0 = ((1 : Matrix (Fin 10) (Fin 10) ℤ).map (Int.cast : ℤ → ℝ))
    rw [pow_zero, Matrix.map_one _ Int.cast_zero Int.cast_one]
  · change _ ^ 1 = L1Z.map (Int.cast : ℤ → ℝ)
    rw [pow_one]
  · exact e2
  · exact e3

/-- 79 times the projector onto the gradient flows, and 79 times potentials of its columns -/
def gradZ : Matrix (Fin 10) (Fin 10) ℤ := !![49, 19, 11, -30, -8, -3, 3, 2, 1, -1;
    19, 38, 22, 19, -16, -6, 6, 4, 2, -2;
    11, 22, 46, 11, 24, 9, -9, -6, -3, 3;
    -30, 19, 11, 49, -8, -3, 3, 2, 1, -1;
    -8, -16, 24, -8, 40, 15, -15, -10, -5, 5;
    -3, -6, 9, -3, 15, 55, 24, 16, 8, -8;
    3, 6, -9, 3, -15, 24, 55, -16, -8, 8;
    2, 4, -6, 2, -10, 16, -16, 42, 21, -21;
    1, 2, -3, 1, -5, 8, -8, 21, 50, 29;
    -1, -2, 3, -1, 5, -8, 8, -21, 29, 50]
def gradPotZ : Matrix (Fin 7) (Fin 10) ℤ := !![-15, -30, -34, -15, -4, -41, -38, 1, -39, -40;
    34, -11, -23, -45, -12, -44, -35, 3, -38, -41;
    4, 8, -12, 4, -20, -47, -32, 5, -37, -42;
    -4, -8, 12, -4, 20, -32, -47, -5, -42, -37;
    -1, -2, 3, -1, 5, -8, 8, -21, -50, -29;
    1, 2, -3, 1, -5, 8, -8, 21, -29, -50;
    0, 0, 0, 0, 0, 0, 0, 0, 0, 0]

theorem gradUnit (lib : NumLib) (j : Fin 10) :
    paper.getComponentFlow lib (Pi.single (M := fun _ : Fin 10 => ℝ) j 1) "gradient" false =
      .ok fun i : Fin 10 => (gradZ i j : ℝ) / 79 := by
  obtain ⟨g, c, h, hp⟩ := HodgeParts.exists lib paper (Pi.single (M := fun _ : Fin 10 => ℝ) j 1)
  have e1 : (Pi.single (M := fun _ : Fin 10 => ℝ) j 1) = rv (Pi.single (M := fun _ : Fin 10 => ℚ) j 1) := by
    funext i
    simp only [rv, Pi.single_apply]
    split_ifs <;> simp
  have e2 : (fun i : Fin 10 => (gradZ i j : ℝ) / 79) = rv fun i => (gradZ i j : ℚ) / 79 := by
    funext i
    simp [rv]
  have hproj : IsProj paper.B1.transpose (Pi.single (M := fun _ : Fin 10 => ℝ) j 1)
      fun i : Fin 10 => (gradZ i j : ℝ) / 79 := by
    rw [e1, e2]
    constructor
    · refine ⟨rv fun a => (gradPotZ a j : ℚ) / 79, (cast_mv paperB1.transpose _).trans (rv_eq ?_)⟩
      clear e1 e2 hp
      revert j
      decide +kernel
    · rw [transpose_transpose]
      refine (cast_mv paperB1 _).trans (Eq.trans (rv_eq ?_) (cast_mv paperB1 _).symm)
      clear e1 e2 hp
      revert j
      decide +kernel
  rw [hp.grad, gradient_eq_of_proj hp.grad hproj]

/-- the coefficients of the filter, times 180935 -/
def coefZ : Fin 4 → ℤ := ![34406, 103662, -42481, 5269]

/-- the filter, times 180935 -/
def filterZ : Matrix (Fin 10) (Fin 10) ℤ := fun i j => ∑ k, coefZ k * powZ k i j

/-- the filter as a polynomial of the Hodge Laplacian -/
noncomputable def filterPoly : ℝ[X] := ∑ k : Fin 4, C ((coefZ k : ℝ) / 180935) * X ^ (k : ℕ)

theorem filterPoly_deg : filterPoly.natDegree ≤ 3 := by
  refine natDegree_sum_le_of_forall_le _ _ fun k _ => ?_
  refine (natDegree_C_mul_X_pow_le _ _).trans ?_
  have := k.isLt
  omega

theorem filterPoly_eq (i j : Fin 10) :
    aeval (L1Z.map (Int.cast : ℤ → ℝ)) filterPoly i j = (filterZ i j : ℝ) / 180935 := by
  rw [filterPoly, map_sum, Matrix.sum_apply, filterZ]
  push_cast
  rw [Finset.sum_div]
  refine Finset.sum_congr rfl fun k _ => ?_
  rw [map_mul, aeval_C, map_pow, aeval_X, pow_eq, Algebra.algebraMap_eq_smul_one, smul_mul_assoc, one_mul,
    Matrix.smul_apply, smul_eq_mul, Matrix.map_apply]
  ring

/-- a polynomial that is at least as close to the projector is the same filter -/
theorem filter_unique (p : ℝ[X]) (hp : p.natDegree ≤ 3)
    (hle : ∑ a : Fin 10, ∑ i : Fin 10, (aeval (L1Z.map (Int.cast : ℤ → ℝ)) p i a - (gradZ i a : ℝ) / 79) ^ 2 ≤
      ∑ a : Fin 10, ∑ i : Fin 10,
        (aeval (L1Z.map (Int.cast : ℤ → ℝ)) filterPoly i a - (gradZ i a : ℝ) / 79) ^ 2) :
    aeval (L1Z.map (Int.cast : ℤ → ℝ)) p = aeval (L1Z.map (Int.cast : ℤ → ℝ)) filterPoly := by
  set L := L1Z.map (Int.cast : ℤ → ℝ) with hL
  have horth : ∀ k, ∑ a : Fin 10, ∑ i : Fin 10,
      powZ k i a * (79 * filterZ i a - 180935 * gradZ i a) = 0 := by decide +kernel
  have hS : ∀ i a, aeval L filterPoly i a - (gradZ i a : ℝ) / 79 =
      ((79 * filterZ i a - 180935 * gradZ i a : ℤ) : ℝ) / (79 * 180935) := by
    intro i a
    rw [hL, filterPoly_eq]
    push_cast
    ring
  have hD : ∀ i a, aeval L p i a - aeval L filterPoly i a =
      ∑ k : Fin 4, (p - filterPoly).coeff k * (powZ k i a : ℝ) := by
    intro i a
    rw [← Matrix.sub_apply, ← map_sub, aeval_eq_sum_range' (n := 4), Matrix.sum_apply, Finset.sum_range]
    · refine Finset.sum_congr rfl fun k _ => ?_
      rw [Matrix.smul_apply, hL, pow_eq]
      rfl
    · exact lt_of_le_of_lt (natDegree_sub_le _ _) (by have := filterPoly_deg; omega)
  have hcross : ∑ a : Fin 10, ∑ i : Fin 10, (aeval L p i a - aeval L filterPoly i a) *
      (aeval L filterPoly i a - (gradZ i a : ℝ) / 79) = 0 := by
    have : ∀ a i, (aeval L p i a - aeval L filterPoly i a) * (aeval L filterPoly i a - (gradZ i a : ℝ) / 79) =
        ∑ k : Fin 4, (p - filterPoly).coeff k / (79 * 180935) *
          ((powZ k i a * (79 * filterZ i a - 180935 * gradZ i a) : ℤ) : ℝ) := by
      intro a i
      rw [hD, hS, Finset.sum_mul]
      refine Finset.sum_congr rfl fun k _ => ?_
      push_cast
      ring
    simp only [this]
    have hsw : ∀ F : Fin 10 → Fin 10 → Fin 4 → ℝ, ∑ a, ∑ i, ∑ k, F a i k = ∑ k, ∑ a, ∑ i, F a i k := by
      intro F
      exact (Finset.sum_congr rfl fun a _ => Finset.sum_comm).trans Finset.sum_comm
    rw [hsw]
    refine Finset.sum_eq_zero fun k _ => ?_
    simp only [← Finset.mul_sum]
    have := horth k
    have h2 : ((∑ a : Fin 10, ∑ i : Fin 10, powZ k i a * (79 * filterZ i a - 180935 * gradZ i a) : ℤ) : ℝ) = 0 := by
      rw [this]; simp
    have h3 : ∑ a : Fin 10, ∑ i : Fin 10, ((powZ k i a * (79 * filterZ i a - 180935 * gradZ i a) : ℤ) : ℝ) = 0 := by
      rw [← h2]; push_cast; rfl
    rw [h3, mul_zero]
  have hsq : ∑ a : Fin 10, ∑ i : Fin 10, (aeval L p i a - aeval L filterPoly i a) ^ 2 ≤ 0 := by
    have hexp : ∑ a : Fin 10, ∑ i : Fin 10, (aeval L p i a - (gradZ i a : ℝ) / 79) ^ 2 =
        ∑ a : Fin 10, ∑ i : Fin 10, (aeval L p i a - aeval L filterPoly i a) ^ 2 +
        2 * (∑ a : Fin 10, ∑ i : Fin 10, (aeval L p i a - aeval L filterPoly i a) *
          (aeval L filterPoly i a - (gradZ i a : ℝ) / 79)) +
        ∑ a : Fin 10, ∑ i : Fin 10, (aeval L filterPoly i a - (gradZ i a : ℝ) / 79) ^ 2 := by
      simp only [Finset.mul_sum, ← Finset.sum_add_distrib]
      exact Finset.sum_congr rfl fun a _ => Finset.sum_congr rfl fun i _ => by ring
    rw [hexp, hcross] at hle
    linarith
  ext i a
  have h1 : ∑ i : Fin 10, (aeval L p i a - aeval L filterPoly i a) ^ 2 ≤ 0 :=
    (Finset.single_le_sum (f := fun a => ∑ i : Fin 10, (aeval L p i a - aeval L filterPoly i a) ^ 2)
      (fun b _ => Finset.sum_nonneg fun i _ => sq_nonneg _) (Finset.mem_univ a)).trans hsq
  have h2 : (aeval L p i a - aeval L filterPoly i a) ^ 2 ≤ 0 :=
    (Finset.single_le_sum (f := fun i => (aeval L p i a - aeval L filterPoly i a) ^ 2)
      (fun b _ => sq_nonneg _) (Finset.mem_univ i)).trans h1
  have h3 := pow_eq_zero_iff (two_ne_zero) |>.1 (le_antisymm h2 (sq_nonneg _))
  linarith

theorem unit_orthonormal (a b : Fin 10) :
    (Pi.single (M := fun _ : Fin 10 => ℝ) a 1) ⬝ᵥ (Pi.single (M := fun _ : Fin 10 => ℝ) b 1) =
      if a = b then 1 else 0 := by
  rw [single_one_dotProduct, Pi.single_apply]

/-- the estimate of the filter of size 4 -/
def typeOneEst : Fin 10 → ℚ := fun i => mv filterZ fMock i / 180935

/-- `test_subcomp_extract_type_one_gradient_f_est` -/
theorem typeOneGradient (lib : NumLib) : ∃ st' x,
    LSFilter.typeOne lib paper (initFilter _) (rv fMock) "gradient" 4 = (.ok (), st') ∧
    st'.history.get? "f_estimated" = some (.vec x) ∧
    ∀ i, npRound (x i) 2 = rv ![1.86, -0.09, 1.11, -1.25, 1.36, 1.37, 0.25, 0.32, 0.51, 0.85] i := by
  obtain ⟨st', h⟩ := (C159_returns (lib := lib) paper_wellFormed (initFilter _) (rv fMock) "gradient" 4).2
    ⟨by decide, by simp, by norm_num⟩
  obtain ⟨H, hH, hbest⟩ := C159_best paper_wellFormed paper_gap _ _ _ _ _ h
  obtain ⟨U, w, t, mask, -, -, -, -, p, hp, hfil, hest, -⟩ := C51_type_one _ _ _ _ _ h
  refine ⟨st', _, h, hest, ?_⟩
  rw [hfil] at hH
  obtain rfl : aeval paper.L1 (p ((4 : Int).toNat - 1)) = H := by simpa using hH
  have hb := hbest filterPoly (by have := filterPoly_deg; omega)
    (fun a => Pi.single (M := fun _ : Fin 10 => ℝ) a 1) (fun a i => (gradZ i a : ℝ) / 79) (by
      exact unit_orthonormal) (gradUnit lib)
  rw [L1_eq] at hb ⊢
  have hcol : ∀ (M : Matrix (Fin 10) (Fin 10) ℝ) (a i : Fin 10),
      M.mulVec (Pi.single (M := fun _ : Fin 10 => ℝ) a 1) i = M i a := by
    intro M a i
    rw [mulVec_single_one]
    rfl
  have hu := filter_unique (p 3) ((hp 3 (by decide)).1) (by
    refine le_trans (le_of_eq ?_) (hb.trans (le_of_eq ?_))
    · exact Finset.sum_congr rfl fun a _ => Finset.sum_congr rfl fun i _ => by
        exact congrArg (fun x => (x - (gradZ i a : ℝ) / 79) ^ 2) (hcol _ a i).symm
    · exact Finset.sum_congr rfl fun a _ => Finset.sum_congr rfl fun i _ => by
        exact congrArg (fun x => (x - (gradZ i a : ℝ) / 79) ^ 2) (hcol _ a i))
  have hx : (aeval (L1Z.map (Int.cast : ℤ → ℝ)) (p 3)).mulVec (rv fMock) = rv typeOneEst := by
    rw [hu]
    funext i
    simp only [mulVec, dotProduct, filterPoly_eq, rv, typeOneEst, mv]
    push_cast
    rw [Finset.sum_div]
    exact Finset.sum_congr rfl fun j _ => by ring
  have hr : RoundsTo typeOneEst ![186, -9, 111, -125, 136, 137, 25, 32, 51, 85] := by decide +kernel
  intro i
  refine (congrArg (fun x => npRound x 2) (congrFun hx i)).trans ?_
  refine (hr.eq i).trans (congrFun (rv_eq (n := 10) ?_) i)
  decide +kernel

end Pytspl.Validation
