import Verif.Props.TrendFilter
import Verif.Props.Hodge
import Verif.Props.EdgeLaplacian
import Mathlib.LinearAlgebra.Basis.VectorSpace

/-!
# C133, C134: what the l1 trend filter returns, and what its weight does
-/

namespace Pytspl

open Matrix

variable {m n : ℕ}

/-! ## Minimisers -/

/-- no flow is better than `x` -/
def Best (y : Fin n → ℝ) (S : Matrix (Fin m) (Fin n) ℝ) (mu : ℝ) (x : Fin n → ℝ) : Prop :=
  ∀ z : Fin n → ℝ, norm2 (y - x) + mu * norm1 (S.mulVec x) ≤ norm2 (y - z) + mu * norm1 (S.mulVec z)

theorem norm1_add_le (a b : Fin n → ℝ) : norm1 (a + b) ≤ norm1 a + norm1 b := by
  unfold norm1
  rw [← Finset.sum_add_distrib]
  exact Finset.sum_le_sum fun i _ => abs_add_le _ _

private theorem norm1_smul (c : ℝ) (a : Fin n → ℝ) : norm1 (c • a) = |c| * norm1 a := by
  unfold norm1
  rw [Finset.mul_sum]
  exact Finset.sum_congr rfl fun i _ => by rw [Pi.smul_apply, smul_eq_mul, abs_mul]

private theorem norm1_eq_zero {a : Fin n → ℝ} (h : norm1 a = 0) : a = 0 := by
  funext i
  have := (Finset.sum_eq_zero_iff_of_nonneg fun i _ => abs_nonneg (a i)).1 h i (Finset.mem_univ i)
  exact abs_eq_zero.1 this

/-- two vectors whose lengths add up have the same direction -/
private theorem ray_of_norm {a b : Fin n → ℝ} (h : norm2 a + norm2 b ≤ norm2 (a + b)) :
    norm2 b • a = norm2 a • b := by
  have hab : norm2 a * norm2 b ≤ a ⬝ᵥ b := by
    have h1 : (norm2 a + norm2 b) ^ 2 ≤ norm2 (a + b) ^ 2 :=
      pow_le_pow_left₀ (add_nonneg (norm2_nonneg _) (norm2_nonneg _)) h 2
    rw [norm2_sq, dot_add_sq, add_sq, norm2_sq, norm2_sq] at h1
    linarith
  have h2 : (norm2 b • a - norm2 a • b) ⬝ᵥ (norm2 b • a - norm2 a • b) ≤ 0 := by
    rw [sub_dotProduct, dotProduct_sub, dotProduct_sub, smul_dotProduct, smul_dotProduct, smul_dotProduct,
      smul_dotProduct, dotProduct_smul, dotProduct_smul, dotProduct_smul, dotProduct_smul, ← norm2_sq a, ← norm2_sq b,
      dotProduct_comm b a]
    simp only [smul_eq_mul]
    have := mul_le_mul_of_nonneg_left hab (mul_nonneg (norm2_nonneg a) (norm2_nonneg b))
    nlinarith
  have h3 : norm2 (norm2 b • a - norm2 a • b) = 0 := by
    rw [norm2, Real.sqrt_eq_zero']
    exact h2
  exact sub_eq_zero.1 (norm2_eq_zero.1 h3)

theorem best_ray {y : Fin n → ℝ} {S : Matrix (Fin m) (Fin n) ℝ} {mu : ℝ} (hmu : 0 ≤ mu) {x x' : Fin n → ℝ}
    (h : Best y S mu x) (h' : Best y S mu x') :
    norm2 (y - x) + mu * norm1 (S.mulVec x) = norm2 (y - x') + mu * norm1 (S.mulVec x') ∧
    (x = y ∨ x' = y ∨ ∃ c : ℝ, 0 < c ∧ y - x' = c • (y - x)) := by
  have e := le_antisymm (h x') (h' x)
  refine ⟨e, ?_⟩
  have hm := h ((1 / 2 : ℝ) • (x + x'))
  have e1 : y - (1 / 2 : ℝ) • (x + x') = (1 / 2 : ℝ) • ((y - x) + (y - x')) := by
    ext i
    simp only [Pi.sub_apply, Pi.smul_apply, Pi.add_apply, smul_eq_mul]
    ring
  have e2 : norm1 (S.mulVec ((1 / 2 : ℝ) • (x + x'))) ≤ 1 / 2 * (norm1 (S.mulVec x) + norm1 (S.mulVec x')) := by
    rw [mulVec_smul, mulVec_add, norm1_smul, abs_of_nonneg (by norm_num)]
    exact mul_le_mul_of_nonneg_left (norm1_add_le _ _) (by norm_num)
  rw [e1, norm2_smul, abs_of_nonneg (by norm_num : (0 : ℝ) ≤ 1 / 2)] at hm
  have e3 := mul_le_mul_of_nonneg_left e2 hmu
  have hr := ray_of_norm (a := y - x) (b := y - x') (by nlinarith)
  by_cases h0 : x = y
  · exact .inl h0
  by_cases h1 : x' = y
  · exact .inr (.inl h1)
  have p0 : 0 < norm2 (y - x) :=
    lt_of_le_of_ne (norm2_nonneg _) fun hh => h0 (sub_eq_zero.1 (norm2_eq_zero.1 hh.symm)).symm
  have p1 : 0 < norm2 (y - x') :=
    lt_of_le_of_ne (norm2_nonneg _) fun hh => h1 (sub_eq_zero.1 (norm2_eq_zero.1 hh.symm)).symm
  refine .inr (.inr ⟨norm2 (y - x') / norm2 (y - x), div_pos p1 p0, ?_⟩)
  rw [div_eq_inv_mul, mul_smul, hr, smul_smul, inv_mul_cancel₀ p0.ne', one_smul]

private theorem best_small {y : Fin n → ℝ} {S : Matrix (Fin m) (Fin n) ℝ} {mu : ℝ} (hmu : 0 ≤ mu) {D : ℝ}
    (hD : ∀ d, norm1 (S.mulVec d) ≤ D * norm2 d) (h1 : mu * D < 1) {x : Fin n → ℝ} (h : Best y S mu x) : x = y := by
  have hz := h y
  rw [sub_self, show norm2 (0 : Fin n → ℝ) = 0 from norm2_eq_zero.2 rfl, zero_add] at hz
  have h2 : norm1 (S.mulVec y) ≤ norm1 (S.mulVec x) + norm1 (S.mulVec (y - x)) := by
    have := norm1_add_le (S.mulVec x) (S.mulVec (y - x))
    rwa [← mulVec_add, add_sub_cancel] at this
  have h3 := mul_le_mul_of_nonneg_left h2 hmu
  have h4 := mul_le_mul_of_nonneg_left (hD (y - x)) hmu
  have h5 : norm2 (y - x) ≤ mu * D * norm2 (y - x) := by nlinarith
  have h6 : norm2 (y - x) = 0 := by
    by_contra hne
    have hp : 0 < norm2 (y - x) := lt_of_le_of_ne (norm2_nonneg _) (Ne.symm hne)
    nlinarith
  exact (sub_eq_zero.1 (norm2_eq_zero.1 h6)).symm

/-- a linear map without kernel is bounded below -/
theorem bounded_below (S : Matrix (Fin m) (Fin n) ℝ) {p : ℕ} (B : Matrix (Fin n) (Fin p) ℝ)
    (hS : ∀ v, S.mulVec (B.mulVec v) = 0 → B.mulVec v = 0) :
    ∃ C : ℝ, 0 ≤ C ∧ ∀ v, norm2 (B.mulVec v) ≤ C * norm1 (S.mulVec (B.mulVec v)) := by
  let f := (Matrix.mulVecLin S).domRestrict (LinearMap.range (Matrix.mulVecLin B))
  have hf : LinearMap.ker f = ⊥ := by
    rw [LinearMap.ker_eq_bot']
    rintro ⟨v, w, rfl⟩ hv
    exact Subtype.ext (hS w hv)
  obtain ⟨g, hg⟩ := LinearMap.exists_leftInverse_of_injective f hf
  refine ⟨∑ i, norm2 (g (Pi.single i 1) : Fin n → ℝ), Finset.sum_nonneg fun i _ => norm2_nonneg _, fun v => ?_⟩
  have h1 : B.mulVec v = (g (S.mulVec (B.mulVec v)) : Fin n → ℝ) := by
    have := LinearMap.congr_fun hg ⟨B.mulVec v, v, rfl⟩
    exact (congrArg Subtype.val this).symm
  set u := S.mulVec (B.mulVec v) with hu
  have h2 : (g u : Fin n → ℝ) = ∑ i, u i • (g (Pi.single i 1) : Fin n → ℝ) := by
    have e : u = ∑ i, u i • (Pi.single i 1 : Fin m → ℝ) := by
      ext j
      rw [Finset.sum_apply]
      simp [Pi.single_apply]
    conv_lhs => rw [e, map_sum]
    rw [AddSubmonoidClass.coe_finsetSum]
    exact Finset.sum_congr rfl fun i _ => by rw [map_smul]; rfl
  rw [h1, h2]
  have h3 : ∀ (s : Finset (Fin m)), norm2 (∑ i ∈ s, u i • (g (Pi.single i 1) : Fin n → ℝ)) ≤
      ∑ i ∈ s, |u i| * norm2 (g (Pi.single i 1) : Fin n → ℝ) := by
    intro s
    induction s using Finset.induction_on with
    | empty => simp [norm2]
    | insert a s ha ih =>
      rw [Finset.sum_insert ha, Finset.sum_insert ha]
      refine (norm2_add_le _ _).trans ?_
      rw [norm2_smul]
      linarith
  refine (h3 _).trans ?_
  unfold norm1
  rw [Finset.mul_sum]
  refine Finset.sum_le_sum fun i _ => ?_
  rw [mul_comm]
  exact mul_le_mul_of_nonneg_right (Finset.single_le_sum (f := fun i => norm2 (g (Pi.single i 1) : Fin n → ℝ))
    (fun i _ => norm2_nonneg _) (Finset.mem_univ i)) (abs_nonneg _)

/-- above the weight at which the penalty dominates, the minimiser is the projection -/
theorem best_large {y g : Fin n → ℝ} {S : Matrix (Fin m) (Fin n) ℝ} {p : ℕ} {B : Matrix (Fin n) (Fin p) ℝ}
    (hS : ∀ f, S.mulVec f = 0 ↔ B.transpose.mulVec f = 0) (hg : IsProj B y g) (lib : NumLib) {C : ℝ}
    (hC : ∀ v, norm2 (B.mulVec v) ≤ C * norm1 (S.mulVec (B.mulVec v))) {mu : ℝ} (hmu : C < mu) {x : Fin n → ℝ}
    (h : Best y S mu x) : x = y - g := by
  obtain ⟨⟨w, rfl⟩, hg2⟩ := hg
  obtain ⟨⟨v, hv⟩, hx2⟩ := lib.isProj B x
  set r := B.mulVec (lib.lstsq _ _ B x) with hr
  have k1 : S.mulVec (y - B.mulVec w) = 0 := by rw [hS, mulVec_sub, hg2, sub_self]
  have k2 : S.mulVec (x - r) = 0 := by rw [hS, mulVec_sub, hx2, sub_self]
  have e1 : S.mulVec x = S.mulVec r := by
    rw [mulVec_sub] at k2
    exact sub_eq_zero.1 k2
  have hz := h (y - B.mulVec w)
  rw [k1, show norm1 (0 : Fin m → ℝ) = 0 by simp [norm1], mul_zero, add_zero, sub_sub_cancel, e1] at hz
  -- the two parts of the residual are orthogonal
  have ho : (y - B.mulVec w - (x - r)) ⬝ᵥ (B.mulVec w - r) = 0 := by
    have : B.mulVec w - r = B.mulVec (w - lib.lstsq _ _ B x) := by rw [mulVec_sub]
    rw [this, dotProduct_mulVec, ← mulVec_transpose]
    have hB : B.transpose.mulVec (y - B.mulVec w - (x - r)) = 0 := by
      rw [mulVec_sub, mulVec_sub, mulVec_sub, hg2, hx2]
      simp
    rw [hB, zero_dotProduct]
  have hsplit : y - x = (y - B.mulVec w - (x - r)) + (B.mulVec w - r) := by abel
  have hpy : norm2 (y - x) ^ 2 = norm2 (y - B.mulVec w - (x - r)) ^ 2 + norm2 (B.mulVec w - r) ^ 2 := by
    rw [hsplit, norm2_sq, dot_add_sq, ho, norm2_sq, norm2_sq]
    ring
  have hle : norm2 (B.mulVec w - r) ≤ norm2 (y - x) := by
    apply le_of_sq_le_sq _ (norm2_nonneg _)
    nlinarith [sq_nonneg (norm2 (y - B.mulVec w - (x - r)))]
  have htri : norm2 (B.mulVec w) ≤ norm2 (B.mulVec w - r) + norm2 r := by
    have := norm2_add_le (B.mulVec w - r) r
    rwa [sub_add_cancel] at this
  have hCr : norm2 r ≤ C * norm1 (S.mulVec r) := hC _
  have hn1 := norm1_nonneg (S.mulVec r)
  have hs0 : norm1 (S.mulVec r) = 0 := by
    by_contra hne
    have hp : 0 < norm1 (S.mulVec r) := lt_of_le_of_ne hn1 (Ne.symm hne)
    nlinarith
  have hr0 : r = 0 := by
    rw [hs0, mul_zero] at hCr
    exact norm2_eq_zero.1 (le_antisymm hCr (norm2_nonneg _))
  rw [hr0, mulVec_zero, show norm1 (0 : Fin m → ℝ) = 0 by simp [norm1], mul_zero, add_zero] at hz
  rw [hr0] at hpy
  rw [sub_zero, sub_zero] at hpy
  have h7 : norm2 (y - B.mulVec w - x) ^ 2 ≤ 0 := by
    have := pow_le_pow_left₀ (norm2_nonneg _) hz 2
    linarith
  have h8 : norm2 (y - B.mulVec w - x) = 0 := by
    have := sq_nonneg (norm2 (y - B.mulVec w - x))
    exact pow_eq_zero_iff (two_ne_zero) |>.1 (le_antisymm h7 this)
  exact (sub_eq_zero.1 (norm2_eq_zero.1 h8)).symm


/-! ## C133: is the result determined? -/

theorem run_best (cvx : CvxSolver) {sc : SC ℝ} (hE : 0 < sc.E) {st st' : TrendHistory sc.E}
    {flow : Fin sc.E → ℝ} {component : String} (hc : component = "divergence" ∨ component = "curl") {realisations : ℕ}
    {snrDb : List ℝ} {order : ℕ} {mu : ℝ} (hmu : 0 ≤ mu) {noise : ℕ → ℕ → Fin sc.E → ℝ}
    (h : sc.denoisingL1 cvx st flow component realisations snrDb order mu noise = (.ok (), st')) {k : ℕ}
    {S : Matrix (Fin k) (Fin sc.E) ℝ} (hS : sc.getShiftOperator component order = .ok ⟨k, S⟩) {i j : ℕ} {db : ℝ}
    {x : Fin sc.E → ℝ} (hi : snrDb[i]? = some db) (hj : j < realisations) (hx : Stored st' i j x) :
    Best (noisy flow db (noise i j)) S mu x := by
  obtain ⟨st2, m, S', h1, h2, -, h3⟩ := C68_minimiser cvx sc hE st flow component hc realisations snrDb order mu hmu noise
  rw [h] at h1
  rw [hS] at h2
  cases h1
  cases h2
  exact h3 i j db x hi hj hx

/-- C133: two calls of the l1 filter with the same arguments and the same noise, each with its own correct solver.
The flows they store are equally good, and seen from the noisy flow they lie in the same direction: one of them is the
noisy flow itself, or one deviation is a positive multiple of the other.  What is missing: that they are equal
(`C133_counterexample`). -/
theorem C133_direction_partial (cvx cvx' : CvxSolver) (sc : SC ℝ) (hE : 0 < sc.E) (st st1 st2 : TrendHistory sc.E)
    (flow : Fin sc.E → ℝ) (component : String) (hc : component = "divergence" ∨ component = "curl") (realisations : ℕ)
    (snrDb : List ℝ) (order : ℕ) (mu : ℝ) (hmu : 0 ≤ mu) (noise : ℕ → ℕ → Fin sc.E → ℝ)
    (h1 : sc.denoisingL1 cvx st flow component realisations snrDb order mu noise = (.ok (), st1))
    (h2 : sc.denoisingL1 cvx' st flow component realisations snrDb order mu noise = (.ok (), st2)) (i j : ℕ) (db : ℝ)
    (x x' : Fin sc.E → ℝ) (hi : snrDb[i]? = some db) (hj : j < realisations) (hx : Stored st1 i j x)
    (hx' : Stored st2 i j x') :
    (∃ k S, sc.getShiftOperator component order = .ok ⟨k, S⟩ ∧
      norm2 (noisy flow db (noise i j) - x) + mu * norm1 (S.mulVec x) =
        norm2 (noisy flow db (noise i j) - x') + mu * norm1 (S.mulVec x')) ∧
    (x = noisy flow db (noise i j) ∨ x' = noisy flow db (noise i j) ∨
      ∃ c : ℝ, 0 < c ∧ noisy flow db (noise i j) - x' = c • (noisy flow db (noise i j) - x)) := by
  obtain ⟨k, S, hS, -⟩ := shift_ok sc component order
  obtain ⟨e1, e2⟩ := best_ray hmu (run_best cvx hE hc hmu h1 hS hi hj hx) (run_best cvx' hE hc hmu h2 hS hi hj hx')
  exact ⟨⟨k, S, hS, e1⟩, e2⟩

/-- one edge between two nodes -/
private noncomputable def oneEdge : SC ℝ :=
  SC.ofInt [0, 1] [(0, 1)] [] (!![-1; 1] : Matrix (Fin 2) (Fin 1) ℤ) (0 : Matrix (Fin 1) (Fin 0) ℤ)

private theorem oneEdge_wellFormed : oneEdge.WellFormed := by
  refine ⟨SC.ofInt_built (okEq_spec (by decide +kernel)) (okEq_spec (by decide +kernel)), ?_, ?_, ?_⟩
  · show EdgesInRange 2 [(0, 1)]
    decide
  · show NoLoops [(0, 1)]
    decide
  · intro t ht
    have ht' : t ∈ ([] : List (List Int)) := ht
    cases ht'

open Classical in
/-- a solver that returns `a` wherever the constant vector `a` is a correct answer -/
private noncomputable def prefer (cvx : CvxSolver) (a : ℝ) : CvxSolver where
  argmin m n y S mu obs :=
    if (∀ i ∈ obs, a = y i) ∧ ∀ x : Fin n → ℝ, (∀ i ∈ obs, x i = y i) →
      stfObjective y S mu (fun _ => a) ≤ stfObjective y S mu x then fun _ => a else cvx.argmin m n y S mu obs
  feasible m n y S mu obs hmu i hi := by
    split_ifs with h
    · exact h.1 i hi
    · exact cvx.feasible m n y S mu obs hmu i hi
  minimal m n y S mu obs hmu x hx := by
    split_ifs with h
    · exact h.2 x hx
    · exact cvx.minimal m n y S mu obs hmu x hx

private theorem norm2_one (v : Fin 1 → ℝ) : norm2 v = |v 0| := by
  rw [norm2, dotProduct, Fin.sum_univ_one, Real.sqrt_mul_self_eq_abs]

private theorem oneEdge_objective (y x : Fin 1 → ℝ) (mu : ℝ) :
    norm2 (y - x) + mu * norm1 (((!![-1; 1] : Matrix (Fin 2) (Fin 1) ℤ).map (Int.cast : ℤ → ℝ)).mulVec x) =
      |y 0 - x 0| + mu * (2 * |x 0|) := by
  have e : norm1 (((!![-1; 1] : Matrix (Fin 2) (Fin 1) ℤ).map (Int.cast : ℤ → ℝ)).mulVec x) = 2 * |x 0| := by
    simp only [norm1, Fin.sum_univ_two, mulVec, dotProduct, Fin.sum_univ_one]
    simp
    ring
  rw [norm2_one, e, Pi.sub_apply]

private theorem oneEdge_run (cvx : CvxSolver) (a : ℝ) (h0 : 0 ≤ a) (h1 : a ≤ 1) (st : TrendHistory oneEdge.E) :
    ∃ st', oneEdge.denoisingL1 (prefer cvx a) st (fun _ => 1) "divergence" 1 [0] (0 : ℕ) (1 / 2) (fun _ _ => 0) =
      (.ok (), st') ∧ Stored st' 0 0 fun _ => a := by
  have hS : oneEdge.getShiftOperator "divergence" ((0 : ℕ) : Int) = .ok ⟨oneEdge.N, oneEdge.B1⟩ := rfl
  obtain ⟨st', e1, -, e2⟩ := denoisingL1_run (prefer cvx a) oneEdge (by show 0 < 1; norm_num) st (fun _ => 1)
    "divergence" (.inl rfl) 1 [0] 0 (1 / 2) (by norm_num) (fun _ _ => 0) hS
  refine ⟨st', e1, ?_⟩
  rw [e2 0 0 0 _ rfl one_pos]
  have hy : noisy (fun _ => 1 : Fin oneEdge.E → ℝ) 0 0 = fun _ => 1 := by
    funext k
    simp [noisy]
  rw [hy]
  refine (if_pos ⟨by simp, fun x _ => ?_⟩).symm
  have e3 := oneEdge_objective (fun _ => 1) (fun _ => a) (1 / 2)
  have e4 := oneEdge_objective (fun _ => 1) x (1 / 2)
  refine le_of_eq_of_le e3 (le_of_le_of_eq ?_ e4.symm)
  rw [abs_of_nonneg (sub_nonneg.2 h1), abs_of_nonneg h0]
  have := abs_add_le (1 - x (0 : Fin 1)) (x (0 : Fin 1))
  rw [sub_add_cancel, abs_one] at this
  linarith

/-- C133: on the network with a single edge, with the default weight 0.5, no noise and the flow 1, one correct solver
makes the filter store 0 and another one makes it store 1: the objective does not determine the result. -/
theorem C133_counterexample : ∃ (sc : SC ℝ) (cvx cvx' : CvxSolver) (flow : Fin sc.E → ℝ)
    (noise : ℕ → ℕ → Fin sc.E → ℝ), sc.WellFormed ∧ 0 < sc.E ∧ ∀ st : TrendHistory sc.E, ∃ st1 st2,
      sc.denoisingL1 cvx st flow "divergence" 1 [0] 0 (1 / 2) noise = (.ok (), st1) ∧
      sc.denoisingL1 cvx' st flow "divergence" 1 [0] 0 (1 / 2) noise = (.ok (), st2) ∧
      ∃ x x', Stored st1 0 0 x ∧ Stored st2 0 0 x' ∧ ∀ k, x k = 0 ∧ x' k = 1 := by
  obtain ⟨cvx⟩ := exists_cvxSolver
  refine ⟨oneEdge, prefer cvx 0, prefer cvx 1, fun _ => 1, fun _ _ => 0, oneEdge_wellFormed, by show 0 < 1; norm_num,
    fun st => ?_⟩
  obtain ⟨st1, a1, a2⟩ := oneEdge_run cvx 0 le_rfl zero_le_one st
  obtain ⟨st2, b1, b2⟩ := oneEdge_run cvx 1 zero_le_one le_rfl st
  exact ⟨st1, st2, a1, b1, _, _, a2, b2, fun k => ⟨rfl, rfl⟩⟩

/-! ## C134: the weight -/

theorem norm1_mulVec_le (S : Matrix (Fin m) (Fin n) ℝ) {c : ℝ} (hc : ∀ j, ∑ i, |S i j| ≤ c)
    (d : Fin n → ℝ) : norm1 (S.mulVec d) ≤ c * norm1 d := by
  have hm : ∀ i, S.mulVec d i = ∑ j, S i j * d j := fun i => rfl
  unfold norm1
  calc ∑ i, |S.mulVec d i| ≤ ∑ i, ∑ j, |S i j| * |d j| := by
        refine Finset.sum_le_sum fun i _ => ?_
        rw [hm]
        refine (Finset.abs_sum_le_sum_abs _ _).trans (le_of_eq ?_)
        exact Finset.sum_congr rfl fun j _ => abs_mul _ _
    _ = ∑ j, (∑ i, |S i j|) * |d j| := by
        rw [Finset.sum_comm]
        exact Finset.sum_congr rfl fun j _ => by rw [Finset.sum_mul]
    _ ≤ ∑ j, c * |d j| := Finset.sum_le_sum fun j _ => mul_le_mul_of_nonneg_right (hc j) (abs_nonneg _)
    _ = c * ∑ j, |d j| := by rw [Finset.mul_sum]

private theorem norm1_le_sqrt (d : Fin n → ℝ) : norm1 d ≤ √n * norm2 d := by
  have h := dot_le_norm2 (fun i => |d i|) (fun _ => (1 : ℝ))
  have e1 : (fun i => |d i|) ⬝ᵥ (fun _ => (1 : ℝ)) = norm1 d := by simp [dotProduct, norm1]
  have e2 : norm2 (fun i => |d i|) = norm2 d := by
    rw [norm2, norm2]
    congr 1
    exact Finset.sum_congr rfl fun i _ => abs_mul_abs_self _
  have e3 : norm2 (fun _ : Fin n => (1 : ℝ)) = √n := by simp [norm2, dotProduct]
  rw [e1, e2, e3] at h
  linarith

theorem norm1_bound (S : Matrix (Fin m) (Fin n) ℝ) {c : ℝ} (h0 : 0 ≤ c) (hc : ∀ j, ∑ i, |S i j| ≤ c)
    (d : Fin n → ℝ) : norm1 (S.mulVec d) ≤ c * √n * norm2 d := by
  rw [mul_assoc]
  exact (norm1_mulVec_le S hc d).trans (mul_le_mul_of_nonneg_left (norm1_le_sqrt d) h0)

theorem b1_column {sc : SC ℝ} (hb : sc.Built) (j : Fin sc.E) : ∑ i, |sc.B1 i j| ≤ 2 := by
  obtain ⟨u, v, -, -, h⟩ := edgesToB1_ok_entry hb.b1 j
  calc ∑ i, |sc.B1 i j| ≤ ∑ i, ((if i = v then (1 : ℝ) else 0) + if i = u then 1 else 0) := by
        refine Finset.sum_le_sum fun i _ => ?_
        rw [h i]
        split_ifs <;> norm_num
    _ = 2 := by
        rw [Finset.sum_add_distrib, Finset.sum_ite_eq', Finset.sum_ite_eq']
        norm_num

private theorem b2_row {sc : SC ℝ} (hb : sc.Built) (j : Fin sc.E) : ∑ t, |sc.B2.transpose t j| ≤ sc.T := by
  calc ∑ t, |sc.B2.transpose t j| ≤ ∑ _t : Fin sc.T, (1 : ℝ) := by
        refine Finset.sum_le_sum fun t _ => ?_
        obtain ⟨a, b, c, ia, ib, ic, -, -, -, -, h⟩ := hb.tri_entry t
        rw [transpose_apply, h j]
        split_ifs <;> norm_num
    _ = sc.T := by simp

/-- C134: for every complex, component and order there is a positive weight below which the filter does nothing: each
stored flow is the noisy flow. -/
theorem C134_small (sc : SC ℝ) (hE : 0 < sc.E) (component : String) (hc : component = "divergence" ∨ component = "curl")
    (order : ℕ) : ∃ w : ℝ, 0 < w ∧ ∀ (cvx : CvxSolver) (st st' : TrendHistory sc.E) (flow : Fin sc.E → ℝ)
      (realisations : ℕ) (snrDb : List ℝ) (mu : ℝ) (noise : ℕ → ℕ → Fin sc.E → ℝ), 0 ≤ mu → mu < w →
      sc.denoisingL1 cvx st flow component realisations snrDb order mu noise = (.ok (), st') →
      ∀ (i j : ℕ) (db : ℝ) (x : Fin sc.E → ℝ), snrDb[i]? = some db → j < realisations → Stored st' i j x →
        x = noisy flow db (noise i j) := by
  obtain ⟨k, S, hS, -⟩ := shift_ok sc component order
  set c := ∑ i, ∑ j, |S i j| with hcd
  have hc0 : 0 ≤ c := Finset.sum_nonneg fun i _ => Finset.sum_nonneg fun j _ => abs_nonneg _
  have hcol : ∀ j, ∑ i, |S i j| ≤ c := fun j => Finset.sum_le_sum fun i _ =>
    Finset.single_le_sum (f := fun j => |S i j|) (fun j _ => abs_nonneg _) (Finset.mem_univ j)
  have hp : 0 < c * √sc.E + 1 := by positivity
  refine ⟨1 / (c * √sc.E + 1), by positivity, fun cvx st st' flow realisations snrDb mu noise hmu hw h i j db x hi hj hx => ?_⟩
  refine best_small hmu (norm1_bound S hc0 hcol) ?_ (run_best cvx hE hc hmu h hS hi hj hx)
  rw [lt_div_iff₀ hp] at hw
  nlinarith

/-- C134: an explicit bound for order 0.  Divergence: `2 mu sqrt(E) < 1` is small enough, curl: `mu T sqrt(E) < 1`. -/
theorem C134_small_order_zero (cvx : CvxSolver) (sc : SC ℝ) (hb : sc.Built) (hE : 0 < sc.E)
    (st st' : TrendHistory sc.E) (flow : Fin sc.E → ℝ) (component : String)
    (hc : component = "divergence" ∨ component = "curl") (realisations : ℕ) (snrDb : List ℝ) (mu : ℝ) (hmu : 0 ≤ mu)
    (hd : component = "divergence" → 2 * mu * √sc.E < 1) (hcu : component = "curl" → mu * sc.T * √sc.E < 1)
    (noise : ℕ → ℕ → Fin sc.E → ℝ)
    (h : sc.denoisingL1 cvx st flow component realisations snrDb 0 mu noise = (.ok (), st')) (i j : ℕ) (db : ℝ)
    (x : Fin sc.E → ℝ) (hi : snrDb[i]? = some db) (hj : j < realisations) (hx : Stored st' i j x) :
    x = noisy flow db (noise i j) := by
  rcases hc with rfl | rfl
  · have hS : sc.getShiftOperator "divergence" ((0 : ℕ) : Int) = .ok ⟨sc.N, sc.B1⟩ := rfl
    refine best_small hmu (norm1_bound _ (by norm_num) (b1_column hb)) ?_
      (run_best cvx hE (.inl rfl) hmu (order := 0) h hS hi hj hx)
    have := hd rfl
    linarith
  · have hS : sc.getShiftOperator "curl" ((0 : ℕ) : Int) = .ok ⟨sc.T, sc.B2.transpose⟩ := by
      simp [SC.getShiftOperator]
    refine best_small hmu (norm1_bound _ (Nat.cast_nonneg _) (b2_row hb)) ?_
      (run_best cvx hE (.inr rfl) hmu (order := 0) h hS hi hj hx)
    have := hcu rfl
    rw [← mul_assoc]
    exact this

/-- C134: for every complex, component and order there is a weight above which a larger weight changes nothing: each
stored flow is the noisy flow without its gradient component (`divergence`) or without its curl component (`curl`). -/
theorem C134_large (lib : NumLib) (sc : SC ℝ) (hE : 0 < sc.E) (order : ℕ) :
    ∃ w : ℝ, 0 ≤ w ∧ ∀ (cvx : CvxSolver) (st st' : TrendHistory sc.E) (flow : Fin sc.E → ℝ) (component : String)
      (realisations : ℕ) (snrDb : List ℝ) (mu : ℝ) (noise : ℕ → ℕ → Fin sc.E → ℝ),
      component = "divergence" ∨ component = "curl" → w < mu →
      sc.denoisingL1 cvx st flow component realisations snrDb order mu noise = (.ok (), st') →
      ∀ (i j : ℕ) (db : ℝ) (x : Fin sc.E → ℝ), snrDb[i]? = some db → j < realisations → Stored st' i j x →
        ∃ g, sc.getComponentFlow lib (noisy flow db (noise i j))
            (if component = "divergence" then "gradient" else "curl") false = .ok g ∧
          x = noisy flow db (noise i j) - g := by
  obtain ⟨m1, S1, hS1, hk1⟩ := shift_ok sc "divergence" order
  obtain ⟨m2, S2, hS2, hk2⟩ := shift_ok sc "curl" order
  have hk1' : ∀ f, S1.mulVec f = 0 ↔ sc.B1.transpose.transpose.mulVec f = 0 := fun f => by
    rw [hk1 f, if_pos rfl, transpose_transpose]
    rfl
  have hk2' : ∀ f, S2.mulVec f = 0 ↔ sc.B2.transpose.mulVec f = 0 := fun f => by
    rw [hk2 f, if_neg (by decide)]
    rfl
  have ker : ∀ {p q : ℕ} (B : Matrix (Fin p) (Fin q) ℝ) (v : Fin q → ℝ),
      B.transpose.mulVec (B.mulVec v) = 0 → B.mulVec v = 0 := by
    intro p q B v h
    apply dotProduct_self_eq_zero.mp
    have h1 : B.mulVec v ⬝ᵥ B.mulVec v = v ⬝ᵥ B.transpose.mulVec (B.mulVec v) := by
      rw [dotProduct_mulVec v, vecMul_transpose]
    rw [h1, h, dotProduct_zero]
  obtain ⟨C1, hC1, hb1⟩ := bounded_below S1 sc.B1.transpose fun v hv => ker _ v ((hk1' _).1 hv)
  obtain ⟨C2, hC2, hb2⟩ := bounded_below S2 sc.B2 fun v hv => ker _ v ((hk2' _).1 hv)
  refine ⟨max C1 C2, le_max_of_le_left hC1, ?_⟩
  intro cvx st st' flow component realisations snrDb mu noise hc hw h i j db x hi hj hx
  obtain ⟨g, c, hh, hp⟩ := HodgeParts.exists lib sc (noisy flow db (noise i j))
  have h1 := lt_of_le_of_lt (le_max_left C1 C2) hw
  have h2 := lt_of_le_of_lt (le_max_right C1 C2) hw
  rcases hc with rfl | rfl
  · refine ⟨g, hp.grad, ?_⟩
    exact best_large hk1' hp.proj.1 lib hb1 h1 (run_best cvx hE (.inl rfl) (hC1.trans h1.le) h hS1 hi hj hx)
  · refine ⟨c, hp.curl, ?_⟩
    exact best_large hk2' hp.proj.2.1 lib hb2 h2 (run_best cvx hE (.inr rfl) (hC2.trans h2.le) h hS2 hi hj hx)

/-- the hypotheses of C134 are met: on the network with one edge the weight 1/4 is small enough, and the noise is kept -/
example (cvx : CvxSolver) (st : TrendHistory oneEdge.E) : ∃ st' x,
    oneEdge.denoisingL1 cvx st (fun _ => 1) "divergence" 1 [0] 0 (1 / 4) (fun _ _ _ => 3) = (.ok (), st') ∧
      Stored st' 0 0 x ∧ ∀ k, x k = 4 := by
  have hE : 0 < oneEdge.E := by show 0 < 1; norm_num
  obtain ⟨st', h1, -, h2⟩ := denoisingL1_run cvx oneEdge hE st (fun _ => 1)
    "divergence" (.inl rfl) 1 [0] 0 (1 / 4) (by norm_num) (fun _ _ _ => 3) (m := oneEdge.N) (S := oneEdge.B1) rfl
  have h3 := (h2 0 0 0 _ rfl one_pos).2 rfl
  refine ⟨st', _, h1, h3, fun k => ?_⟩
  rw [C134_small_order_zero cvx oneEdge oneEdge_wellFormed.built hE st st' (fun _ => 1) "divergence" (.inl rfl) 1 [0]
    (1 / 4) (by norm_num) (fun _ => by
      rw [show oneEdge.E = 1 from rfl]
      norm_num) (fun h => absurd h (by decide)) (fun _ _ _ => 3) h1 0 0 0 _ rfl one_pos h3]
  have e : norm2 (fun _ => 1 : Fin oneEdge.E → ℝ) = 1 := (norm2_one _).trans abs_one
  rw [noisy, e, show oneEdge.E = 1 from rfl]
  norm_num

end Pytspl
