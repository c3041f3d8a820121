import Verif.Props.TrendWeights
import Verif.Props.Accuracy

/-!
# C191: which weight of the l1 trend filter removes the whole curl component
-/

namespace Pytspl

open Matrix

variable {sc : SC ℝ}

/-- a curl flow is at most `k` times as long as the absolute values of its curl add up to -/
private theorem curl_norm1 (hs : sc.OnSimpleGraph) (k : ℕ) (hk : DepthLE sc.edges sc.triangles k) (w : Fin sc.T → ℝ) :
    norm2 (sc.B2.mulVec w) ≤ k * norm1 (sc.B2.transpose.mulVec (sc.B2.mulVec w)) := by
  set y := sc.B2.mulVec w with hy
  have hM : ∀ e, |y e| ≤ norm2 y := by
    intro e
    refine le_of_sq_le_sq ?_ (norm2_nonneg _)
    rw [sq_abs, norm2_sq, sq]
    exact Finset.single_le_sum (f := fun e => y e * y e) (fun _ _ => mul_self_nonneg _) (Finset.mem_univ e)
  have hterm : ∀ t, |w t| ≤ k * norm2 y := by
    intro t
    obtain ⟨j, hj, hf⟩ := hk t
    exact (depth_bound hs w _ hM j t hf).trans
      (mul_le_mul_of_nonneg_right (by exact_mod_cast hj) (norm2_nonneg _))
  have h3 : norm2 y ^ 2 = w ⬝ᵥ sc.B2.transpose.mulVec y := by
    rw [norm2_sq, dotProduct_mulVec w, vecMul_transpose]
  have h4 : w ⬝ᵥ sc.B2.transpose.mulVec y ≤ (k * norm2 y) * norm1 (sc.B2.transpose.mulVec y) := by
    unfold norm1
    rw [Finset.mul_sum]
    refine Finset.sum_le_sum fun i _ => ?_
    calc w i * sc.B2.transpose.mulVec y i ≤ |w i * sc.B2.transpose.mulVec y i| := le_abs_self _
      _ = |w i| * |sc.B2.transpose.mulVec y i| := abs_mul _ _
      _ ≤ _ := mul_le_mul_of_nonneg_right (hterm i) (abs_nonneg _)
  rcases (norm2_nonneg y).eq_or_lt with h0 | h0
  · rw [← h0]
    exact mul_nonneg (Nat.cast_nonneg _) (Finset.sum_nonneg fun _ _ => abs_nonneg _)
  · rw [← h3] at h4
    nlinarith

/-- C191: if every triangle is at most `k` steps away from an edge of a single triangle and the weight is more than `k`, each
stored flow is the noisy flow without its curl component, whichever minimiser the convex solver picks. -/
theorem C191_depth (lib : NumLib) (cvx : CvxSolver) (hs : sc.OnSimpleGraph) (hE : 0 < sc.E) (k : ℕ)
    (hk : DepthLE sc.edges sc.triangles k) (st st' : TrendHistory sc.E) (flow : Fin sc.E → ℝ)
    (realisations : ℕ) (snrDb : List ℝ) (mu : ℝ) (hmu : k < mu) (noise : ℕ → ℕ → Fin sc.E → ℝ)
    (h : sc.denoisingL1 cvx st flow "curl" realisations snrDb 0 mu noise = (.ok (), st')) (i j : ℕ) (db : ℝ)
    (x : Fin sc.E → ℝ) (hi : snrDb[i]? = some db) (hj : j < realisations) (hx : Stored st' i j x) :
    ∃ c, sc.getComponentFlow lib (noisy flow db (noise i j)) "curl" false = .ok c ∧
      x = noisy flow db (noise i j) - c := by
  obtain ⟨g, c, hh, hp⟩ := HodgeParts.exists lib sc (noisy flow db (noise i j))
  have hS : sc.getShiftOperator "curl" ((0 : ℕ) : Int) = .ok ⟨sc.T, sc.B2.transpose⟩ := by
    simp [SC.getShiftOperator]
  have h0 : (0 : ℝ) ≤ k := Nat.cast_nonneg _
  refine ⟨c, hp.curl, ?_⟩
  exact best_large (fun f => Iff.rfl) hp.proj.2.1 lib (curl_norm1 hs k hk) hmu
    (run_best cvx hE (.inr rfl) (by linarith) (order := 0) h hS hi hj hx)

/-! ## Triangles which share no edge -/

/-- no edge is a side of two triangles -/
def NoSharedSides (edges : List Edge) (triangles : List (List Int)) : Prop :=
  ∀ (t t' : Fin triangles.length) (e : Fin edges.length), IsSide triangles[t] edges[e] → IsSide triangles[t'] edges[e] → t = t'

private theorem no_side (hs : sc.OnSimpleGraph) (e : Fin sc.edges.length) (t : Fin sc.triangles.length)
    (h : ¬ IsSide sc.triangles[t] sc.edges[e]) : sc.B2 e t = 0 := by
  rw [b2_sideSign hs e t]
  have : sideSign sc.triangles[t] sc.edges[e] = 0 := by
    generalize sc.triangles[t] = u at h
    unfold sideSign
    split
    · next a b c =>
      have : ¬ Joins sc.edges[e] a b ∧ ¬ Joins sc.edges[e] b c ∧ ¬ Joins sc.edges[e] a c :=
        ⟨fun g => h ⟨a, b, c, rfl, .inl g⟩, fun g => h ⟨a, b, c, rfl, .inr (.inl g)⟩,
          fun g => h ⟨a, b, c, rfl, .inr (.inr g)⟩⟩
      rw [if_neg (not_or.2 ⟨this.1, this.2.1⟩), if_neg this.2.2]
    · rfl
  rw [this, Int.cast_zero]

/-- the curl of the flow around a triangle is 3 there and 0 at all others -/
private theorem curl_around (hs : sc.OnSimpleGraph) (hx : NoSharedSides sc.edges sc.triangles) (w : Fin sc.T → ℝ) :
    sc.B2.transpose.mulVec (sc.B2.mulVec w) = (3 : ℝ) • w := by
  funext t
  have hcol : ∑ e : Fin sc.edges.length, sc.B2 e t * sc.B2 e t = 3 := by
    obtain ⟨a, b, c, ia, ib, ic, h0, h1, h2, h3, hB⟩ := hs.built.tri_entry t
    obtain ⟨d1, d2, d3, -, -, -⟩ := triRows_distinct hs.noLoops h1 h2 h3
    have hsq : ∀ e, sc.B2 e t * sc.B2 e t =
        (if e = ia then (1 : ℝ) else 0) + (if e = ib then 1 else 0) + if e = ic then 1 else 0 := by
      intro e
      rw [hB e]
      by_cases c1 : e = ia
      · subst c1; simp [d1, d2]
      · by_cases c2 : e = ib
        · subst c2; simp [c1, d3]
        · by_cases c3 : e = ic
          · subst c3; simp [c1, c2]
          · simp [c1, c2, c3]
    rw [Finset.sum_congr rfl fun e _ => hsq e, Finset.sum_add_distrib, Finset.sum_add_distrib]
    simp only [Finset.sum_ite_eq', Finset.mem_univ, if_true]
    norm_num
  have hrow : ∀ e : Fin sc.edges.length, sc.B2 e t * sc.B2.mulVec w e = sc.B2 e t * sc.B2 e t * w t := by
    intro e
    by_cases hse : IsSide sc.triangles[t] sc.edges[e]
    · have : sc.B2.mulVec w e = sc.B2 e t * w t := by
        refine Finset.sum_eq_single t (fun t' _ hne => ?_) fun g => absurd (Finset.mem_univ _) g
        show sc.B2 e t' * w t' = 0
        rw [no_side hs e t' fun g => hne (hx t t' e hse g).symm, zero_mul]
      rw [this, mul_assoc]
    · rw [no_side hs e t hse]
      ring
  calc sc.B2.transpose.mulVec (sc.B2.mulVec w) t = ∑ e : Fin sc.edges.length, sc.B2 e t * sc.B2.mulVec w e := rfl
    _ = ∑ e : Fin sc.edges.length, sc.B2 e t * sc.B2 e t * w t := Finset.sum_congr rfl fun e _ => hrow e
    _ = _ := by rw [← Finset.sum_mul, hcol]; rfl

private theorem around_length (hs : sc.OnSimpleGraph) (hx : NoSharedSides sc.edges sc.triangles) (w : Fin sc.T → ℝ) :
    norm2 (sc.B2.mulVec w) ^ 2 = 3 * (w ⬝ᵥ w) := by
  rw [norm2_sq, dotProduct_mulVec, ← mulVec_transpose, curl_around hs hx, smul_dotProduct, smul_eq_mul]

/-- C191: if no two triangles share an edge and the weight is more than `1/√3`, each stored flow is the noisy flow without its
curl component. -/
theorem C191_apart (lib : NumLib) (cvx : CvxSolver) (hs : sc.OnSimpleGraph) (hE : 0 < sc.E)
    (hd : NoSharedSides sc.edges sc.triangles) (st st' : TrendHistory sc.E) (flow : Fin sc.E → ℝ)
    (realisations : ℕ) (snrDb : List ℝ) (mu : ℝ) (hmu : 1 / √3 < mu) (noise : ℕ → ℕ → Fin sc.E → ℝ)
    (h : sc.denoisingL1 cvx st flow "curl" realisations snrDb 0 mu noise = (.ok (), st')) (i j : ℕ) (db : ℝ)
    (x : Fin sc.E → ℝ) (hi : snrDb[i]? = some db) (hj : j < realisations) (hx : Stored st' i j x) :
    ∃ c, sc.getComponentFlow lib (noisy flow db (noise i j)) "curl" false = .ok c ∧
      x = noisy flow db (noise i j) - c := by
  obtain ⟨g, c, hh, hp⟩ := HodgeParts.exists lib sc (noisy flow db (noise i j))
  have hS : sc.getShiftOperator "curl" ((0 : ℕ) : Int) = .ok ⟨sc.T, sc.B2.transpose⟩ := by
    simp [SC.getShiftOperator]
  have h3 : (0 : ℝ) < √3 := Real.sqrt_pos.2 (by norm_num)
  have h0 : 0 < 1 / √(3 : ℝ) := by positivity
  refine ⟨c, hp.curl, ?_⟩
  refine best_large (fun f => Iff.rfl) hp.proj.2.1 lib (C := 1 / √3) (fun w => ?_) hmu
    (run_best cvx hE (.inr rfl) (by linarith) (order := 0) h hS hi hj hx)
  rw [curl_around hs hd]
  have hn : 0 ≤ norm1 w := Finset.sum_nonneg fun _ _ => abs_nonneg _
  have h4 : norm1 ((3 : ℝ) • w) = 3 * norm1 w := by
    unfold norm1
    rw [Finset.mul_sum]
    refine Finset.sum_congr rfl fun t _ => ?_
    rw [Pi.smul_apply, smul_eq_mul, abs_mul, abs_of_pos (by norm_num : (0 : ℝ) < 3)]
  have h5 : 1 / √(3 : ℝ) * (3 * norm1 w) = √3 * norm1 w := by
    have := Real.mul_self_sqrt (by norm_num : (0 : ℝ) ≤ 3)
    field_simp
    nlinarith
  rw [h4, h5]
  refine le_of_sq_le_sq ?_ (by positivity)
  rw [around_length hs hd, mul_pow, Real.sq_sqrt (by norm_num)]
  have h6 : w ⬝ᵥ w ≤ norm1 w ^ 2 := by
    rw [sq]
    calc w ⬝ᵥ w = ∑ t, |w t| * |w t| := Finset.sum_congr rfl fun t _ => (abs_mul_abs_self _).symm
      _ ≤ ∑ t, |w t| * norm1 w := Finset.sum_le_sum fun t _ => mul_le_mul_of_nonneg_left
          (Finset.single_le_sum (f := fun t => |w t|) (fun _ _ => abs_nonneg _) (Finset.mem_univ t)) (abs_nonneg _)
      _ = _ := by rw [← Finset.sum_mul]; rfl
  linarith

/-- C191: and on each complex of this kind no smaller number would do. With a weight below `1/√3` and the flow of one unit
around a triangle, which is a curl flow, the call stores a flow which still has a curl component. -/
theorem C191_best (lib : NumLib) (cvx : CvxSolver) (hs : sc.OnSimpleGraph) (hE : 0 < sc.E)
    (hd : NoSharedSides sc.edges sc.triangles) (t : Fin sc.T) (st : TrendHistory sc.E) (db mu : ℝ) (h0 : 0 ≤ mu)
    (hmu : mu < 1 / √3) :
    ∃ (u : Fin sc.E → ℝ) (st' : TrendHistory sc.E) (x : Fin sc.E → ℝ),
      (∀ e : Fin sc.edges.length, u e = sideSign sc.triangles[t] sc.edges[e]) ∧
      sc.denoisingL1 cvx st u "curl" 1 [db] 0 mu (fun _ _ => 0) = (.ok (), st') ∧ Stored st' 0 0 x ∧
      noisy u db 0 = u ∧ sc.getComponentFlow lib u "curl" false = .ok u ∧
      ∃ c, sc.getComponentFlow lib x "curl" false = .ok c ∧ c ≠ 0 := by
  have hS : sc.getShiftOperator "curl" ((0 : ℕ) : Int) = .ok ⟨sc.T, sc.B2.transpose⟩ := by
    simp [SC.getShiftOperator]
  set u : Fin sc.E → ℝ := sc.B2.mulVec (Pi.single t 1) with hu
  obtain ⟨st', h1, -, h2⟩ := denoisingL1_run cvx sc hE st u "curl" (.inr rfl) 1 [db] 0 mu h0 (fun _ _ => 0) hS
  have h3 := (h2 0 0 db _ rfl one_pos).2 rfl
  have hno : noisy u db 0 = u := by
    funext k
    simp [noisy]
  have hcu : sc.getComponentFlow lib u "curl" false = .ok u := by
    obtain ⟨g, c, hh, hp⟩ := HodgeParts.exists lib sc u
    rw [hp.curl]
    obtain ⟨⟨q, hq⟩, hc⟩ := hp.proj.2.1
    congr 1
    have e1 : sc.B2.transpose.mulVec (sc.B2.mulVec (q - Pi.single t 1)) = 0 := by
      rw [mulVec_sub, hq, mulVec_sub, hc, sub_self]
    have e2 := curl_around hs hd (q - Pi.single t 1)
    rw [e1] at e2
    have e3 : q - Pi.single t 1 = 0 := by
      have := congrArg (fun z => (3 : ℝ)⁻¹ • z) e2
      simp only [smul_smul, smul_zero] at this
      rw [inv_mul_cancel₀ (by norm_num : (3 : ℝ) ≠ 0), one_smul] at this
      exact this.symm
    rw [← hq, sub_eq_zero.1 e3]
  set x := cvx.argmin sc.T sc.E (noisy u db ((fun _ _ => 0 : ℕ → ℕ → Fin sc.E → ℝ) 0 0)) sc.B2.transpose mu [] with hxd
  obtain ⟨g, c, hh, hp⟩ := HodgeParts.exists lib sc x
  refine ⟨u, st', x, fun e => ?_, h1, h3, hno, hcu, c, hp.curl, ?_⟩
  · rw [hu, mulVec_single_one]
    exact b2_sideSign hs e t
  intro hc0
  have hbest := run_best cvx hE (.inr rfl) h0 (order := 0) h1 hS (db := db) rfl one_pos h3
  have hcx : sc.B2.transpose.mulVec x = 0 := by
    rw [← hp.proj.2.1.2, hc0, mulVec_zero]
  have h4 := hbest u
  change norm2 (noisy u db 0 - x) + _ ≤ norm2 (noisy u db 0 - u) + _ at h4
  have z1 : norm1 (0 : Fin sc.T → ℝ) = 0 := by simp [norm1]
  have z2 : norm2 (0 : Fin sc.E → ℝ) = 0 := by
    have := norm2_sq (0 : Fin sc.E → ℝ)
    rw [dotProduct_zero] at this
    exact pow_eq_zero_iff (two_ne_zero) |>.1 this
  have hux : u ⬝ᵥ x = 0 := by
    rw [hu, dotProduct_comm, dotProduct_mulVec, ← mulVec_transpose, hcx, zero_dotProduct]
  have h7 : norm1 (sc.B2.transpose.mulVec u) = 3 := by
    rw [hu, curl_around hs hd]
    unfold norm1
    rw [Finset.sum_eq_single t]
    · simp
    · intro t' _ hne
      simp [hne]
    · simp
  rw [hno, sub_self, hcx, z1, z2, h7, mul_zero, add_zero, zero_add] at h4
  have h8 : norm2 u ^ 2 = 3 := by
    rw [hu, around_length hs hd]
    simp
  have h9 : (3 : ℝ) ≤ norm2 (u - x) ^ 2 := by
    have := norm2_sq (u - x)
    rw [sub_dotProduct, dotProduct_sub, dotProduct_sub, hux, dotProduct_comm x u, hux, ← norm2_sq u, h8] at this
    rw [this]
    have := dot_self_nonneg x
    linarith
  have h10 : √3 ≤ norm2 (u - x) := Real.sqrt_le_iff.2 ⟨norm2_nonneg _, h9⟩
  have h11 : (0 : ℝ) < √3 := Real.sqrt_pos.2 (by norm_num)
  have h12 := Real.mul_self_sqrt (by norm_num : (0 : ℝ) ≤ 3)
  rw [lt_div_iff₀ h11] at hmu
  nlinarith

private theorem half_lt : (1 / 2 : ℝ) < 1 / √3 := by
  have h11 : (0 : ℝ) < √3 := Real.sqrt_pos.2 (by norm_num)
  rw [div_lt_div_iff₀ (by norm_num) h11, one_mul, one_mul]
  exact (Real.sqrt_lt' (by norm_num)).2 (by norm_num)

/-- C191: the default weight, 0.5, does not remove the curl component on any complex of this kind with a triangle. -/
theorem C191_default_weight (lib : NumLib) (cvx : CvxSolver) (hs : sc.OnSimpleGraph) (hE : 0 < sc.E)
    (hd : NoSharedSides sc.edges sc.triangles) (t : Fin sc.T) (st : TrendHistory sc.E) (db : ℝ) :
    ∃ (u : Fin sc.E → ℝ) (st' : TrendHistory sc.E) (x : Fin sc.E → ℝ),
      (∀ e : Fin sc.edges.length, u e = sideSign sc.triangles[t] sc.edges[e]) ∧
      sc.denoisingL1 cvx st u "curl" 1 [db] 0 (1 / 2) (fun _ _ => 0) = (.ok (), st') ∧ Stored st' 0 0 x ∧
      noisy u db 0 = u ∧ sc.getComponentFlow lib u "curl" false = .ok u ∧
      ∃ c, sc.getComponentFlow lib x "curl" false = .ok c ∧ c ≠ 0 :=
  C191_best lib cvx hs hE hd t st db (1 / 2) (by norm_num) half_lt

/-- A filled triangle next to an open one meets the hypotheses, with the weights 2, 1 and 1/2. -/
example : ∃ sc : SC ℝ, sc.OnSimpleGraph ∧ 0 < sc.E ∧ 0 < sc.T ∧ DepthLE sc.edges sc.triangles 1 ∧ ((1 : ℕ) : ℝ) < 2 ∧
    NoSharedSides sc.edges sc.triangles ∧ 1 / √3 < (1 : ℝ) ∧ (1 / 2 : ℝ) < 1 / √3 := by
  obtain ⟨sc, hw, hs, hn, he, ht⟩ := sample_wellFormed ℝ
  have h11 : (1 : ℝ) < √3 := by
    apply Real.lt_sqrt_of_sq_lt
    norm_num
  have hone : ∀ t t' : Fin sc.triangles.length, t = t' := by
    rw [ht]
    decide
  refine ⟨sc, hs, by simp only [SC.E]; rw [he]; decide, by simp only [SC.T]; rw [ht]; decide, ?_, by norm_num,
    fun t t' _ _ _ => hone t t', ?_, half_lt⟩
  · rw [he, ht]
    intro t
    refine ⟨1, le_refl _, .free t ⟨0, by decide⟩ ?_ ?_⟩
    · have : t = ⟨0, by decide⟩ := by
        have := t.2
        simp [sampleTriangles] at this
        exact Fin.ext this
      subst this
      exact ⟨0, 1, 2, rfl, .inl (.inl rfl)⟩
    · intro t' _
      have h1 := t.2
      have h2 := t'.2
      simp [sampleTriangles] at h1 h2
      exact Fin.ext (h2.trans h1.symm)
  · rw [div_lt_one (by linarith)]
    exact h11

end Pytspl
