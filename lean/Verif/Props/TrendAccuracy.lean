import Verif.Props.TrendWeights

/-!
# C137: how far trend filters can be off
-/

namespace Pytspl

open Matrix

variable {n : ℕ}

/-- the flow has none of the penalised component -/
def Lacks (sc : SC ℝ) (component : String) (z : Fin sc.E → ℝ) : Prop :=
  if component = "divergence" then sc.getDivergence z = 0 else sc.getCurl z = 0

private theorem norm2_sub_comm (a b : Fin n → ℝ) : norm2 (a - b) = norm2 (b - a) := by
  rw [← neg_sub b a, ← neg_one_smul ℝ (b - a), norm2_smul]
  simp

private theorem norm2_triangle (x y z : Fin n → ℝ) : norm2 (x - z) ≤ norm2 (x - y) + norm2 (y - z) := by
  have := norm2_add_le (x - y) (y - z)
  rwa [sub_add_sub_cancel] at this

private theorem noise_part (flow nz : Fin n → ℝ) (db : ℝ) :
    norm2 (noisy flow db nz - flow) = norm2 flow / ((10 : ℝ) ^ (db / 10) * n) * norm2 nz := by
  have e : noisy flow db nz - flow = (norm2 flow / ((10 : ℝ) ^ (db / 10) * n)) • nz := by
    funext k
    simp [noisy]
  have h : 0 ≤ norm2 flow / ((10 : ℝ) ^ (db / 10) * n) :=
    div_nonneg (norm2_nonneg _) (mul_nonneg (Real.rpow_nonneg (by norm_num) _) (Nat.cast_nonneg _))
  rw [e, norm2_smul, abs_of_nonneg h]

/-- C137: the l1 filter moves the noisy flow no further than the nearest flow without the penalised component is away,
and no further than the weight times the penalty.  So the result is at most twice as far from any such flow as the noisy
flow; if the given flow is one of them, the error is at most twice the noise that was added. -/
theorem C137_l1 (cvx : CvxSolver) (sc : SC ℝ) (hE : 0 < sc.E) (st st' : TrendHistory sc.E) (flow : Fin sc.E → ℝ)
    (component : String) (hc : component = "divergence" ∨ component = "curl") (realisations : ℕ) (snrDb : List ℝ)
    (order : ℕ) (mu : ℝ) (hmu : 0 ≤ mu) (noise : ℕ → ℕ → Fin sc.E → ℝ)
    (h : sc.denoisingL1 cvx st flow component realisations snrDb order mu noise = (.ok (), st')) (i j : ℕ) (db : ℝ)
    (x : Fin sc.E → ℝ) (hi : snrDb[i]? = some db) (hj : j < realisations) (hx : Stored st' i j x) :
    (∃ k S, sc.getShiftOperator component order = .ok ⟨k, S⟩ ∧
      norm2 (noisy flow db (noise i j) - x) ≤ mu * norm1 (S.mulVec (noisy flow db (noise i j)))) ∧
    (∀ z, Lacks sc component z → norm2 (noisy flow db (noise i j) - x) ≤ norm2 (noisy flow db (noise i j) - z) ∧
      norm2 (x - z) ≤ 2 * norm2 (noisy flow db (noise i j) - z)) ∧
    (Lacks sc component flow →
      norm2 (x - flow) ≤ 2 * (norm2 flow / ((10 : ℝ) ^ (db / 10) * sc.E) * norm2 (noise i j))) := by
  obtain ⟨k, S, hS, hk⟩ := shift_ok sc component order
  have hb := run_best cvx hE hc hmu h hS hi hj hx
  set y := noisy flow db (noise i j) with hy
  have h0 : norm1 (0 : Fin k → ℝ) = 0 := by simp [norm1]
  have hpen := mul_nonneg hmu (norm1_nonneg (S.mulVec x))
  have main : ∀ z, Lacks sc component z → norm2 (y - x) ≤ norm2 (y - z) ∧ norm2 (x - z) ≤ 2 * norm2 (y - z) := by
    intro z hz
    have h1 := hb z
    rw [(hk z).2 hz, h0, mul_zero, add_zero] at h1
    refine ⟨by linarith, ?_⟩
    have h2 := norm2_triangle x y z
    rw [norm2_sub_comm x y] at h2
    linarith
  refine ⟨⟨k, S, hS, ?_⟩, main, fun hf => ?_⟩
  · have h1 := hb y
    rw [sub_self, show norm2 (0 : Fin sc.E → ℝ) = 0 from norm2_eq_zero.2 rfl, zero_add] at h1
    linarith
  · have h1 := (main flow hf).2
    rw [hy, noise_part] at h1
    exact h1

/-- C137: the l2 filter does not increase the distance to any divergence-free flow; if the given flow is one of them,
the error is at most the noise that was added. -/
theorem C137_l2 (sc : SC ℝ) (hE : 0 < sc.E) (st st' : TrendHistory sc.E) (flow : Fin sc.E → ℝ)
    (component : String) (hc : component = "divergence" ∨ component = "curl") (realisations : ℕ) (snrDb : List ℝ)
    (mu : ℝ) (hmu : 0 ≤ mu) (noise : ℕ → ℕ → Fin sc.E → ℝ)
    (h : sc.denoisingL2 st flow component realisations snrDb mu noise = (.ok (), st')) (i j : ℕ) (db : ℝ)
    (x : Fin sc.E → ℝ) (hi : snrDb[i]? = some db) (hj : j < realisations) (hx : Stored st' i j x) :
    (∀ z, sc.getDivergence z = 0 → norm2 (x - z) ≤ norm2 (noisy flow db (noise i j) - z)) ∧
    (sc.getDivergence flow = 0 →
      norm2 (x - flow) ≤ norm2 flow / ((10 : ℝ) ^ (db / 10) * sc.E) * norm2 (noise i j)) := by
  have hs : snrDb ≠ [] := by rintro rfl; simp at hi
  obtain ⟨st2, H, h1, -, -, -, h2⟩ := C67_divergence_partial sc hE st flow component hc realisations (by omega) snrDb hs
    mu hmu noise
  rw [h] at h1
  cases h1
  obtain ⟨e, -, -⟩ := h2 i j db x hi hj hx
  set y := noisy flow db (noise i j) with hy
  have main : ∀ z, sc.getDivergence z = 0 → norm2 (x - z) ≤ norm2 (y - z) := by
    intro z hz
    have hz' : sc.B1.mulVec z = 0 := hz
    have e1 : (x - z) + mu • sc.B1.transpose.mulVec (sc.B1.mulVec (x - z)) = y - z := by
      rw [mulVec_sub, hz', sub_zero, ← e]
      show _ = x + mu • sc.B1.transpose.mulVec (sc.B1.mulVec x) - z
      abel
    have e2 : (x - z) ⬝ᵥ (y - z) = norm2 (x - z) ^ 2 + mu * norm2 (sc.B1.mulVec (x - z)) ^ 2 := by
      rw [← e1, dotProduct_add, dotProduct_smul, dotProduct_mulVec (x - z) sc.B1.transpose, vecMul_transpose, norm2_sq,
        norm2_sq, smul_eq_mul]
    have e3 := dot_le_norm2 (x - z) (y - z)
    by_contra hlt
    push Not at hlt
    have h5 : 0 < norm2 (x - z) := lt_of_le_of_lt (norm2_nonneg _) hlt
    have h6 := mul_nonneg hmu (sq_nonneg (norm2 (sc.B1.mulVec (x - z))))
    have h7 := mul_lt_mul_of_pos_left hlt h5
    nlinarith
  refine ⟨main, fun hf => ?_⟩
  have h1 := main flow hf
  rw [hy, noise_part] at h1
  exact h1

/-- C137: interpolation of a flow without the penalised component never returns more energy than the flow has, so its
relative error is at most 2, and the penalty that is left is at most the energy divided by the weight. -/
theorem C137_interpolation (cvx : CvxSolver) (sc : SC ℝ) (sampler : Sampler sc.E) (st st' : TrendHistory sc.E)
    (flow : Fin sc.E → ℝ) (component : String) (hc : component = "divergence" ∨ component = "curl")
    (hf : Lacks sc component flow) (ratio : List ℝ) (hr : ∀ r ∈ ratio, 0 ≤ r ∧ r ≤ 1) (realisations order : ℕ) (mu : ℝ)
    (hmu : 0 ≤ mu) (hE : sc.E ≤ 2 ^ 53)
    (h : sc.interpolationL1 cvx sampler st flow component ratio realisations order mu = (.ok (), st')) (i j : ℕ) (r : ℝ)
    (x : Fin sc.E → ℝ) (hi : ratio[i]? = some r) (hj : j < realisations) (hx : Stored st' i j x) :
    norm2 x ≤ norm2 flow ∧ norm2 (x - flow) ≤ 2 * norm2 flow ∧
    ∃ k S, sc.getShiftOperator component order = .ok ⟨k, S⟩ ∧ mu * norm1 (S.mulVec x) ≤ norm2 flow := by
  obtain ⟨st2, k, S, h1, hS, -, h2⟩ := C69_interpolation cvx sc sampler st flow component hc ratio hr realisations order
    mu hmu hE
  rw [h] at h1
  cases h1
  obtain ⟨⟨obs, -, -, -, -, -, hobs, hbest⟩, -⟩ := h2 i j r x hi hj hx
  obtain ⟨k', S', hS', hk⟩ := shift_ok sc component order
  rw [hS] at hS'
  cases hS'
  have hz := hbest flow (fun k => if k ∈ obs then flow k else 0) (fun _ _ => rfl) fun _ => rfl
  rw [(hk flow).2 hf, show norm1 (0 : Fin k → ℝ) = 0 by simp [norm1], mul_zero, add_zero] at hz
  have hpen := mul_nonneg hmu (norm1_nonneg (S.mulVec x))
  -- the parts on and off the observed edges
  have split : ∀ v : Fin sc.E → ℝ, (∀ k ∈ obs, v k = flow k) →
      v ⬝ᵥ v = (fun k => if k ∈ obs then flow k else 0 : Fin sc.E → ℝ) ⬝ᵥ (fun k => if k ∈ obs then flow k else 0) +
        norm2 (v - fun k => if k ∈ obs then flow k else 0) ^ 2 := by
    intro v hv
    rw [norm2_sq]
    unfold dotProduct
    rw [← Finset.sum_add_distrib]
    refine Finset.sum_congr rfl fun k _ => ?_
    simp only [Pi.sub_apply]
    by_cases hk : k ∈ obs
    · simp [hk, hv k hk]
    · simp [hk]
  have hx2 := split x hobs
  have hf2 := split flow fun _ _ => rfl
  have hle : norm2 (x - fun k => if k ∈ obs then flow k else 0) ≤ norm2 (flow - fun k => if k ∈ obs then flow k else 0) := by
    linarith
  have hsq := pow_le_pow_left₀ (norm2_nonneg _) hle 2
  have hxf : norm2 x ≤ norm2 flow := by
    unfold norm2
    exact Real.sqrt_le_sqrt (by rw [hx2, hf2]; linarith)
  have hfo : norm2 (flow - fun k => if k ∈ obs then flow k else 0) ≤ norm2 flow := by
    rw [← abs_of_nonneg (norm2_nonneg (flow - _)), ← abs_of_nonneg (norm2_nonneg flow), ← sq_le_sq, norm2_sq flow, hf2]
    have : 0 ≤ (fun k => if k ∈ obs then flow k else 0 : Fin sc.E → ℝ) ⬝ᵥ (fun k => if k ∈ obs then flow k else 0) :=
      Finset.sum_nonneg fun k _ => mul_self_nonneg _
    linarith
  refine ⟨hxf, ?_, k, S, hS, by linarith [norm2_nonneg (x - fun k => if k ∈ obs then flow k else 0)]⟩
  have h3 := norm2_triangle x 0 flow
  rw [sub_zero, zero_sub, ← neg_one_smul ℝ flow, norm2_smul, abs_neg, abs_one, one_mul] at h3
  linarith

/-- C137: for every complex, component and order there is a positive weight below which interpolation does nothing: every
edge that was not sampled gets the value 0. -/
theorem C137_interpolation_small (sc : SC ℝ) (component : String) (hc : component = "divergence" ∨ component = "curl")
    (order : ℕ) (hE : sc.E ≤ 2 ^ 53) : ∃ w : ℝ, 0 < w ∧ ∀ (cvx : CvxSolver) (sampler : Sampler sc.E) (st st' : TrendHistory sc.E)
      (flow : Fin sc.E → ℝ) (ratio : List ℝ) (realisations : ℕ) (mu : ℝ), (∀ r ∈ ratio, 0 ≤ r ∧ r ≤ 1) → 0 ≤ mu → mu < w →
      sc.interpolationL1 cvx sampler st flow component ratio realisations order mu = (.ok (), st') →
      ∀ (i j : ℕ) (r : ℝ) (x : Fin sc.E → ℝ), ratio[i]? = some r → j < realisations → Stored st' i j x →
        ∃ obs : List (Fin sc.E), obs = sampler.pick i j obs.length ∧ obs.Nodup ∧ ⌊(sc.E : ℝ) * r⌋ ≤ obs.length ∧ obs.length ≤ ⌈(sc.E : ℝ) * r⌉ ∧
          ∀ k, x k = if k ∈ obs then flow k else 0 := by
  obtain ⟨k, S, hS, -⟩ := shift_ok sc component order
  set c := ∑ i, ∑ j, |S i j| with hcd
  have hc0 : 0 ≤ c := Finset.sum_nonneg fun i _ => Finset.sum_nonneg fun j _ => abs_nonneg _
  have hcol : ∀ j, ∑ i, |S i j| ≤ c := fun j => Finset.sum_le_sum fun i _ =>
    Finset.single_le_sum (f := fun j => |S i j|) (fun j _ => abs_nonneg _) (Finset.mem_univ j)
  have hp : 0 < c * √sc.E + 1 := by positivity
  refine ⟨1 / (c * √sc.E + 1), by positivity, ?_⟩
  intro cvx sampler st st' flow ratio realisations mu hr hmu hw h i j r x hi hj hx
  obtain ⟨st2, k', S', h1, hS', -, h2⟩ := C69_interpolation cvx sc sampler st flow component hc ratio hr realisations order
    mu hmu hE
  rw [h] at h1
  rw [hS] at hS'
  cases h1
  cases hS'
  obtain ⟨⟨obs, ho0, ho1, ho2, ho3, ho4, hobs, hbest⟩, -⟩ := h2 i j r x hi hj hx
  refine ⟨obs, ho0, ho1, ho3, ho4, ?_⟩
  let known : Fin sc.E → ℝ := fun k => if k ∈ obs then flow k else 0
  have hz := hbest known known (fun k hk => if_pos hk) fun _ => rfl
  rw [sub_self, show norm2 (0 : Fin sc.E → ℝ) = 0 from norm2_eq_zero.2 rfl, zero_add] at hz
  have h3 : norm1 (S.mulVec known) ≤ norm1 (S.mulVec x) + norm1 (S.mulVec (known - x)) := by
    have := norm1_add_le (S.mulVec x) (S.mulVec (known - x))
    rwa [← mulVec_add, add_sub_cancel] at this
  have h4 := mul_le_mul_of_nonneg_left h3 hmu
  have h5 := mul_le_mul_of_nonneg_left (norm1_bound S hc0 hcol (known - x)) hmu
  rw [norm2_sub_comm] at hz
  have h6 : norm2 (known - x) = 0 := by
    by_contra hne
    have hpos : 0 < norm2 (known - x) := lt_of_le_of_ne (norm2_nonneg _) (Ne.symm hne)
    rw [lt_div_iff₀ hp] at hw
    nlinarith
  intro k
  have := congrFun (norm2_eq_zero.1 h6) k
  simp only [Pi.sub_apply, Pi.zero_apply] at this
  exact (sub_eq_zero.1 this).symm

/-- the hypotheses are met: a network of two triangles carries a circulation, which is not 0 and has no divergence; any
solver filters it and interpolates it -/
example (cvx : CvxSolver) (noise : ℕ → ℕ → Fin twoTri.E → ℝ) (st : TrendHistory twoTri.E) :
    ∃ flow : Fin twoTri.E → ℝ, flow ≠ 0 ∧ Lacks twoTri "divergence" flow ∧ 0 < twoTri.E ∧
      (∃ st', twoTri.denoisingL1 cvx st flow "divergence" 3 [0, 10] (0 : ℕ) (1 / 2) noise = (.ok (), st')) ∧
      ∀ sampler, ∃ st', twoTri.interpolationL1 cvx sampler st flow "divergence" [1 / 2] 3 (0 : ℕ) (1 / 2) =
        (.ok (), st') := by
  have hE : 0 < twoTri.E := by decide
  refine ⟨twoTri.B2.mulVec fun t => if t.val = 0 then 1 else 0, fun h0 => ?_, ?_, hE, ?_, fun sampler => ?_⟩
  · have h1 := congrFun h0 ⟨0, hE⟩
    revert h1
    have e : twoTri.B2.mulVec (fun t => if t.val = 0 then 1 else 0) ⟨0, hE⟩ = twoTri.B2 ⟨0, hE⟩ ⟨0, by decide⟩ := by
      have : ∀ k, twoTri.B2.mulVec (fun t => if t.val = 0 then 1 else 0) k =
          ∑ t, twoTri.B2 k t * if t.val = 0 then 1 else 0 := fun k => rfl
      rw [this, Finset.sum_eq_single ⟨0, by decide⟩]
      · simp
      · intro b _ hb
        have : b.val ≠ 0 := fun hh => hb (Fin.ext hh)
        simp [this]
      · simp
    rw [e]
    simp [twoTri, SC.ofInt]
    decide
  · unfold Lacks
    rw [if_pos rfl]
    show twoTri.B1.mulVec (twoTri.B2.mulVec _) = 0
    rw [mulVec_mulVec, twoTri_wellFormed.b1_mul_b2, zero_mulVec]
  · obtain ⟨st', _, _, h, -⟩ := C68_minimiser cvx twoTri hE st _ "divergence" (.inl rfl) 3 [0, 10] 0 (1 / 2) (by norm_num)
      noise
    exact ⟨st', h⟩
  · obtain ⟨st', _, _, h, -⟩ := C69_interpolation cvx twoTri sampler st _ "divergence" (.inl rfl) [1 / 2]
      (by simp; norm_num) 3 0 (1 / 2) (by norm_num) (show 6 ≤ 2 ^ 53 by norm_num)
    exact ⟨st', h⟩

end Pytspl
