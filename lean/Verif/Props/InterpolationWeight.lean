import Verif.Props.Interpolation
import Verif.Props.TrendWeights
import Verif.Props.Rings

/-!
# C193: which weight of the interpolation recovers a flow without divergence

Order 0, `divergence`: if the edges that were not sampled contain no cycle, a weight above half the square root of their
number does.
-/

namespace Pytspl

open Matrix

variable {sc : SC ℝ}

/-- a flow on edges without cycles is nowhere larger than half of what the absolute values of its divergence add up to -/
private theorem forest_flow (hs : sc.OnSimpleGraph) (obs : List (Fin sc.E)) (hac : (unsampledGraph sc obs).IsAcyclic)
    (d : Fin sc.E → ℝ) (hd0 : ∀ k ∈ obs, d k = 0) (e : Fin sc.edges.length) : 2 * |d e| ≤ norm1 (sc.B1.mulVec d) := by
  classical
  have hn1 : 0 ≤ norm1 (sc.B1.mulVec d) := Finset.sum_nonneg fun _ _ => abs_nonneg _
  have adj : ∀ e : Fin sc.edges.length, e ∉ obs → (unsampledGraph sc obs).Adj sc.edges[e].1 sc.edges[e].2 := fun e he =>
    ⟨hs.noLoops _ (List.getElem_mem _), e, he, .inl rfl⟩
  by_cases he : e ∈ obs
  · rw [hd0 e he, abs_zero, mul_zero]
    exact hn1
  rw [SimpleGraph.isAcyclic_iff_forall_adj_isBridge] at hac
  have hb := hac (adj e he)
  rw [SimpleGraph.isBridge_iff] at hb
  set G := (unsampledGraph sc obs).deleteEdges {s(sc.edges[e].1, sc.edges[e].2)} with hG
  let c : Fin sc.N → ℝ := fun v => if G.Reachable sc.edges[e].1 ((v : ℕ) : Int) then -1 else 1
  have hval : ∀ z : Int, 0 ≤ z → z < sc.nodes.length → valueAt c z = if G.Reachable sc.edges[e].1 z then -1 else 1 := by
    intro z hz1 hz2
    unfold valueAt
    rw [dif_pos ⟨hz1, hz2⟩]
    simp only [c]
    rw [Int.toNat_of_nonneg hz1]
  have hk : ∀ k : Fin sc.edges.length, sc.B1.transpose.mulVec c k * d k = if k = e then 2 * d e else 0 := by
    intro k
    obtain ⟨⟨a1, a2⟩, b1, b2⟩ := hs.inRange sc.edges[k] (List.getElem_mem _)
    rw [b1_transpose_apply hs.built hs.inRange hs.noLoops c k, hval _ a1 a2, hval _ b1 b2]
    by_cases hke : k = e
    · subst hke
      rw [if_pos rfl, if_neg hb, if_pos (SimpleGraph.Reachable.refl _)]
      ring
    · rw [if_neg hke]
      by_cases hko : k ∈ obs
      · rw [hd0 k hko, mul_zero]
      · have hadj : G.Adj sc.edges[k].1 sc.edges[k].2 := by
          rw [hG, SimpleGraph.deleteEdges_adj]
          refine ⟨adj k hko, fun h => ?_⟩
          rw [Set.mem_singleton_iff, Sym2.eq_iff] at h
          rcases h with ⟨a, b⟩ | ⟨a, b⟩
          · exact other_edge_ne hs hke (.inl (Prod.ext a b))
          · exact other_edge_ne hs hke (.inr (Prod.ext a b))
        have : G.Reachable sc.edges[e].1 sc.edges[k].1 ↔ G.Reachable sc.edges[e].1 sc.edges[k].2 :=
          ⟨fun h => h.trans hadj.reachable, fun h => h.trans hadj.symm.reachable⟩
        simp only [this, sub_self, zero_mul]
  have h7 : c ⬝ᵥ sc.B1.mulVec d = 2 * d e := by
    rw [dotProduct_mulVec, ← mulVec_transpose]
    calc sc.B1.transpose.mulVec c ⬝ᵥ d = ∑ k : Fin sc.edges.length, if k = e then 2 * d e else 0 :=
          Finset.sum_congr rfl fun k _ => hk k
      _ = _ := by simp
  have habs : ∀ v, |c v| = 1 := by
    intro v
    simp only [c]
    split <;> simp
  calc 2 * |d e| = |c ⬝ᵥ sc.B1.mulVec d| := by rw [h7, abs_mul]; norm_num
    _ ≤ ∑ v, |c v * sc.B1.mulVec d v| := Finset.abs_sum_le_sum_abs _ _
    _ = _ := Finset.sum_congr rfl fun v _ => by rw [abs_mul, habs, one_mul]

/-- C193: if the given flow has no divergence, the edges that were not sampled contain no cycle, and the weight is more than
half the square root of their number, the stored flow is the given flow. -/
theorem C193_recovered (cvx : CvxSolver) (hs : sc.OnSimpleGraph) (hE : sc.E ≤ 2 ^ 53) (sampler : Sampler sc.E)
    (st st' : TrendHistory sc.E) (flow : Fin sc.E → ℝ) (hf : sc.getDivergence flow = 0) (ratio : List ℝ)
    (hr : ∀ r ∈ ratio, 0 ≤ r ∧ r ≤ 1) (realisations : ℕ) (mu : ℝ) (hmu : 0 ≤ mu)
    (h : sc.interpolationL1 cvx sampler st flow "divergence" ratio realisations 0 mu = (.ok (), st')) (i j : ℕ) (r : ℝ)
    (x : Fin sc.E → ℝ) (hi : ratio[i]? = some r) (hj : j < realisations) (hx : Stored st' i j x) :
    ∃ obs : List (Fin sc.E), obs = sampler.pick i j obs.length ∧
      (obs.length : Int) = ⌊sampler.R.rnd (sc.E * r)⌋ ∧ ⌊(sc.E : ℝ) * r⌋ ≤ obs.length ∧
      obs.length ≤ ⌈(sc.E : ℝ) * r⌉ ∧ (∀ k ∈ obs, x k = flow k) ∧
      ((unsampledGraph sc obs).IsAcyclic → √((sc.E - obs.length : ℕ) : ℝ) < 2 * mu → x = flow) := by
  classical
  obtain ⟨st2, k', S', h1, hS', -, h2⟩ := C69_interpolation cvx sc sampler st flow "divergence" (.inl rfl) ratio hr
    realisations 0 mu hmu hE
  have hS : sc.getShiftOperator "divergence" ((0 : ℕ) : Int) = .ok ⟨sc.N, sc.B1⟩ := rfl
  rw [hS] at hS'
  change sc.interpolationL1 cvx sampler st flow "divergence" ratio realisations 0 mu = _ at h1
  rw [h] at h1
  cases h1
  cases hS'
  obtain ⟨⟨obs, ho0, ho1, ho2, ho3, ho4, hobs, hbest⟩, -⟩ := h2 i j r x hi hj hx
  refine ⟨obs, ho0, ho2, ho3, ho4, hobs, fun hac hw => ?_⟩
  set d := x - flow with hd
  have hd0 : ∀ k ∈ obs, d k = 0 := fun k hk => by rw [hd, Pi.sub_apply, hobs k hk, sub_self]
  have hB : sc.B1.mulVec x = sc.B1.mulVec d := by
    rw [hd, mulVec_sub, show sc.B1.mulVec flow = 0 from hf, sub_zero]
  have hb := hbest flow _ (fun _ _ => rfl) fun _ => rfl
  set known : Fin sc.E → ℝ := fun k => if k ∈ obs then flow k else 0
  rw [hB, show sc.B1.mulVec flow = 0 from hf, show norm1 (0 : Fin sc.N → ℝ) = 0 by simp [norm1], mul_zero, add_zero] at hb
  have htri : norm2 (flow - known) ≤ norm2 (x - known) + norm2 d := by
    have h3 := norm2_add_le (x - known) ((-1 : ℝ) • d)
    rw [norm2_smul, abs_neg, abs_one, one_mul] at h3
    have e : x - known + (-1 : ℝ) • d = flow - known := by
      rw [hd, neg_one_smul]
      abel
    rwa [e] at h3
  have hn1 : 0 ≤ norm1 (sc.B1.mulVec d) := Finset.sum_nonneg fun _ _ => abs_nonneg _
  have hlen : 2 * norm2 d ≤ √((sc.E - obs.length : ℕ) : ℝ) * norm1 (sc.B1.mulVec d) := by
    refine le_of_sq_le_sq ?_ (by positivity)
    rw [mul_pow, mul_pow, norm2_sq, Real.sq_sqrt (Nat.cast_nonneg _)]
    have hterm : ∀ k : Fin sc.edges.length, 2 ^ 2 * (d k * d k) ≤
        if k ∈ obs.toFinset then 0 else norm1 (sc.B1.mulVec d) ^ 2 := by
      intro k
      split_ifs with hk
      · rw [hd0 k (List.mem_toFinset.1 hk)]
        norm_num
      · have h4 := forest_flow hs obs hac d hd0 k
        rw [← abs_mul_abs_self (d k)]
        nlinarith [abs_nonneg (d k)]
    calc 2 ^ 2 * (d ⬝ᵥ d) = ∑ k : Fin sc.edges.length, 2 ^ 2 * (d k * d k) := Finset.mul_sum _ _ _
      _ ≤ ∑ k : Fin sc.edges.length, if k ∈ obs.toFinset then 0 else norm1 (sc.B1.mulVec d) ^ 2 :=
          Finset.sum_le_sum fun k _ => hterm k
      _ = (((Finset.univ : Finset (Fin sc.edges.length)).filter fun k => k ∉ obs.toFinset).card : ℝ) *
            norm1 (sc.B1.mulVec d) ^ 2 := by
          rw [← nsmul_eq_mul, ← Finset.sum_const, Finset.sum_filter]
          refine Finset.sum_congr rfl fun k _ => ?_
          by_cases hk : k ∈ obs.toFinset
          · rw [if_pos hk, if_neg (not_not.2 hk)]
          · rw [if_neg hk, if_pos hk]
      _ = _ := by
          have hcard : ((Finset.univ : Finset (Fin sc.edges.length)).filter fun k => k ∉ obs.toFinset).card =
              sc.E - obs.length := by
            have e1 : ((Finset.univ : Finset (Fin sc.edges.length)).filter fun k => k ∉ obs.toFinset) =
                (obs.toFinset)ᶜ := by
              ext k
              simp
            rw [e1, Finset.card_compl, Fintype.card_fin, List.toFinset_card_of_nodup ho1]
          rw [hcard]
  have h5 : norm1 (sc.B1.mulVec d) = 0 := by
    by_contra hne
    have hpos : 0 < norm1 (sc.B1.mulVec d) := lt_of_le_of_ne hn1 (Ne.symm hne)
    nlinarith
  rw [h5, mul_zero] at hlen
  have h6 : norm2 d = 0 := le_antisymm (by linarith) (norm2_nonneg _)
  exact sub_eq_zero.1 (norm2_eq_zero.1 h6)

/-- C193: the given flow is not stored if its values on the edges that were not sampled are too large next to those on the
sampled edges. -/
theorem C193_lost (cvx : CvxSolver) (hb : sc.Built) (hE : sc.E ≤ 2 ^ 53) (sampler : Sampler sc.E)
    (st st' : TrendHistory sc.E) (flow : Fin sc.E → ℝ) (hf : sc.getDivergence flow = 0) (ratio : List ℝ)
    (hr : ∀ r ∈ ratio, 0 ≤ r ∧ r ≤ 1) (realisations : ℕ) (mu : ℝ) (hmu : 0 ≤ mu)
    (h : sc.interpolationL1 cvx sampler st flow "divergence" ratio realisations 0 mu = (.ok (), st')) (i j : ℕ) (r : ℝ)
    (x : Fin sc.E → ℝ) (hi : ratio[i]? = some r) (hj : j < realisations) (hx : Stored st' i j x) :
    ∃ obs : List (Fin sc.E), obs = sampler.pick i j obs.length ∧
      (obs.length : Int) = ⌊sampler.R.rnd (sc.E * r)⌋ ∧ ⌊(sc.E : ℝ) * r⌋ ≤ obs.length ∧
      obs.length ≤ ⌈(sc.E : ℝ) * r⌉ ∧ (∀ k ∈ obs, x k = flow k) ∧
      (2 * mu * (∑ k, if k ∈ obs then |flow k| else 0) < √(∑ k, if k ∈ obs then 0 else flow k ^ 2) → x ≠ flow) := by
  classical
  obtain ⟨st2, k', S', h1, hS', -, h2⟩ := C69_interpolation cvx sc sampler st flow "divergence" (.inl rfl) ratio hr
    realisations 0 mu hmu hE
  have hS : sc.getShiftOperator "divergence" ((0 : ℕ) : Int) = .ok ⟨sc.N, sc.B1⟩ := rfl
  rw [hS] at hS'
  change sc.interpolationL1 cvx sampler st flow "divergence" ratio realisations 0 mu = _ at h1
  rw [h] at h1
  cases h1
  cases hS'
  obtain ⟨⟨obs, ho0, ho1, ho2, ho3, ho4, hobs, hbest⟩, -⟩ := h2 i j r x hi hj hx
  refine ⟨obs, ho0, ho2, ho3, ho4, hobs, fun hw hxf => ?_⟩
  set known : Fin sc.E → ℝ := fun k => if k ∈ obs then flow k else 0 with hk
  have h3 := hbest known known (fun k hko => by rw [hk]; exact if_pos hko) fun _ => rfl
  rw [hxf, show sc.B1.mulVec flow = 0 from hf, show norm1 (0 : Fin sc.N → ℝ) = 0 by simp [norm1], mul_zero, add_zero,
    sub_self, show norm2 (0 : Fin sc.E → ℝ) = 0 from norm2_eq_zero.2 rfl, zero_add] at h3
  have e1 : norm2 (flow - known) = √(∑ k, if k ∈ obs then 0 else flow k ^ 2) := by
    unfold norm2
    congr 1
    refine Finset.sum_congr rfl fun k _ => ?_
    simp only [hk, Pi.sub_apply]
    split_ifs
    · rw [sub_self, mul_zero]
    · rw [sub_zero, sq]
  have e2 : norm1 known = ∑ k, if k ∈ obs then |flow k| else 0 := by
    refine Finset.sum_congr rfl fun k _ => ?_
    simp only [hk]
    split_ifs
    · rfl
    · exact abs_zero
  have h4 := norm1_mulVec_le sc.B1 (b1_column hb) known
  rw [e1] at h3
  rw [e2] at h4
  nlinarith [mul_le_mul_of_nonneg_left h4 hmu]

private theorem ring_simple {s : Fin sc.E → ℝ} (hc : sc.IsRing s) (hE : 3 ≤ sc.E) : sc.OnSimpleGraph := by
  refine ⟨hc.wellFormed.built, hc.wellFormed.inRange, hc.wellFormed.noLoops, ?_⟩
  refine List.pairwise_iff_getElem.2 fun i j hi hj hij => ?_
  have hiE : i < sc.E := hi
  have hjE : j < sc.E := hj
  have m1 : (i + 1) % sc.E = i + 1 := Nat.mod_eq_of_lt (by omega)
  have m2 : (j + 1) % sc.E = j + 1 ∨ ((j + 1) % sc.E = 0 ∧ j + 1 = sc.E) := by
    rcases Nat.lt_or_ge (j + 1) sc.E with h | h
    · exact .inl (Nat.mod_eq_of_lt h)
    · have : j + 1 = sc.E := by omega
      exact .inr ⟨by rw [this, Nat.mod_self], this⟩
  have e1 := hc.joins ⟨i, hi⟩
  have e2 := hc.joins ⟨j, hj⟩
  simp only [Fin.getElem_fin, m1] at e1 e2
  have key : ¬ (((i : ℕ) : Int) = ((j : ℕ) : Int)) ∧ ¬ ((i : Int) = (((j + 1) % sc.E : ℕ) : Int) ∧ ((i + 1 : ℕ) : Int) = (j : Int)) := by
    refine ⟨by omega, fun h => ?_⟩
    have a1 : i = (j + 1) % sc.E := by exact_mod_cast h.1
    have a2 : i + 1 = j := by exact_mod_cast h.2
    omega
  rcases e1 with ⟨e1, -⟩ | ⟨e1, -⟩ <;> rcases e2 with ⟨e2, -⟩ | ⟨e2, -⟩ <;> rw [e1, e2] <;>
    refine ⟨fun h => ?_, fun h => ?_⟩ <;> rw [Prod.ext_iff] at h <;> obtain ⟨b1, b2⟩ := h <;>
    simp only [Prod.swap] at b1 b2 <;>
    first
      | exact key.1 b1
      | exact key.1 b2
      | exact key.2 ⟨b1, b2⟩
      | exact key.2 ⟨b2, b1⟩

/-- C193: on a ring, from any sample of one edge or more, a weight above half the square root of the number of edges that were
not sampled recovers every flow without divergence; from one edge, no smaller number would do. -/
theorem C193_ring (cvx : CvxSolver) {s : Fin sc.E → ℝ} (hc : sc.IsRing s) (h3E : 3 ≤ sc.E) (hE : sc.E ≤ 2 ^ 53)
    (sampler : Sampler sc.E) (st st' : TrendHistory sc.E) (ratio : List ℝ)
    (hr : ∀ r ∈ ratio, 0 ≤ r ∧ r ≤ 1) (realisations : ℕ) (mu : ℝ) (hmu : 0 ≤ mu)
    (h : sc.interpolationL1 cvx sampler st s "divergence" ratio realisations 0 mu = (.ok (), st')) (i j : ℕ) (r : ℝ)
    (x : Fin sc.E → ℝ) (hi : ratio[i]? = some r) (hj : j < realisations) (hx : Stored st' i j x) :
    ∃ M : ℕ, ⌊(sc.E : ℝ) * r⌋ ≤ M ∧ M ≤ ⌈(sc.E : ℝ) * r⌉ ∧
      (0 < M → √((sc.E - M : ℕ) : ℝ) < 2 * mu → x = s) ∧ (M = 1 → 2 * mu < √((sc.E - M : ℕ) : ℝ) → x ≠ s) := by
  classical
  have hs := ring_simple hc h3E
  have hd : sc.getDivergence s = 0 := (C181_harmonic_space hc s).2 ⟨1, (one_smul _ _).symm⟩
  obtain ⟨obs, h1, h2, h3, h4, -, h5⟩ := C193_recovered cvx hs hE sampler st st' s hd ratio hr realisations mu hmu h i j r x hi
    hj hx
  obtain ⟨obs', h1', h2', -, -, -, h5'⟩ := C193_lost cvx hs.built hE sampler st st' s hd ratio hr realisations mu hmu h i j r x
    hi hj hx
  have hlen : obs'.length = obs.length := by exact_mod_cast h2'.trans h2.symm
  have hoo : obs' = obs := by rw [h1', hlen, ← h1]
  subst hoo
  have hsign : ∀ k, |s k| = 1 := by
    intro k
    rcases hc.joins k with ⟨-, e⟩ | ⟨-, e⟩ <;> rw [e] <;> norm_num
  refine ⟨obs'.length, h3, h4, fun h0 hw => h5 ?_ hw, fun h0 hw => h5' ?_⟩
  · rw [← C174_forest hs]
    intro z z' hz hz' hzz
    obtain ⟨k0, hk0⟩ := List.exists_mem_of_length_pos h0
    unfold Lacks at hz hz'
    rw [if_pos rfl] at hz hz'
    obtain ⟨a, rfl⟩ := (C181_harmonic_space hc z).1 hz
    obtain ⟨b, rfl⟩ := (C181_harmonic_space hc z').1 hz'
    have e := hzz k0 hk0
    simp only [Pi.smul_apply, smul_eq_mul] at e
    have hne : s k0 ≠ 0 := fun h => by
      have := hsign k0
      rw [h, abs_zero] at this
      exact zero_ne_one this
    rw [mul_right_cancel₀ hne e]
  · obtain ⟨k0, rfl⟩ := List.length_eq_one_iff.1 h0
    have e1 : (∑ k, if k ∈ [k0] then |s k| else 0) = 1 := by
      simp [hsign]
    have e2 : (∑ k, if k ∈ [k0] then 0 else s k ^ 2) = ((sc.E - [k0].length : ℕ) : ℝ) := by
      have hsq : ∀ k, (if k ∈ [k0] then 0 else s k ^ 2) = 1 - if k = k0 then (1 : ℝ) else 0 := by
        intro k
        rw [← sq_abs, hsign k]
        by_cases hk : k = k0 <;> simp [hk]
      rw [Finset.sum_congr rfl fun k _ => hsq k, Finset.sum_sub_distrib, Finset.sum_ite_eq', if_pos (Finset.mem_univ _),
        Finset.sum_const, Finset.card_univ, Fintype.card_fin, Nat.cast_sub (show [k0].length ≤ sc.E from hc.nonempty)]
      simp [SC.E]
    rw [e1, e2, mul_one]
    exact hw

/-- A ring of five edges meets the hypotheses of `C193_ring`. -/
example : ∃ (sc : SC ℝ) (s : Fin sc.E → ℝ), sc.IsRing s ∧ sc.E = 5 := ring_exists 5 (by norm_num)

end Pytspl
