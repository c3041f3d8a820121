import Verif.Lemmas.Poincare
import Verif.Props.EdgeLaplacian

/-!
# Properties C121, C122: spectral gaps of small networks, and the accuracy of computed components
-/

namespace Pytspl

open Matrix

variable {lib : NumLib} {sc : SC ℝ}

/-! ## Specification -/

/-- Starting from the triangle at position `t` and crossing edges which belong to just two triangles, an edge
which belongs to a single triangle is reached in `k` steps. -/
inductive FreeWithin (edges : List Edge) (triangles : List (List Int)) : ℕ → Fin triangles.length → Prop
  | free (t : Fin triangles.length) (e : Fin edges.length) : IsSide triangles[t] edges[e] →
      (∀ t' : Fin triangles.length, IsSide triangles[t'] edges[e] → t' = t) → FreeWithin edges triangles 1 t
  | step (k : ℕ) (t s : Fin triangles.length) (e : Fin edges.length) : IsSide triangles[t] edges[e] →
      (∀ t' : Fin triangles.length, IsSide triangles[t'] edges[e] → t' = t ∨ t' = s) →
      FreeWithin edges triangles k s → FreeWithin edges triangles (k + 1) t

/-- every triangle is at most `k` steps away from an edge of a single triangle -/
def DepthLE (edges : List Edge) (triangles : List (List Int)) (k : ℕ) : Prop :=
  ∀ t, ∃ j ≤ k, FreeWithin edges triangles j t

/-! ## Bounds -/

private theorem sideSign_side (t : List Int) (e : Edge) (h : IsSide t e) : sideSign t e = 1 ∨ sideSign t e = -1 := by
  obtain ⟨a, b, c, rfl, hs⟩ := h
  unfold sideSign
  by_cases c1 : Joins e a b ∨ Joins e b c
  · simp [c1]
  · have c2 : Joins e a c := by
      rcases hs with g | g | g
      · exact absurd (.inl g) c1
      · exact absurd (.inr g) c1
      · exact g
    simp [c1, c2]

private theorem sideSign_not (t : List Int) (e : Edge) (h : ¬ IsSide t e) : sideSign t e = 0 := by
  unfold sideSign
  split
  · next a b c =>
    have : ¬ Joins e a b ∧ ¬ Joins e b c ∧ ¬ Joins e a c :=
      ⟨fun g => h ⟨a, b, c, rfl, .inl g⟩, fun g => h ⟨a, b, c, rfl, .inr (.inl g)⟩,
        fun g => h ⟨a, b, c, rfl, .inr (.inr g)⟩⟩
    simp [this]
  · rfl

/-- a circulation around triangles is bounded by the flow on the edges, times the distance to an edge of one triangle -/
theorem depth_bound (hs : sc.OnSimpleGraph) (w : Fin sc.T → ℝ) (M : ℝ)
    (hM : ∀ e, |sc.B2.mulVec w e| ≤ M) (k : ℕ) (t : Fin sc.triangles.length)
    (h : FreeWithin sc.edges sc.triangles k t) : |w t| ≤ k * M := by
  have hval : ∀ e : Fin sc.edges.length, sc.B2.mulVec w e =
      ∑ t : Fin sc.triangles.length, (sideSign sc.triangles[t] sc.edges[e] : ℝ) * w t := by
    intro e
    change ∑ t : Fin sc.triangles.length, sc.B2 e t * w t = _
    exact Finset.sum_congr rfl fun t _ => by rw [b2_sideSign hs e t]
  have habs : ∀ (t : Fin sc.triangles.length) (e : Fin sc.edges.length), IsSide sc.triangles[t] sc.edges[e] →
      |(sideSign sc.triangles[t] sc.edges[e] : ℝ) * w t| = |w t| := by
    intro t e hte
    rcases sideSign_side _ _ hte with g | g <;> rw [g] <;> simp
  induction h with
  | free t e hte honly =>
    have h1 := hM e
    rw [hval, Finset.sum_eq_single t, habs t e hte] at h1
    · simpa using h1
    · intro t' _ hne
      rw [sideSign_not _ _ fun g => hne (honly t' g)]
      simp
    · simp
  | step k t s e hte honly _ ih =>
    have h1 := hM e
    rw [hval] at h1
    have hterm : |(sideSign sc.triangles[s] sc.edges[e] : ℝ) * w s| ≤ |w s| := by
      by_cases hse : IsSide sc.triangles[s] sc.edges[e]
      · rw [habs s e hse]
      · rw [sideSign_not _ _ hse]; simp
    have hM0 : 0 ≤ M := (abs_nonneg _).trans (hM e)
    push_cast
    by_cases hts : t = s
    · subst hts
      nlinarith
    · rw [Finset.sum_eq_add_of_mem t s (Finset.mem_univ _) (Finset.mem_univ _) hts] at h1
      · have h2 : |w t| - |w s| ≤ M := by
          have h3 := abs_sub_abs_le_abs_add ((sideSign sc.triangles[t] sc.edges[e] : ℝ) * w t)
            ((sideSign sc.triangles[s] sc.edges[e] : ℝ) * w s)
          rw [habs t e hte] at h3
          linarith
        linarith
      · intro t' _ hne
        rw [sideSign_not _ _ fun g => by rcases honly t' g with g | g
                                         · exact hne.1 g
                                         · exact hne.2 g]
        simp

private theorem small_circulation (hs : sc.OnSimpleGraph) (k : ℕ) (hk : DepthLE sc.edges sc.triangles k) (w : Fin sc.T → ℝ) :
    w ⬝ᵥ w ≤ (sc.triangles.length * k ^ 2 : ℝ) * (sc.B2.mulVec w ⬝ᵥ sc.B2.mulVec w) := by
  set S := sc.B2.mulVec w ⬝ᵥ sc.B2.mulVec w with hS
  have hS0 : 0 ≤ S := dot_self_nonneg _
  have hM : ∀ e, |sc.B2.mulVec w e| ≤ Real.sqrt S := by
    intro e
    apply Real.le_sqrt_of_sq_le
    rw [sq_abs, sq]
    exact Finset.single_le_sum (f := fun e => sc.B2.mulVec w e * sc.B2.mulVec w e)
      (fun _ _ => mul_self_nonneg _) (Finset.mem_univ e)
  have hterm : ∀ t : Fin sc.triangles.length, w t * w t ≤ k ^ 2 * S := by
    intro t
    obtain ⟨j, hj, hf⟩ := hk t
    have h1 := depth_bound hs w _ hM j t hf
    have h2 : |w t| ≤ k * Real.sqrt S :=
      h1.trans (mul_le_mul_of_nonneg_right (by exact_mod_cast hj) (Real.sqrt_nonneg _))
    have h3 : |w t| * |w t| ≤ (k * Real.sqrt S) * (k * Real.sqrt S) :=
      mul_le_mul h2 h2 (abs_nonneg _) (by positivity)
    rw [abs_mul_abs_self] at h3
    calc w t * w t ≤ _ := h3
      _ = k ^ 2 * (Real.sqrt S * Real.sqrt S) := by ring
      _ = k ^ 2 * S := by rw [Real.mul_self_sqrt hS0]
  calc w ⬝ᵥ w ≤ ∑ _t : Fin sc.triangles.length, (k ^ 2 * S : ℝ) := Finset.sum_le_sum fun t _ => hterm t
    _ = _ := by simp; ring

private theorem grad_pre (hb : sc.Built) (hr : EdgesInRange sc.nodes.length sc.edges) (hl : NoLoops sc.edges) (D : ℕ)
    (hD : DiameterLE (graphOf sc.nodes.length sc.edges) D) (q : Fin sc.N → ℝ) :
    ∃ p, sc.B1.transpose.mulVec p = sc.B1.transpose.mulVec q ∧
      p ⬝ᵥ p ≤ ((sc.nodes.length - 1 : ℕ) * D : ℝ) *
        (sc.B1.transpose.mulVec q ⬝ᵥ sc.B1.transpose.mulVec q) := small_potential sc hb hr hl D hD q

/-! ## C121 -/

/-- C121, lower Laplacian: a non-zero eigenvalue of `lower_laplacian_matrix(1)` is at least `1 / ((N - 1) D)`,
where `D` bounds the distance between connected nodes. -/
theorem C121_lower (sc : SC ℝ) (hb : sc.Built) (hr : EdgesInRange sc.nodes.length sc.edges) (hl : NoLoops sc.edges)
    (D : ℕ) (hD : DiameterLE (graphOf sc.nodes.length sc.edges) D) (lam : ℝ) (h : IsEigenvalue sc.L1l lam)
    (h0 : lam ≠ 0) : 1 ≤ ((sc.nodes.length - 1 : ℕ) * D : ℝ) * lam := by
  obtain ⟨v, hv, he⟩ := h
  refine eigenvalue_bound sc.B1.transpose _ (by positivity) (grad_pre hb hr hl D hD) lam v hv ?_ h0
  rw [transpose_transpose]
  exact he

/-- C121, upper Laplacian: a non-zero eigenvalue of `upper_laplacian_matrix(1)` is at least `1 / (T k²)`, if from
every triangle an edge of a single triangle is reached in `k` steps. -/
theorem C121_upper (sc : SC ℝ) (hs : sc.OnSimpleGraph) (k : ℕ) (hk : DepthLE sc.edges sc.triangles k) (lam : ℝ)
    (h : IsEigenvalue sc.L1u lam) (h0 : lam ≠ 0) : 1 ≤ (sc.triangles.length * k ^ 2 : ℝ) * lam := by
  obtain ⟨v, hv, he⟩ := h
  exact eigenvalue_bound sc.B2 _ (by positivity) (fun w => ⟨w, rfl, small_circulation hs k hk w⟩) lam v hv he h0

/-- C121: so the Hodge Laplacian has no eigenvalue in `(0, tol]` if the network is small enough for `tol`. -/
theorem C121_gap (sc : SC ℝ) (hs : sc.OnSimpleGraph) (ho : Oriented sc.edges sc.triangles) (D k : ℕ)
    (hD : DiameterLE (graphOf sc.nodes.length sc.edges) D) (hk : DepthLE sc.edges sc.triangles k) (tol : ℝ)
    (h1 : ((sc.nodes.length - 1 : ℕ) * D : ℝ) * tol < 1) (h2 : (sc.triangles.length * k ^ 2 : ℝ) * tol < 1) :
    NoSmallEigenvalue sc.L1 tol := by
  have hw : sc.WellFormed := ⟨hs.built, hs.inRange, hs.noLoops, ho⟩
  obtain ⟨h12, h21⟩ := C12_lower_upper_annihilate sc hw
  rintro lam v hv he ⟨hpos, hle⟩
  have e1 : sc.L1l.mulVec (sc.L1l.mulVec v) = lam • sc.L1l.mulVec v := by
    rw [← mulVec_smul, ← he, mulVec_mulVec, mulVec_mulVec]
    congr 1
    change sc.L1l * sc.L1l = sc.L1l * (sc.L1l + sc.L1u)
    rw [Matrix.mul_add, h12, add_zero]
  have e2 : sc.L1u.mulVec (sc.L1u.mulVec v) = lam • sc.L1u.mulVec v := by
    rw [← mulVec_smul, ← he, mulVec_mulVec, mulVec_mulVec]
    congr 1
    change sc.L1u * sc.L1u = sc.L1u * (sc.L1l + sc.L1u)
    rw [Matrix.mul_add, h21, zero_add]
  by_cases z1 : sc.L1l.mulVec v = 0
  · by_cases z2 : sc.L1u.mulVec v = 0
    · have : lam • v = 0 := by
        rw [← he]
        change (sc.L1l + sc.L1u).mulVec v = 0
        rw [add_mulVec, z1, z2, add_zero]
      rcases smul_eq_zero.mp this with g | g
      · exact hpos.ne' g
      · exact hv g
    · have := C121_upper sc hs k hk lam ⟨_, z2, e2⟩ hpos.ne'
      have h3 := mul_le_mul_of_nonneg_left hle (show (0 : ℝ) ≤ sc.triangles.length * k ^ 2 by positivity)
      linarith
  · have := C121_lower sc hs.built hs.inRange hs.noLoops D hD lam ⟨_, z1, e1⟩ hpos.ne'
    have h3 := mul_le_mul_of_nonneg_left hle (show (0 : ℝ) ≤ ((sc.nodes.length - 1 : ℕ) * D : ℝ) by positivity)
    linarith

/-- C121: with the default tolerance `1e-3` the harmonic eigenvectors returned are an orthonormal basis of exactly
the flows without divergence and curl, on every network with `(N - 1) D < 1000` and `T k² < 1000`. -/
theorem C121_default_tolerance (lib : NumLib) (sc : SC ℝ) (hs : sc.OnSimpleGraph) (ho : Oriented sc.edges sc.triangles)
    (hE : 0 < sc.edges.length) (D k : ℕ)
    (hD : DiameterLE (graphOf sc.nodes.length sc.edges) D) (hk : DepthLE sc.edges sc.triangles k)
    (h1 : (sc.nodes.length - 1) * D < 1000) (h2 : sc.triangles.length * k ^ 2 < 1000) :
    ∃ eh, sc.getComponentEigenpair lib "harmonic" = .ok eh ∧ eh.vecs.transpose * eh.vecs = 1 ∧
      ∀ f : Fin sc.edges.length → ℝ,
        (sc.getDivergence f = 0 ∧ sc.getCurl f = 0) ↔ ∃ a, eh.vecs.mulVec a = f := by
  have hw : sc.WellFormed := ⟨hs.built, hs.inRange, hs.noLoops, ho⟩
  refine C31_harmonic_space_partial hw ?_ hE
  apply C121_gap sc hs ho D k hD hk
  · have : (((sc.nodes.length - 1) * D : ℕ) : ℝ) < 1000 := by exact_mod_cast h1
    push_cast at this
    linarith
  · have : ((sc.triangles.length * k ^ 2 : ℕ) : ℝ) < 1000 := by exact_mod_cast h2
    push_cast at this
    linarith

/-- C121: in particular on every network of at most 32 nodes without filled triangles. -/
theorem C121_32_nodes (lib : NumLib) (sc : SC ℝ) (hs : sc.OnSimpleGraph) (hT : sc.triangles = [])
    (hE : 0 < sc.edges.length) (hN : sc.nodes.length ≤ 32) :
    ∃ eh, sc.getComponentEigenpair lib "harmonic" = .ok eh ∧ eh.vecs.transpose * eh.vecs = 1 ∧
      ∀ f : Fin sc.edges.length → ℝ,
        (sc.getDivergence f = 0 ∧ sc.getCurl f = 0) ↔ ∃ a, eh.vecs.mulVec a = f := by
  refine C121_default_tolerance lib sc hs (by rw [hT]; intro t ht; simp at ht) hE (sc.nodes.length - 1) 0
    (diameterLE_card _) ?_ ?_ ?_
  · rw [hT]
    intro t
    exact t.elim0
  · have h31 : sc.nodes.length - 1 ≤ 31 := by omega
    calc (sc.nodes.length - 1) * (sc.nodes.length - 1) ≤ 31 * 31 := Nat.mul_le_mul h31 h31
      _ < 1000 := by norm_num
  · rw [hT]; simp

/-! ## C122 -/

/-- C122, gradient: whatever potential `p` the solver returns, the flow `B1.T @ p` computed from it is within
`sqrt((N - 1) D)` times the divergence left in `f - B1.T @ p` of the gradient component. -/
theorem C122_gradient (sc : SC ℝ) (hb : sc.Built) (hr : EdgesInRange sc.nodes.length sc.edges) (hl : NoLoops sc.edges)
    (D : ℕ) (hD : DiameterLE (graphOf sc.nodes.length sc.edges) D) (f g c h : Fin sc.E → ℝ)
    (hp : HodgeParts lib sc f g c h) (p : Fin sc.N → ℝ) (g' : Fin sc.E → ℝ) (hg : g' = sc.B1.transpose.mulVec p) :
    (g' - g) ⬝ᵥ (g' - g) ≤
      ((sc.nodes.length - 1 : ℕ) * D : ℝ) * (sc.getDivergence (f - g') ⬝ᵥ sc.getDivergence (f - g')) := by
  obtain ⟨⟨⟨q, hq⟩, h1⟩, -, -⟩ := hp.proj
  have h2 := bounded_by_transpose sc.B1.transpose _ (by positivity) (grad_pre hb hr hl D hD) (p - q) (g' - g)
    (by rw [mulVec_sub, ← hg, hq])
  rw [transpose_transpose] at h1 h2
  have h3 : sc.B1.mulVec (g' - g) = -(sc.getDivergence (f - g')) := by
    change _ = -(sc.B1.mulVec (f - g'))
    rw [mulVec_sub, mulVec_sub, h1]
    abel
  rw [h3, neg_dotProduct_neg] at h2
  exact h2

/-- C122, curl: whatever `w` the solver returns, the flow `B2 @ w` is within `sqrt(T) k` times the curl left in
`f - B2 @ w` of the curl component. -/
theorem C122_curl (sc : SC ℝ) (hs : sc.OnSimpleGraph) (k : ℕ) (hk : DepthLE sc.edges sc.triangles k)
    (f g c h : Fin sc.E → ℝ) (hp : HodgeParts lib sc f g c h) (w : Fin sc.T → ℝ) (c' : Fin sc.E → ℝ)
    (hc : c' = sc.B2.mulVec w) :
    (c' - c) ⬝ᵥ (c' - c) ≤
      (sc.triangles.length * k ^ 2 : ℝ) * (sc.getCurl (f - c') ⬝ᵥ sc.getCurl (f - c')) := by
  obtain ⟨-, ⟨⟨q, hq⟩, h1⟩, -⟩ := hp.proj
  have h2 := bounded_by_transpose sc.B2 _ (by positivity)
    (fun w => ⟨w, rfl, small_circulation hs k hk w⟩) (w - q) (c' - c) (by rw [mulVec_sub, ← hc, hq])
  have h3 : sc.B2.transpose.mulVec (c' - c) = -(sc.getCurl (f - c')) := by
    change _ = -(sc.B2.transpose.mulVec (f - c'))
    rw [mulVec_sub, mulVec_sub, h1]
    abel
  rw [h3, neg_dotProduct_neg] at h2
  exact h2

/-- C122, harmonic: the flow `f - B1.T @ p - B2 @ w` computed from whatever the solvers return differs from the
harmonic component by no more than its own divergence and curl say. -/
theorem C122_harmonic (sc : SC ℝ) (hs : sc.OnSimpleGraph) (ho : Oriented sc.edges sc.triangles) (D k : ℕ)
    (hD : DiameterLE (graphOf sc.nodes.length sc.edges) D) (hk : DepthLE sc.edges sc.triangles k)
    (f g c h : Fin sc.E → ℝ) (hp : HodgeParts lib sc f g c h) (p : Fin sc.N → ℝ) (w : Fin sc.T → ℝ)
    (h' : Fin sc.E → ℝ) (hh : h' = f - sc.B1.transpose.mulVec p - sc.B2.mulVec w) :
    (h' - h) ⬝ᵥ (h' - h) ≤
      ((sc.nodes.length - 1 : ℕ) * D : ℝ) * (sc.getDivergence h' ⬝ᵥ sc.getDivergence h') +
      (sc.triangles.length * k ^ 2 : ℝ) * (sc.getCurl h' ⬝ᵥ sc.getCurl h') := by
  have hw : sc.WellFormed := ⟨hs.built, hs.inRange, hs.noLoops, ho⟩
  have k1 := C122_gradient sc hs.built hs.inRange hs.noLoops D hD f g c h hp p _ rfl
  have k2 := C122_curl sc hs k hk f g c h hp w _ rfl
  obtain ⟨⟨⟨q, hq⟩, -⟩, ⟨⟨r, hr⟩, -⟩, h3⟩ := hp.proj
  have hz := hw.b1_mul_b2
  have hz' : sc.B2.transpose * sc.B1.transpose = 0 := by
    rw [← transpose_mul, hz, transpose_zero]
  have d1 : sc.getDivergence h' = sc.getDivergence (f - sc.B1.transpose.mulVec p) := by
    change sc.B1.mulVec h' = sc.B1.mulVec _
    rw [hh, mulVec_sub _ _ (sc.B2.mulVec w), mulVec_mulVec, hz, zero_mulVec, sub_zero]
  have d2 : sc.getCurl h' = sc.getCurl (f - sc.B2.mulVec w) := by
    change sc.B2.transpose.mulVec h' = sc.B2.transpose.mulVec _
    rw [hh, sub_right_comm, mulVec_sub _ _ (sc.B1.transpose.mulVec p), mulVec_mulVec, hz', zero_mulVec, sub_zero]
  rw [d1, d2]
  have e : h' - h = -((sc.B1.transpose.mulVec p - g) + (sc.B2.mulVec w - c)) := by
    rw [hh, h3]; abel
  have horth : (sc.B1.transpose.mulVec p - g) ⬝ᵥ (sc.B2.mulVec w - c) = 0 := by
    rw [← hq, ← hr, ← mulVec_sub, ← mulVec_sub, dot_mulVec_transpose, mulVec_mulVec, hz', zero_mulVec, zero_dotProduct]
  rw [e, neg_dotProduct_neg, dot_add_sq, horth]
  linarith

/-- Non-vacuity of C121, C122: the sample complex, with a filled triangle and an unfilled cycle. -/
example (lib : NumLib) : ∃ sc : SC ℝ, sc.OnSimpleGraph ∧ Oriented sc.edges sc.triangles ∧ 0 < sc.edges.length ∧
    sc.triangles ≠ [] ∧ DiameterLE (graphOf sc.nodes.length sc.edges) 4 ∧ DepthLE sc.edges sc.triangles 1 ∧
    (sc.nodes.length - 1) * 4 < 1000 ∧ sc.triangles.length * 1 ^ 2 < 1000 ∧
    ∀ f, ∃ g c h, HodgeParts lib sc f g c h := by
  obtain ⟨sc, hw, hs, hn, he, ht⟩ := sample_wellFormed ℝ
  refine ⟨sc, hs, hw.oriented, by rw [he]; decide, by rw [ht]; decide, ?_, ?_, by rw [hn]; decide,
    by rw [ht]; decide, fun f => HodgeParts.exists lib sc f⟩
  · have := diameterLE_card (graphOf sc.nodes.length sc.edges)
    intro i j hij
    obtain ⟨w, hw⟩ := this i j hij
    refine ⟨w, hw.trans ?_⟩
    rw [hn]; decide
  · rw [he, ht]
    intro t
    refine ⟨1, le_refl _, .free t ⟨0, by decide⟩ ?_ ?_⟩
    · have : t = ⟨0, by decide⟩ := by
        have := t.2
        simp [sampleTriangles] at this
        exact Fin.ext this
      subst this
      exact ⟨0, 1, 2, rfl, .inl (.inl rfl)⟩
    · intro t' _
      have h1 := t.2
      have h2 := t'.2
      simp [sampleTriangles] at h1 h2
      exact Fin.ext (h2.trans h1.symm)

end Pytspl
