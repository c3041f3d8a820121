import Verif.Props.Connectivity
import Verif.Props.InexactEig

/-!
# C186: sharp accuracy

How far the computed gradient component can be off, in terms of the divergence that is left, with the best constant; and
inexact eigensolvers on networks of up to 98 nodes.
-/

namespace Pytspl

open Matrix

variable {lib : NumLib} {sc : SC ℝ}

theorem rate_pos {N : ℕ} (hN : 0 < N) : 0 < 2 - 2 * Real.cos (Real.pi / N) := by
  have hp := Real.pi_pos
  have h1 : (1 : ℝ) ≤ N := by exact_mod_cast hN
  have h2 : Real.cos (Real.pi / N) < Real.cos 0 :=
    Real.cos_lt_cos_of_nonneg_of_le_pi le_rfl (div_le_self hp.le h1) (by positivity)
  rw [Real.cos_zero] at h2
  linarith

/-- the divergence of a gradient flow is not small -/
theorem grad_energy (lib : NumLib) (hw : sc.WellFormed) (p : Fin sc.N → ℝ) {x : Fin sc.E → ℝ}
    (hx : sc.B1.transpose.mulVec p = x) :
    (2 - 2 * Real.cos (Real.pi / sc.N)) * (x ⬝ᵥ x) ≤ sc.B1.mulVec x ⬝ᵥ sc.B1.mulVec x := by
  rcases Nat.eq_zero_or_pos sc.N with hN | hN
  · have e : 2 - 2 * Real.cos (Real.pi / sc.N) = 0 := by rw [hN]; simp
    rw [e, zero_mul]
    exact Finset.sum_nonneg fun _ _ => mul_self_nonneg _
  have hmu := rate_pos hN
  have h2 := bounded_by_transpose sc.B1.transpose (2 - 2 * Real.cos (Real.pi / sc.N))⁻¹ (inv_pos.2 hmu).le (fun w => by
    have hn := lib.normal' sc.B1 w
    refine ⟨sc.B1.mulVec (lib.lstsq sc.N sc.E sc.B1 w), hn, ?_⟩
    have he := node_energy hw (lib.lstsq sc.N sc.E sc.B1 w)
    rw [hn] at he
    rw [inv_mul_eq_div, le_div_iff₀ hmu, mul_comm]
    exact he) p x hx
  rw [transpose_transpose, inv_mul_eq_div, le_div_iff₀ hmu, mul_comm] at h2
  exact h2

/-- C186: whatever potential `p` the least-squares solver returns, the squared distance of the flow `B1.T @ p` computed
from it to the gradient component is at most the squared divergence left in `f - B1.T @ p`, divided by
`2 - 2 cos (π/N)`. -/
theorem C186_gradient (hw : sc.WellFormed) {f g c h : Fin sc.E → ℝ} (hp : HodgeParts lib sc f g c h)
    (p : Fin sc.N → ℝ) {g' : Fin sc.E → ℝ} (hg : g' = sc.B1.transpose.mulVec p) :
    (2 - 2 * Real.cos (Real.pi / sc.N)) * ((g' - g) ⬝ᵥ (g' - g)) ≤
      sc.getDivergence (f - g') ⬝ᵥ sc.getDivergence (f - g') := by
  obtain ⟨⟨⟨q, hq⟩, h1⟩, -, -⟩ := hp.proj
  have h2 := grad_energy lib hw (p - q) (x := g' - g) (by rw [mulVec_sub, ← hg, hq])
  rw [transpose_transpose] at h1
  have h3 : sc.B1.mulVec (g' - g) = -(sc.getDivergence (f - g')) := by
    change _ = -(sc.B1.mulVec (f - g'))
    rw [mulVec_sub, mulVec_sub, h1]
    abel
  rw [h3, neg_dotProduct_neg] at h2
  exact h2

/-- C186: no constant is better: on the chain with `N` nodes there is, for every flow, a wrong potential for which the
two sides are equal. -/
theorem C186_best {s : Fin sc.E → ℝ} (hc : sc.IsChain s) {f g c h : Fin sc.E → ℝ} (hp : HodgeParts lib sc f g c h) :
    ∃ p : Fin sc.N → ℝ, sc.B1.transpose.mulVec p ≠ g ∧
      (2 - 2 * Real.cos (Real.pi / sc.N)) * ((sc.B1.transpose.mulVec p - g) ⬝ᵥ (sc.B1.transpose.mulVec p - g)) =
        sc.getDivergence (f - sc.B1.transpose.mulVec p) ⬝ᵥ sc.getDivergence (f - sc.B1.transpose.mulVec p) := by
  obtain ⟨v, hv, he⟩ := C185_attained hc
  obtain ⟨⟨⟨q, hq⟩, h1⟩, -, -⟩ := hp.proj
  have hsz := hc.size
  have hmu := rate_pos (N := sc.N) (by simp only [SC.N]; omega)
  set mu := 2 - 2 * Real.cos (Real.pi / sc.N)
  have hu : sc.L1u = 0 := by
    ext i j
    unfold SC.L1u
    rw [Matrix.mul_apply]
    exact Finset.sum_eq_zero fun k _ => absurd k.2 (by simp [hc.hollow])
  rw [SC.L1, hu, add_zero] at he
  have hb : sc.B1.transpose.mulVec (sc.B1.mulVec v) = mu • v := by rw [mulVec_mulVec]; exact he
  have hg : sc.B1.transpose.mulVec (q + mu⁻¹ • sc.B1.mulVec v) = g + v := by
    rw [mulVec_add, mulVec_smul, hb, smul_smul, inv_mul_cancel₀ hmu.ne', one_smul, hq]
  refine ⟨q + mu⁻¹ • sc.B1.mulVec v, ?_, ?_⟩
  · rw [hg]
    intro h0
    exact hv (by simpa using h0)
  · rw [hg, add_sub_cancel_left]
    rw [transpose_transpose] at h1
    have h3 : sc.getDivergence (f - (g + v)) = -(sc.B1.mulVec v) := by
      change sc.B1.mulVec (f - (g + v)) = _
      rw [mulVec_sub, mulVec_add, h1]
      abel
    rw [h3, neg_dotProduct_neg]
    have h4 : sc.B1.mulVec v ⬝ᵥ sc.B1.mulVec v = sc.B1.transpose.mulVec (sc.B1.mulVec v) ⬝ᵥ v := by
      rw [dotProduct_mulVec, ← mulVec_transpose]
    rw [h4, hb, smul_dotProduct, smul_eq_mul]

private theorem bound_98 {N : ℕ} (h1 : 1 ≤ N) (h : N ≤ 98) :
    1 / 1000 + 1 / 100000 < 2 - 2 * Real.cos (Real.pi / N) := by
  have hp := Real.pi_pos
  have hN1 : (1 : ℝ) ≤ N := by exact_mod_cast h1
  have hN : (N : ℝ) ≤ 98 := by exact_mod_cast h
  set y := Real.pi / 98 with hy
  have hxy : y ≤ Real.pi / N := div_le_div_of_nonneg_left hp.le (by linarith) hN
  have hx2 : Real.pi / N ≤ Real.pi := div_le_self hp.le hN1
  have hy0 : 0 < y := by rw [hy]; positivity
  have hcos : Real.cos (Real.pi / N) ≤ Real.cos y := Real.cos_le_cos_of_nonneg_of_le_pi hy0.le hx2 hxy
  have p1 := Real.pi_gt_d2
  have p2 := Real.pi_lt_d2
  have hy1 : 0.03204 < y := by rw [hy]; linarith
  have hy2 : y < 0.0322 := by rw [hy]; linarith
  have hb := Real.cos_bound (x := y) (by rw [abs_of_pos hy0]; linarith)
  rw [abs_of_pos hy0] at hb
  have hb' := (abs_le.1 hb).2
  have h4 : y ^ 4 ≤ 0.0000011 := by
    have : y ^ 2 ≤ 0.0322 ^ 2 := by nlinarith
    have h5 : y ^ 4 = y ^ 2 * y ^ 2 := by ring
    rw [h5]
    nlinarith [sq_nonneg y]
  have h2 : 0.03204 ^ 2 < y ^ 2 := by nlinarith
  norm_num at h2 h4 hb' ⊢
  linarith

private theorem hollow_gap (hw : sc.WellFormed) (hT : sc.triangles = []) (hN : sc.nodes.length ≤ 98) (hE : 0 < sc.E) :
    NoSmallEigenvalue sc.L1 (1 / 1000 + 1 / 100000) := by
  intro lam v hv he hc
  have hu : sc.L1u = 0 := by
    ext i j
    unfold SC.L1u
    rw [Matrix.mul_apply]
    exact Finset.sum_eq_zero fun k _ => absurd k.2 (by simp [hT])
  rw [SC.L1, hu, add_zero] at he
  have h1 := C185_bound hw ⟨v, hv, he⟩ hc.1.ne'
  have hr := hw.inRange sc.edges[(⟨0, hE⟩ : Fin sc.E)] (List.getElem_mem _)
  have h2 := bound_98 (N := sc.N) (by simp only [SC.N]; omega) hN
  linarith [hc.2]

/-- C186: on every network of at most 98 nodes without filled triangles an eigensolver with an error of up to `1/100000`
gives, with the default tolerance, as many harmonic, curl and gradient eigenvectors as the spaces have dimensions. -/
theorem C186_98_nodes (eigh : RawEigh) (hw : sc.WellFormed) (hT : sc.triangles = []) (hE : 0 < sc.E)
    (hN : sc.nodes.length ≤ 98) (hsol : SolvesUpTo eigh sc (1 / 100000)) :
    ∃ eh ec eg, sc.getComponentEigenpairOf eigh "harmonic" = .ok eh ∧ sc.getComponentEigenpairOf eigh "curl" = .ok ec ∧
      sc.getComponentEigenpairOf eigh "gradient" = .ok eg ∧ eh.num = sc.edges.length - sc.B1.rank ∧ ec.num = 0 ∧
      eg.num = sc.B1.rank := by
  obtain ⟨eh, ec, eg, hp⟩ := C127_ok eigh sc (1 / 1000) hE
  have k := C127_counts eigh hw _ _ (by norm_num) (by norm_num) (by unfold machineEps; norm_num) hsol
    (hollow_gap hw hT hN hE) eh ec eg hp
  have hT0 : sc.triangles.length = 0 := by rw [hT]; rfl
  have hr : sc.B2.rank = 0 := by
    have := sc.B2.rank_le_card_width
    rw [Fintype.card_fin] at this
    exact Nat.le_zero.mp (this.trans hT0.le)
  refine ⟨eh, ec, eg, hp.harm, hp.curl, hp.grad, ?_, ?_, ?_⟩
  · rw [k.2.2.2, hr]; rfl
  · have := k.2.1; omega
  · have := k.1; omega

/-- C186: and what `get_simplicial_embeddings` computes with it, put back on the eigenvectors, is within 2 percent of the
length of the flow of its gradient and harmonic component, and has no curl part. -/
theorem C186_embeddings (eigh : RawEigh) (hw : sc.WellFormed) (hT : sc.triangles = []) (hE : 0 < sc.E)
    (hN : sc.nodes.length ≤ 98) (hsol : SolvesUpTo eigh sc (1 / 100000)) {f g c h : Fin sc.E → ℝ}
    (hf : HodgeParts lib sc f g c h) :
    ∃ (eh ec eg : EigPairs sc.E) (ah : Fin eh.num → ℝ) (ac : Fin ec.num → ℝ) (ag : Fin eg.num → ℝ),
      sc.getComponentEigenpairOf eigh "harmonic" = .ok eh ∧ sc.getComponentEigenpairOf eigh "gradient" = .ok eg ∧
      sc.getSimplicialEmbeddingsOf eigh f = .ok (⟨_, ah⟩, ⟨_, ac⟩, ⟨_, ag⟩) ∧ ec.num = 0 ∧
      (eh.vecs.mulVec ah - h) ⬝ᵥ (eh.vecs.mulVec ah - h) ≤ (1 / 50) ^ 2 * (f ⬝ᵥ f) ∧
      (eg.vecs.mulVec ag - g) ⬝ᵥ (eg.vecs.mulVec ag - g) ≤ (1 / 50) ^ 2 * (f ⬝ᵥ f) := by
  obtain ⟨eh, ec, eg, hp⟩ := C127_ok eigh sc (1 / 1000) hE
  have hgap := hollow_gap hw hT hN hE
  have k := C127_counts eigh hw _ _ (by norm_num) (by norm_num) (by unfold machineEps; norm_num) hsol hgap eh ec eg hp
  obtain ⟨ah, ac, ag, h1, h2, -, h4⟩ :=
    C127_embeddings eigh hw (1 / 100000) (by norm_num) (by norm_num) hsol hgap eh ec eg hp f g c h hf
  have hT0 : sc.triangles.length = 0 := by rw [hT]; rfl
  have hr : sc.B2.rank = 0 := by
    have := sc.B2.rank_le_card_width
    rw [Fintype.card_fin] at this
    exact Nat.le_zero.mp (this.trans hT0.le)
  have e : (2000 * (1 / 100000) : ℝ) = 1 / 50 := by norm_num
  rw [e] at h2 h4
  exact ⟨eh, ec, eg, ah, ac, ag, hp.harm, hp.grad, h1, by rw [k.2.2.1, hr], h2, h4⟩

/-- The chain with 98 nodes, and a solver without error, meet the hypotheses. -/
example (lib : NumLib) : ∃ sc : SC ℝ, sc.WellFormed ∧ sc.triangles = [] ∧ 0 < sc.E ∧ sc.nodes.length = 98 ∧
    SolvesUpTo lib.eigh sc (1 / 100000) ∧ ∀ f, ∃ g c h, HodgeParts lib sc f g c h := by
  obtain ⟨sc, s, h, e⟩ := chain_exists 97 (by norm_num)
  have hs := h.size
  have : sc.edges.length = 97 := e
  have key : ∀ {m : ℕ} (A : Matrix (Fin m) (Fin m) ℝ), SymmPSD A →
      Reconstructs (1 / 100000) A (lib.eigh _ A).2 (lib.eigh m A).1 := by
    intro m A hA
    have h := lib.isEig hA
    refine ⟨h.orth, fun x => ?_⟩
    have e : A - (lib.eigh _ A).2 * diagonal (lib.eigh m A).1 * (lib.eigh _ A).2.transpose = 0 := by
      rw [← h.recon, sub_self]
    rw [e, zero_mulVec, zero_dotProduct]
    have : 0 ≤ x ⬝ᵥ x := Finset.sum_nonneg fun _ _ => mul_self_nonneg _
    positivity
  exact ⟨sc, h.wellFormed, h.hollow, h.nonempty, by omega,
    ⟨key _ (symmPSD_L1 sc), key _ (symmPSD_L1l sc), key _ (symmPSD_L1u sc)⟩, fun f => HodgeParts.exists lib sc f⟩

end Pytspl
