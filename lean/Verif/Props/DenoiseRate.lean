import Verif.Props.SharpAccuracy
import Verif.Props.EdgeFlow
import Verif.Props.FrequencyBounds

/-!
# C187: how much of the gradient component denoising removes

Between `1/(1 + mu N)` and `1/(1 + mu (2 - 2 cos (π/N)))` of the gradient component is left by
`EdgeFlowDenoising.denoise` with the lower Laplacian, on every network of `N` nodes.
-/

namespace Pytspl

open Matrix

variable {lib : NumLib} {sc : SC ℝ}

private theorem rest {f g c h x : Fin sc.E → ℝ} (hp : HodgeParts lib sc f g c h) {H : Matrix (Fin sc.E) (Fin sc.E) ℝ}
    {mu : ℝ} (hH : IsDenoiser sc.L1l H mu) (hx : x = H.mulVec f) :
    g = (x - (f - g)) + mu • sc.L1l.mulVec (x - (f - g)) ∧ ∃ p, sc.B1.transpose.mulVec p = x - (f - g) := by
  obtain ⟨⟨⟨q, hq⟩, h1⟩, -, -⟩ := hp.proj
  obtain ⟨hi, -, -, hk⟩ := hH
  rw [transpose_transpose] at h1
  have h2 : sc.L1l.mulVec (f - g) = 0 := by
    unfold SC.L1l
    rw [← mulVec_mulVec, mulVec_sub, h1, sub_self, mulVec_zero]
  have h3 : x - (f - g) = H.mulVec g := by
    have e := hk _ h2
    rw [mulVec_sub] at e
    rw [hx, ← e]
    abel
  have h4 : g = (x - (f - g)) + mu • sc.L1l.mulVec (x - (f - g)) := by
    rw [h3]
    have := congrArg (fun M => M.mulVec g) hi
    simp only [one_mulVec] at this
    rw [← mulVec_mulVec, add_mulVec, one_mulVec, smul_mulVec] at this
    exact this.symm
  refine ⟨h4, q - mu • sc.B1.mulVec (x - (f - g)), ?_⟩
  have h5 : sc.B1.transpose.mulVec (sc.B1.mulVec (x - (f - g))) = sc.L1l.mulVec (x - (f - g)) := by
    unfold SC.L1l
    rw [mulVec_mulVec]
  rw [mulVec_sub, mulVec_smul, h5, hq]
  nth_rewrite 1 [h4]
  abel

/-- C187: with the lower Laplacian and `mu >= 0` the call returns, and what it leaves of the gradient component, next to
the rest of the flow, is a gradient flow and at most `1/(1 + mu (2 - 2 cos (π/N)))` times as long as the gradient component. -/
theorem C187_at_most (hw : sc.WellFormed) (hE : 0 < sc.E) (st : FilterSt sc.E) (hst : st.Valid)
    (f fTrue : Fin sc.E → ℝ) {g c h : Fin sc.E → ℝ} (hp : HodgeParts lib sc f g c h) (muVals : List ℝ)
    (hmu : ∀ m ∈ muVals, 0 ≤ m) (mu : ℝ) (hl : muVals.getLast? = some mu) :
    ∃ st' x, edgeFlowDenoise lib sc st f fTrue "L1L" muVals = (.ok (), st') ∧
      st'.history.get? "f_estimated" = some (.vec x) ∧ (∃ p, sc.B1.transpose.mulVec p = x - (f - g)) ∧
      (1 + mu * (2 - 2 * Real.cos (Real.pi / sc.N))) * norm2 (x - (f - g)) ≤ norm2 g := by
  obtain ⟨st', H, h1, -, h2, hH⟩ := C59_denoise (lib := lib) hE (pChoice := "L1L") (P := sc.L1l) rfl st hst f fTrue
    muVals hmu mu hl
  have hmu0 := hmu mu (List.mem_of_getLast? hl)
  obtain ⟨e, p, hpot⟩ := rest hp hH rfl
  refine ⟨st', _, h1, h2, ⟨p, hpot⟩, ?_⟩
  set d := H.mulVec f - (f - g) with hd
  have hen := grad_energy lib hw p hpot
  have hq : d ⬝ᵥ sc.L1l.mulVec d = sc.B1.mulVec d ⬝ᵥ sc.B1.mulVec d := by
    unfold SC.L1l
    rw [← mulVec_mulVec, dotProduct_mulVec, ← mulVec_transpose, transpose_transpose]
  have h3 : (1 + mu * (2 - 2 * Real.cos (Real.pi / sc.N))) * (d ⬝ᵥ d) ≤ d ⬝ᵥ g := by
    have e' : d ⬝ᵥ g = d ⬝ᵥ d + mu * (d ⬝ᵥ sc.L1l.mulVec d) := by
      have := congrArg (fun z => d ⬝ᵥ z) e
      simp only [dotProduct_add, dotProduct_smul, smul_eq_mul] at this
      exact this
    rw [e', hq]
    nlinarith [mul_le_mul_of_nonneg_left hen hmu0]
  have h4 := dot_le_norm2 d g
  rw [← norm2_sq] at h3
  rcases (norm2_nonneg d).eq_or_lt with h0 | h0
  · rw [← h0, mul_zero]; exact norm2_nonneg g
  · nlinarith

/-- C187: and at least `1/(1 + mu N)` times as long. -/
theorem C187_at_least (hw : sc.WellFormed) (hn : NoRepeats sc.edges) (htr : sc.triangles.Nodup) (hE : 0 < sc.E)
    (st : FilterSt sc.E) (hst : st.Valid) (f fTrue : Fin sc.E → ℝ) {g c h : Fin sc.E → ℝ}
    (hp : HodgeParts lib sc f g c h) (muVals : List ℝ) (hmu : ∀ m ∈ muVals, 0 ≤ m) (mu : ℝ)
    (hl : muVals.getLast? = some mu) :
    ∃ st' x, edgeFlowDenoise lib sc st f fTrue "L1L" muVals = (.ok (), st') ∧
      st'.history.get? "f_estimated" = some (.vec x) ∧
      norm2 g ≤ (1 + mu * sc.nodes.length) * norm2 (x - (f - g)) := by
  obtain ⟨st', H, h1, -, h2, hH⟩ := C59_denoise (lib := lib) hE (pChoice := "L1L") (P := sc.L1l) rfl st hst f fTrue
    muVals hmu mu hl
  refine ⟨st', _, h1, h2, ?_⟩
  have hmu0 := hmu mu (List.mem_of_getLast? hl)
  obtain ⟨e, -⟩ := rest hp hH rfl
  set d := H.mulVec f - (f - g) with hd
  have hdiv : ∀ y : Fin sc.E → ℝ, norm2 (sc.B1.mulVec y) ^ 2 ≤ sc.nodes.length * norm2 y ^ 2 := by
    intro y
    have h3 := C165_energy hw hn htr y
    have h4 : 0 ≤ ∑ t, sc.getCurl y t ^ 2 := Finset.sum_nonneg fun _ _ => sq_nonneg _
    rw [norm2_sq, norm2_sq]
    have e1 : sc.B1.mulVec y ⬝ᵥ sc.B1.mulVec y = ∑ v, sc.getDivergence y v ^ 2 :=
      Finset.sum_congr rfl fun v _ => (sq _).symm
    have e2 : y ⬝ᵥ y = ∑ k, y k ^ 2 := Finset.sum_congr rfl fun v _ => (sq _).symm
    rw [e1, e2]
    linarith
  have hN0 : (0 : ℝ) ≤ sc.nodes.length := Nat.cast_nonneg _
  have hL : norm2 (sc.L1l.mulVec d) ≤ sc.nodes.length * norm2 d := by
    set y := sc.L1l.mulVec d with hy
    have h3 : y ⬝ᵥ y = sc.B1.mulVec d ⬝ᵥ sc.B1.mulVec y := by
      nth_rewrite 1 [hy]
      unfold SC.L1l
      rw [← mulVec_mulVec, dotProduct_comm, dotProduct_mulVec, ← mulVec_transpose, transpose_transpose, dotProduct_comm]
    have h4 := dot_le_norm2 (sc.B1.mulVec d) (sc.B1.mulVec y)
    rw [← h3, ← norm2_sq] at h4
    have h5 := hdiv d
    have h6 := hdiv y
    have n1 := norm2_nonneg d
    have n2 := norm2_nonneg y
    have n3 := norm2_nonneg (sc.B1.mulVec d)
    have n4 := norm2_nonneg (sc.B1.mulVec y)
    have h7 : (norm2 y ^ 2) ^ 2 ≤ (sc.nodes.length * norm2 d * norm2 y) ^ 2 := by
      calc (norm2 y ^ 2) ^ 2 ≤ (norm2 (sc.B1.mulVec d) * norm2 (sc.B1.mulVec y)) ^ 2 :=
            pow_le_pow_left₀ (by positivity) h4 2
        _ = norm2 (sc.B1.mulVec d) ^ 2 * norm2 (sc.B1.mulVec y) ^ 2 := by ring
        _ ≤ (sc.nodes.length * norm2 d ^ 2) * (sc.nodes.length * norm2 y ^ 2) :=
            mul_le_mul h5 h6 (by positivity) (by positivity)
        _ = _ := by ring
    have h8 := le_of_sq_le_sq h7 (by positivity)
    rcases n2.eq_or_lt with h0 | h0
    · rw [← h0]; positivity
    · nlinarith
  calc norm2 g = norm2 (d + mu • sc.L1l.mulVec d) := congrArg norm2 e
    _ ≤ norm2 d + norm2 (mu • sc.L1l.mulVec d) := norm2_add_le _ _
    _ = norm2 d + mu * norm2 (sc.L1l.mulVec d) := by rw [norm2_smul, abs_of_nonneg hmu0]
    _ ≤ _ := by nlinarith

/-- C187: on the chain of `N` nodes there is a flow for which the first bound is an equality. -/
theorem C187_chain {s : Fin sc.E → ℝ} (hc : sc.IsChain s) (st : FilterSt sc.E) (hst : st.Valid)
    (fTrue : Fin sc.E → ℝ) (muVals : List ℝ) (hmu : ∀ m ∈ muVals, 0 ≤ m) (mu : ℝ) (hl : muVals.getLast? = some mu) :
    ∃ f : Fin sc.E → ℝ, f ≠ 0 ∧ HodgeParts lib sc f f 0 0 ∧ ∃ st',
      edgeFlowDenoise lib sc st f fTrue "L1L" muVals = (.ok (), st') ∧
      st'.history.get? "f_estimated" = some (.vec ((1 + mu * (2 - 2 * Real.cos (Real.pi / sc.N)))⁻¹ • f)) := by
  obtain ⟨v, hv, he⟩ := C185_attained hc
  have hu : sc.L1u = 0 := by
    ext i j
    unfold SC.L1u
    rw [Matrix.mul_apply]
    exact Finset.sum_eq_zero fun k _ => absurd k.2 (by simp [hc.hollow])
  rw [SC.L1, hu, add_zero] at he
  obtain ⟨st', H, h1, -, h2, hH⟩ := C59_denoise (lib := lib) hc.nonempty (pChoice := "L1L") (P := sc.L1l) rfl st hst v
    fTrue muVals hmu mu hl
  have hsz := hc.size
  have hmu0 := hmu mu (List.mem_of_getLast? hl)
  have hr := rate_pos (N := sc.N) (by simp only [SC.N]; omega)
  refine ⟨v, hv, C182_components hc v, st', h1, ?_⟩
  rw [h2]
  congr 2
  set r := 2 - 2 * Real.cos (Real.pi / sc.N)
  have hpos : 0 < 1 + mu * r := by positivity
  have h3 : (1 + mu • sc.L1l).mulVec v = (1 + mu * r) • v := by
    rw [add_mulVec, one_mulVec, smul_mulVec, he, smul_smul, add_smul, one_smul]
  have h4 : H * (1 + mu • sc.L1l) = 1 := mul_eq_one_comm.1 hH.1
  have h5 : H.mulVec ((1 + mu * r) • v) = v := by rw [← h3, mulVec_mulVec, h4, one_mulVec]
  rw [mulVec_smul] at h5
  have h6 := congrArg (fun z => (1 + mu * r)⁻¹ • z) h5
  simp only [smul_smul, inv_mul_cancel₀ hpos.ne', one_smul] at h6
  exact h6

/-- A filled triangle next to an open one, and a fresh object, meet the hypotheses. -/
example (lib : NumLib) : ∃ (sc : SC ℝ) (st : FilterSt sc.E), sc.WellFormed ∧ NoRepeats sc.edges ∧ sc.triangles.Nodup ∧
    sc.triangles ≠ [] ∧ 0 < sc.E ∧ st.Valid ∧ ∀ f, ∃ g c h, HodgeParts lib sc f g c h := by
  obtain ⟨sc, hw, hs, hn, he, ht⟩ := sample_wellFormed ℝ
  exact ⟨sc, initFilter _, hw, hs.noRepeats, by rw [ht]; decide, by rw [ht]; decide,
    by simp only [SC.E]; rw [he]; decide, by simp [FilterSt.Valid, initFilter], fun f => HodgeParts.exists lib sc f⟩

end Pytspl
