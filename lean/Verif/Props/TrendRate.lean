import Verif.Props.DenoiseRate
import Verif.Props.TrendFilter

/-!
# C189: how much divergence the l2 trend filter removes
-/

namespace Pytspl

open Matrix

variable {lib : NumLib} {sc : SC ℝ}

private theorem stored_eq (hE : 0 < sc.E) {st st' : TrendHistory sc.E} {flow : Fin sc.E → ℝ} {component : String}
    (hc : component = "divergence" ∨ component = "curl") {realisations : ℕ} {snrDb : List ℝ} {mu : ℝ} (hmu : 0 ≤ mu)
    {noise : ℕ → ℕ → Fin sc.E → ℝ}
    (h : sc.denoisingL2 st flow component realisations snrDb mu noise = (.ok (), st')) {i j : ℕ} {db : ℝ}
    {x : Fin sc.E → ℝ} (hi : snrDb[i]? = some db) (hj : j < realisations) (hx : Stored st' i j x) :
    x + mu • sc.B1.transpose.mulVec (sc.B1.mulVec x) = noisy flow db (noise i j) := by
  have hs : snrDb ≠ [] := by rintro rfl; simp at hi
  obtain ⟨st2, H, h1, -, -, -, h2⟩ := C67_divergence_partial sc hE st flow component hc realisations (by omega) snrDb hs
    mu hmu noise
  rw [h] at h1
  cases h1
  exact (h2 i j db x hi hj hx).1

/-- C189: every flow stored by `denoising_l2_regularizer` has at most `1/(1 + mu (2 - 2 cos (π/N)))` of the divergence of
the noisy flow, for either component. -/
theorem C189_at_most (hw : sc.WellFormed) (hE : 0 < sc.E) (st st' : TrendHistory sc.E) (flow : Fin sc.E → ℝ)
    (component : String) (hc : component = "divergence" ∨ component = "curl") (realisations : ℕ) (snrDb : List ℝ)
    (mu : ℝ) (hmu : 0 ≤ mu) (noise : ℕ → ℕ → Fin sc.E → ℝ)
    (h : sc.denoisingL2 st flow component realisations snrDb mu noise = (.ok (), st')) (i j : ℕ) (db : ℝ)
    (x : Fin sc.E → ℝ) (hi : snrDb[i]? = some db) (hj : j < realisations) (hx : Stored st' i j x) :
    (1 + mu * (2 - 2 * Real.cos (Real.pi / sc.N))) * norm2 (sc.getDivergence x) ≤
      norm2 (sc.getDivergence (noisy flow db (noise i j))) := by
  have e := stored_eq hE hc hmu h hi hj hx
  rw [← e]
  change _ * norm2 (sc.B1.mulVec x) ≤ norm2 (sc.B1.mulVec _)
  rw [mulVec_add, mulVec_smul]
  have hen := node_energy hw x
  set u := sc.B1.mulVec x with hu
  have hq : u ⬝ᵥ sc.B1.mulVec (sc.B1.transpose.mulVec u) =
      sc.B1.transpose.mulVec u ⬝ᵥ sc.B1.transpose.mulVec u := by
    rw [dotProduct_mulVec, ← mulVec_transpose]
  have h3 : (1 + mu * (2 - 2 * Real.cos (Real.pi / sc.N))) * (u ⬝ᵥ u) ≤
      u ⬝ᵥ (u + mu • sc.B1.mulVec (sc.B1.transpose.mulVec u)) := by
    rw [dotProduct_add, dotProduct_smul, smul_eq_mul, hq]
    nlinarith [mul_le_mul_of_nonneg_left hen hmu]
  have h4 := dot_le_norm2 u (u + mu • sc.B1.mulVec (sc.B1.transpose.mulVec u))
  rw [← norm2_sq] at h3
  rcases (norm2_nonneg u).eq_or_lt with h0 | h0
  · rw [← h0, mul_zero]; exact norm2_nonneg _
  · nlinarith

/-- C189: and at least `1/(1 + mu N)` of it. -/
theorem C189_at_least (hw : sc.WellFormed) (hn : NoRepeats sc.edges) (htr : sc.triangles.Nodup) (hE : 0 < sc.E)
    (st st' : TrendHistory sc.E) (flow : Fin sc.E → ℝ)
    (component : String) (hc : component = "divergence" ∨ component = "curl") (realisations : ℕ) (snrDb : List ℝ)
    (mu : ℝ) (hmu : 0 ≤ mu) (noise : ℕ → ℕ → Fin sc.E → ℝ)
    (h : sc.denoisingL2 st flow component realisations snrDb mu noise = (.ok (), st')) (i j : ℕ) (db : ℝ)
    (x : Fin sc.E → ℝ) (hi : snrDb[i]? = some db) (hj : j < realisations) (hx : Stored st' i j x) :
    norm2 (sc.getDivergence (noisy flow db (noise i j))) ≤
      (1 + mu * sc.nodes.length) * norm2 (sc.getDivergence x) := by
  have e := stored_eq hE hc hmu h hi hj hx
  rw [← e]
  change norm2 (sc.B1.mulVec _) ≤ _ * norm2 (sc.B1.mulVec x)
  rw [mulVec_add, mulVec_smul]
  set u := sc.B1.mulVec x with hu
  set y := sc.B1.transpose.mulVec u with hy
  have hN0 : (0 : ℝ) ≤ sc.nodes.length := Nat.cast_nonneg _
  have hdiv : norm2 (sc.B1.mulVec y) ^ 2 ≤ sc.nodes.length * norm2 y ^ 2 := by
    have h3 := C165_energy hw hn htr y
    have h4 : 0 ≤ ∑ t, sc.getCurl y t ^ 2 := Finset.sum_nonneg fun _ _ => sq_nonneg _
    rw [norm2_sq, norm2_sq]
    have e1 : sc.B1.mulVec y ⬝ᵥ sc.B1.mulVec y = ∑ v, sc.getDivergence y v ^ 2 :=
      Finset.sum_congr rfl fun v _ => (sq _).symm
    have e2 : y ⬝ᵥ y = ∑ k, y k ^ 2 := Finset.sum_congr rfl fun v _ => (sq _).symm
    rw [e1, e2]
    linarith
  have hL : norm2 (sc.B1.mulVec y) ≤ sc.nodes.length * norm2 u := by
    have h3 : norm2 y ^ 2 = u ⬝ᵥ sc.B1.mulVec y := by
      rw [norm2_sq, dotProduct_mulVec, ← mulVec_transpose, transpose_transpose, dotProduct_comm]
    have h4 := dot_le_norm2 u (sc.B1.mulVec y)
    rw [← h3] at h4
    have n1 := norm2_nonneg u
    rcases (norm2_nonneg (sc.B1.mulVec y)).eq_or_lt with h0 | h0
    · rw [← h0]; positivity
    · nlinarith [mul_le_mul_of_nonneg_left h4 hN0]
  calc norm2 (u + mu • sc.B1.mulVec y) ≤ norm2 u + norm2 (mu • sc.B1.mulVec y) := norm2_add_le _ _
    _ = norm2 u + mu * norm2 (sc.B1.mulVec y) := by rw [norm2_smul, abs_of_nonneg hmu]
    _ ≤ _ := by nlinarith [mul_le_mul_of_nonneg_left hL hmu]

/-- The call returns and stores flows on the sample complex. -/
example (noise : ∀ E, ℕ → ℕ → Fin E → ℝ) : ∃ (sc : SC ℝ), sc.WellFormed ∧ NoRepeats sc.edges ∧ sc.triangles.Nodup ∧
    0 < sc.E ∧ ∀ (st : TrendHistory sc.E) (flow : Fin sc.E → ℝ), ∃ st',
      sc.denoisingL2 st flow "divergence" 3 [0, 10] (1 / 2) (noise sc.E) = (.ok (), st') ∧ StoredShape st' 2 3 := by
  obtain ⟨sc, hw, hs, hn, he, ht⟩ := sample_wellFormed ℝ
  have hE : 0 < sc.E := by simp only [SC.E]; rw [he]; decide
  refine ⟨sc, hw, hs.noRepeats, by rw [ht]; decide, hE, fun st flow => ?_⟩
  obtain ⟨st', H, h1, -, -, h2, -⟩ := C67_divergence_partial sc hE st flow "divergence" (.inl rfl) 3 (by norm_num)
    [0, 10] (by simp) (1 / 2) (by norm_num) (noise sc.E)
  exact ⟨st', h1, h2⟩

end Pytspl
