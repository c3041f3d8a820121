import Verif.Props.TrendWeights
import Verif.Lemmas.Poincare
import Verif.Props.Eigen

/-!
# C192: below which weight the l1 trend filter changes nothing

By C134 it returns the noisy flow as it is if `mu < 1 / (2 √E)`. On no bipartite network would a larger number do.
-/

namespace Pytspl

open Matrix

variable {sc : SC ℝ}

/-- The network is bipartite: each edge joins a node of one kind, for which `black` holds, and a node of the other. -/
def TwoColoured (edges : List Edge) (black : Int → Bool) : Prop :=
  ∀ e ∈ edges, black e.1 ≠ black e.2

/-- C192: with a weight above `1 / (2 √E)` and the flow of one unit over each edge, from its black to its white end, a call of
the order 0 which adds no noise does not store the flow it was given. -/
theorem C192_best (cvx : CvxSolver) (hw : sc.WellFormed) (hE : 0 < sc.E) (black : Int → Bool)
    (hb : TwoColoured sc.edges black) (st : TrendHistory sc.E) (u : Fin sc.E → ℝ)
    (hu : ∀ e : Fin sc.edges.length, u e = if black sc.edges[e].1 then 1 else -1) (db mu : ℝ)
    (hmu : 1 < 2 * mu * √sc.E) :
    ∃ st' x, sc.denoisingL1 cvx st u "divergence" 1 [db] 0 mu (fun _ _ => 0) = (.ok (), st') ∧ Stored st' 0 0 x ∧
      noisy u db 0 = u ∧ x ≠ u := by
  have hS : sc.getShiftOperator "divergence" ((0 : ℕ) : Int) = .ok ⟨sc.N, sc.B1⟩ := rfl
  have hs0 := Real.sqrt_nonneg (sc.E : ℝ)
  have h0 : 0 ≤ mu := by
    by_contra hneg
    nlinarith
  obtain ⟨st', h1, -, h2⟩ := denoisingL1_run cvx sc hE st u "divergence" (.inl rfl) 1 [db] 0 mu h0 (fun _ _ => 0) hS
  have h3 := (h2 0 0 db _ rfl one_pos).2 rfl
  have hno : noisy u db 0 = u := by
    funext k
    simp [noisy]
  refine ⟨st', _, h1, h3, hno, ?_⟩
  have hbest := run_best cvx hE (.inl rfl) h0 (order := 0) h1 hS (db := db) rfl one_pos h3
  intro hx
  rw [hx] at hbest
  have h4 := hbest 0
  change norm2 (noisy u db 0 - u) + _ ≤ norm2 (noisy u db 0 - 0) + _ at h4
  have z1 : norm1 (0 : Fin sc.N → ℝ) = 0 := by simp [norm1]
  have z2 : norm2 (0 : Fin sc.E → ℝ) = 0 := by
    have := norm2_sq (0 : Fin sc.E → ℝ)
    rw [dotProduct_zero] at this
    exact pow_eq_zero_iff (two_ne_zero) |>.1 this
  rw [hno, sub_zero, sub_self, mulVec_zero, z1, z2, mul_zero, add_zero, zero_add] at h4
  have hsq := Real.mul_self_sqrt (Nat.cast_nonneg sc.E : (0 : ℝ) ≤ sc.E)
  have h5 : norm2 u = √sc.E := by
    refine Eq.symm (Real.sqrt_eq_iff_mul_self_eq (Nat.cast_nonneg _) (norm2_nonneg _) |>.2 ?_)
    rw [← sq, norm2_sq]
    have : ∀ k : Fin sc.edges.length, u k * u k = 1 := by
      intro k
      rw [hu k]
      split <;> norm_num
    refine Eq.symm ?_
    calc u ⬝ᵥ u = ∑ _k : Fin sc.edges.length, (1 : ℝ) := Finset.sum_congr rfl fun k _ => this k
      _ = _ := by simp [SC.E]
  have h6 : 2 * (sc.E : ℝ) ≤ norm1 (sc.B1.mulVec u) := by
    let c : Fin sc.N → ℝ := fun v => if black ((v : ℕ) : Int) then -1 else 1
    have hval : ∀ z : Int, 0 ≤ z → z < sc.nodes.length → valueAt c z = if black z then -1 else 1 := by
      intro z hz1 hz2
      unfold valueAt
      rw [dif_pos ⟨hz1, hz2⟩]
      simp only [c]
      rw [Int.toNat_of_nonneg hz1]
    have h7 : c ⬝ᵥ sc.B1.mulVec u = 2 * sc.E := by
      rw [dotProduct_mulVec, ← mulVec_transpose]
      have hk : ∀ k : Fin sc.edges.length, sc.B1.transpose.mulVec c k * u k = 2 := by
        intro k
        have hm : sc.edges[k] ∈ sc.edges := List.getElem_mem _
        obtain ⟨⟨a1, a2⟩, b1, b2⟩ := hw.inRange _ hm
        have hne := hb _ hm
        rw [b1_transpose_apply hw.built hw.inRange hw.noLoops c k, hval _ a1 a2, hval _ b1 b2, hu k]
        cases hx1 : black sc.edges[k].1 <;> cases hx2 : black sc.edges[k].2
        · exact absurd (hx1.trans hx2.symm) hne
        · norm_num
        · norm_num
        · exact absurd (hx1.trans hx2.symm) hne
      calc sc.B1.transpose.mulVec c ⬝ᵥ u = ∑ _k : Fin sc.edges.length, (2 : ℝ) := Finset.sum_congr rfl fun k _ => hk k
        _ = _ := by simp [SC.E, mul_comm]
    rw [← h7]
    refine Finset.sum_le_sum fun v _ => ?_
    calc c v * sc.B1.mulVec u v ≤ |c v * sc.B1.mulVec u v| := le_abs_self _
      _ = |sc.B1.mulVec u v| := by
        rw [abs_mul]
        have : |c v| = 1 := by
          simp only [c]
          split <;> simp
        rw [this, one_mul]
  rw [h5] at h4
  have h8 : 0 < √(sc.E : ℝ) := Real.sqrt_pos.2 (by exact_mod_cast hE)
  nlinarith [mul_le_mul_of_nonneg_left h6 h0]

/-- C192: the default weight, 0.5, alters this flow on every bipartite network of two or more edges. -/
theorem C192_default_weight (cvx : CvxSolver) (hw : sc.WellFormed) (hE : 2 ≤ sc.E) (black : Int → Bool)
    (hb : TwoColoured sc.edges black) (st : TrendHistory sc.E) (u : Fin sc.E → ℝ)
    (hu : ∀ e : Fin sc.edges.length, u e = if black sc.edges[e].1 then 1 else -1) (db : ℝ) :
    ∃ st' x, sc.denoisingL1 cvx st u "divergence" 1 [db] 0 (1 / 2) (fun _ _ => 0) = (.ok (), st') ∧ Stored st' 0 0 x ∧
      noisy u db 0 = u ∧ x ≠ u := by
  refine C192_best cvx hw (by omega) black hb st u hu db (1 / 2) ?_
  have : (1 : ℝ) < √sc.E := by
    apply Real.lt_sqrt_of_sq_lt
    norm_num
    omega
  linarith

/-- The path of four edges meets the hypotheses, with the even nodes black and the weight 1/2. -/
example : ∃ sc : SC ℝ, sc.WellFormed ∧ 2 ≤ sc.E ∧ TwoColoured sc.edges (fun z => z % 2 == 0) ∧ 1 < 2 * (1 / 2) * √sc.E := by
  obtain ⟨sc, hw, h1, h2, h3⟩ := path_wellFormed 4
  have hE : sc.E = 4 := by simp [SC.E, h2, pathEdges]
  refine ⟨sc, hw, by omega, ?_, ?_⟩
  · rw [h2]
    unfold TwoColoured
    decide
  · have : (1 : ℝ) < √sc.E := by
      apply Real.lt_sqrt_of_sq_lt
      rw [hE]
      norm_num
    linarith

end Pytspl
