import Verif.Lemmas.Double
import Verif.Model.TrendFilter
import Verif.Props.BaseFilter
import Mathlib.Topology.MetricSpace.ProperSpace.Real
import Mathlib.Topology.Order.Compact

/-!
# The contracts of the convex solver and the sampler can be met
-/

namespace Pytspl

open Matrix

variable {m n : ℕ}

theorem norm1_nonneg (v : Fin n → ℝ) : 0 ≤ norm1 v := Finset.sum_nonneg fun _ _ => abs_nonneg _

theorem abs_le_norm2 (v : Fin n → ℝ) (i : Fin n) : |v i| ≤ norm2 v := by
  apply Real.abs_le_sqrt
  have : v ⬝ᵥ v = ∑ j, v j * v j := rfl
  rw [this, sq]
  exact Finset.single_le_sum (f := fun j => v j * v j) (fun j _ => mul_self_nonneg _) (Finset.mem_univ i)

theorem continuous_norm2 : Continuous fun v : Fin n → ℝ => norm2 v := by
  unfold norm2
  apply Continuous.sqrt
  have : (fun v : Fin n → ℝ => v ⬝ᵥ v) = fun v => ∑ i, v i * v i := rfl
  rw [this]
  fun_prop

theorem continuous_objective (y : Fin n → ℝ) (S : Matrix (Fin m) (Fin n) ℝ) (mu : ℝ) :
    Continuous (stfObjective y S mu) := by
  unfold stfObjective
  refine Continuous.add (continuous_norm2.comp (by fun_prop)) (Continuous.mul continuous_const ?_)
  unfold norm1
  refine continuous_finsetSum _ fun i _ => Continuous.abs ?_
  have : (fun x : Fin n → ℝ => S.mulVec x i) = fun x => ∑ j, S i j * x j := rfl
  rw [this]
  fun_prop

/-- the problem always has a minimiser -/
theorem exists_minimiser (y : Fin n → ℝ) (S : Matrix (Fin m) (Fin n) ℝ) (mu : ℝ) (hmu : 0 ≤ mu)
    (obs : List (Fin n)) : ∃ x : Fin n → ℝ, (∀ i ∈ obs, x i = y i) ∧
      ∀ z : Fin n → ℝ, (∀ i ∈ obs, z i = y i) → stfObjective y S mu x ≤ stfObjective y S mu z := by
  set F := stfObjective y S mu with hF
  have hlow : ∀ z, norm2 (y - z) ≤ F z := fun z => by
    have := mul_nonneg hmu (norm1_nonneg (S.mulVec z))
    simp only [hF, stfObjective]
    linarith
  let C : Set (Fin n → ℝ) := {z | ∀ i ∈ obs, z i = y i}
  let Kset : Set (Fin n → ℝ) := C ∩ {z | norm2 (y - z) ≤ F y}
  have hC : IsClosed C := by
    have : C = ⋂ i ∈ obs, {z : Fin n → ℝ | z i = y i} := by ext z; simp [C]
    rw [this]
    exact isClosed_biInter fun i _ => isClosed_eq (continuous_apply i) continuous_const
  have hK : IsCompact Kset := by
    apply Metric.isCompact_of_isClosed_isBounded
    · refine hC.inter (isClosed_le (continuous_norm2.comp (by fun_prop)) continuous_const)
    · refine (Metric.isBounded_closedBall (x := y) (r := F y)).subset fun z hz => ?_
      rw [Metric.mem_closedBall]
      refine (dist_pi_le_iff ((norm2_nonneg _).trans (hlow y))).2 fun i => ?_
      rw [dist_comm, Real.dist_eq]
      exact (abs_le_norm2 (y - z) i).trans hz.2
  have hyK : y ∈ Kset := ⟨fun _ _ => rfl, hlow y⟩
  obtain ⟨x, hx, hmin⟩ := hK.exists_isMinOn ⟨y, hyK⟩ (continuous_objective y S mu).continuousOn
  refine ⟨x, hx.1, fun z hz => ?_⟩
  by_cases hzK : z ∈ Kset
  · exact hmin hzK
  · have h1 : F y < norm2 (y - z) := by
      by_contra h
      exact hzK ⟨hz, not_lt.1 h⟩
    have h2 : F x ≤ F y := hmin hyK
    exact (h2.trans h1.le).trans (hlow z)

theorem exists_cvxSolver : Nonempty CvxSolver := by
  refine ⟨⟨fun m n y S mu obs => if h : 0 ≤ mu then (exists_minimiser y S mu h obs).choose else 0, ?_, ?_⟩⟩
  · intro m n y S mu obs h
    simp only [h, dif_pos]
    exact (exists_minimiser y S mu h obs).choose_spec.1
  · intro m n y S mu obs h
    simp only [h, dif_pos]
    exact (exists_minimiser y S mu h obs).choose_spec.2

theorem exists_sampler (E : ℕ) : Nonempty (Sampler E) :=
  ⟨⟨double, fun _ _ M => (List.finRange E).take M, fun _ _ _ => (List.nodup_finRange E).sublist (List.take_sublist _ _),
    fun _ _ M h => by simp [h]⟩⟩

end Pytspl
