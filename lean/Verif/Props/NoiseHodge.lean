import Verif.Props.NoiseAverage
import Verif.Props.Topology

/-!
# C173: noise spreads over the Hodge components by their dimensions
-/

namespace Pytspl

open Matrix MeasureTheory

variable {lib : NumLib} {sc : SC ℝ} {Ω : Type*} [MeasurableSpace Ω]

/-! ## Projection matrices -/

/-- The orthogonal projection on the columns of a matrix; its trace is the rank. -/
theorem projector_exists {m n : ℕ} (A : Matrix (Fin m) (Fin n) ℝ) :
    ∃ (Q : Matrix (Fin m) (Fin m) ℝ) (X : Matrix (Fin n) (Fin m) ℝ), Q = A * X ∧ Q.transpose = Q ∧ Q * Q = Q ∧
      Q.trace = A.rank ∧ ∀ f p, IsProj A f p → p = Q.mulVec f := by
  obtain ⟨lib⟩ := NumLib.exists
  have hps : SymmPSD (A * A.transpose) := by
    refine ⟨by rw [transpose_mul, transpose_transpose], fun x => ?_⟩
    rw [← mulVec_mulVec, dotProduct_mulVec, ← mulVec_transpose]
    exact Finset.sum_nonneg fun i _ => mul_self_nonneg _
  have h := lib.isEig hps
  set U := (lib.eigh m (A * A.transpose)).2
  set w := (lib.eigh m (A * A.transpose)).1
  set d : Fin m → ℝ := fun i => if w i ≠ 0 then 1 else 0 with hd
  have hdd : ∀ i, d i * d i = d i := by
    intro i
    by_cases h0 : w i = 0 <;> simp [hd, h0]
  have hwd : ∀ i, w i * (w i)⁻¹ = d i := by
    intro i
    by_cases h0 : w i = 0
    · simp [hd, h0]
    · simp [hd, h0]
  have hwd' : ∀ i, w i * d i = w i := by
    intro i
    by_cases h0 : w i = 0 <;> simp [hd, h0]
  have hmul : ∀ a b : Fin m → ℝ, U * diagonal a * U.transpose * (U * diagonal b * U.transpose) =
      U * diagonal (fun i => a i * b i) * U.transpose := by
    intro a b
    rw [← diagonal_mul_diagonal]
    calc U * diagonal a * U.transpose * (U * diagonal b * U.transpose)
        = U * diagonal a * (U.transpose * U) * diagonal b * U.transpose := by simp only [Matrix.mul_assoc]
      _ = _ := by rw [h.orth, Matrix.mul_one]; simp only [Matrix.mul_assoc]
  have hQ : U * diagonal d * U.transpose = A * (A.transpose * (U * diagonal (fun i => (w i)⁻¹) * U.transpose)) := by
    rw [← Matrix.mul_assoc, h.recon, hmul]
    simp only [hwd]
  refine ⟨U * diagonal d * U.transpose, _, hQ, ?_, ?_, ?_, fun f p hp => ?_⟩
  · rw [transpose_mul, transpose_mul, transpose_transpose, diagonal_transpose, Matrix.mul_assoc]
  · rw [hmul]
    simp only [hdd]
  · rw [Matrix.mul_assoc, trace_mul_comm, Matrix.mul_assoc, h.orth, Matrix.mul_one, trace_diagonal,
      ← rank_self_mul_transpose A, h.rank_eq, Fintype.card_subtype, hd, Finset.sum_ite, Finset.sum_const_zero, add_zero,
      Finset.sum_const, nsmul_eq_mul, mul_one]
  · refine IsProj.unique hp ⟨⟨(A.transpose * (U * diagonal (fun i => (w i)⁻¹) * U.transpose)).mulVec f, ?_⟩, ?_⟩
    · rw [mulVec_mulVec, hQ]
    · have h1 : A.transpose.mulVec ((U * diagonal d * U.transpose).mulVec f - f) = 0 := by
        refine range_ker_zero A.transpose ⟨_, rfl⟩ ?_
        have h2 : A * A.transpose * (U * diagonal d * U.transpose) = A * A.transpose := by
          conv_lhs => rw [h.recon]
          rw [hmul]
          simp only [hwd']
          exact h.recon.symm
        rw [transpose_transpose, mulVec_mulVec, mulVec_sub, mulVec_mulVec, h2, sub_self]
      rw [mulVec_sub] at h1
      exact sub_eq_zero.1 h1

private theorem sum_sq_projector {m : ℕ} {Q : Matrix (Fin m) (Fin m) ℝ} (h1 : Q.transpose = Q) (h2 : Q * Q = Q) :
    ∑ i, ∑ j, Q i j ^ 2 = Q.trace := by
  have h : ∑ i, ∑ j, Q i j ^ 2 = (Q * Q.transpose).trace := by
    unfold trace
    refine Finset.sum_congr rfl fun i _ => ?_
    rw [diag_apply, mul_apply]
    exact Finset.sum_congr rfl fun j _ => by rw [transpose_apply, sq]
  rw [h, h1, h2]

/-! ## C173 -/

/-- The random flows `comp` scatter around `g` without bias, with expected squared distance `s`. -/
structure Scatters {E : ℕ} (Pr : Measure Ω) (comp : Ω → Fin E → ℝ) (g : Fin E → ℝ) (s : ℝ) : Prop where
  mean : ∀ e, ∫ ω, comp ω e ∂Pr = g e
  spread : ∫ ω, (∑ e, (comp ω e - g e) ^ 2) ∂Pr = s

private theorem scatters_of {E : ℕ} {Pr : Measure Ω} {x : Ω → Fin E → ℝ} {v : ℝ} (hx : WhiteNoise Pr x v)
    {Q : Matrix (Fin E) (Fin E) ℝ} (h1 : Q.transpose = Q) (h2 : Q * Q = Q) (f : Fin E → ℝ) :
    Scatters Pr (fun ω => Q.mulVec (f + x ω)) (Q.mulVec f) (v * Q.trace) := by
  have := hx.prob
  refine ⟨fun e => ?_, ?_⟩
  · have e1 : (fun ω => Q.mulVec (f + x ω) e) = fun ω => Q.mulVec f e + ∑ j, Q e j * x ω j := by
      funext ω
      rw [mulVec_add]
      rfl
    rw [e1, integral_add (integrable_const _) (integrable_finset_sum _ fun j _ => (hx.int1 j).const_mul _),
      integral_finset_sum _ fun j _ => (hx.int1 j).const_mul _]
    simp only [integral_const_mul, hx.mean, mul_zero, Finset.sum_const_zero, add_zero, integral_const]
    simp
  · have h3 := (hx.filter Q 0).2
    rw [mulVec_zero, sum_sq_projector h1 h2] at h3
    have h4 : misfit (0 : Fin E → ℝ) 0 = 0 := by rw [misfit, sub_self, dotProduct_zero]
    rw [h4, zero_add] at h3
    rw [← h3]
    congr 1
    funext ω
    rw [misfit, sub_zero, zero_add, dotProduct]
    refine Finset.sum_congr rfl fun e _ => ?_
    rw [mulVec_add, Pi.add_apply, add_sub_cancel_left, sq]

/-- C173: white noise of variance `v` on a flow reaches the gradient component with `v` times (nodes minus connected
components), the curl component with `v` times the rank of `B2`, and the harmonic component with `v` times the dimension of
the harmonic space; no component is biased. -/
theorem C173_split (lib : NumLib) (hw : sc.WellFormed) (f g c h : Fin sc.E → ℝ) (hp : HodgeParts lib sc f g c h)
    {Pr : Measure Ω} {x : Ω → Fin sc.E → ℝ} {v : ℝ} (hx : WhiteNoise Pr x v) :
    ∃ G C H : Ω → Fin sc.E → ℝ, (∀ ω, HodgeParts lib sc (f + x ω) (G ω) (C ω) (H ω)) ∧
      Scatters Pr G g (v * ((sc.nodes.length : ℝ) - sc.numComponents)) ∧
      Scatters Pr C c (v * (sc.B2.rank : ℝ)) ∧
      Scatters Pr H h (v * (Module.finrank ℝ (sc.L1.toLin'.ker) : ℝ)) := by
  obtain ⟨Qg, X, g1, g2, g3, g4, g5⟩ := projector_exists sc.B1.transpose
  obtain ⟨Qc, Y, c1, c2, c3, c4, c5⟩ := projector_exists sc.B2
  have parts : ∀ f' g' c' h', HodgeParts lib sc f' g' c' h' →
      g' = Qg.mulVec f' ∧ c' = Qc.mulVec f' ∧ h' = (1 - Qg - Qc).mulVec f' := by
    intro f' g' c' h' hp'
    obtain ⟨k1, k2, k3⟩ := hp'.proj
    have e1 := g5 _ _ k1
    have e2 := c5 _ _ k2
    refine ⟨e1, e2, ?_⟩
    rw [k3, sub_mulVec, sub_mulVec, one_mulVec, ← e1, ← e2]
  have hgc : Qg * Qc = 0 := by
    rw [← g2, g1, c1, transpose_mul, transpose_transpose, Matrix.mul_assoc, ← Matrix.mul_assoc sc.B1, hw.b1_mul_b2,
      Matrix.zero_mul, Matrix.mul_zero]
  have hcg : Qc * Qg = 0 := by
    have := congrArg transpose hgc
    rwa [transpose_mul, g2, c2, transpose_zero] at this
  have t1 : (1 - Qg - Qc).transpose = 1 - Qg - Qc := by
    rw [transpose_sub, transpose_sub, transpose_one, g2, c2]
  have t2 : (1 - Qg - Qc) * (1 - Qg - Qc) = 1 - Qg - Qc := by
    rw [sub_mul, sub_mul, one_mul, mul_sub, mul_sub, mul_sub, mul_sub, mul_one, mul_one, g3, c3, hgc, hcg]
    abel
  obtain ⟨p1, p2, p3⟩ := parts f g c h hp
  choose G C H hG using fun ω => HodgeParts.exists lib sc (f + x ω)
  have hGe : G = fun ω => Qg.mulVec (f + x ω) := funext fun ω => (parts _ _ _ _ (hG ω)).1
  have hCe : C = fun ω => Qc.mulVec (f + x ω) := funext fun ω => (parts _ _ _ _ (hG ω)).2.1
  have hHe : H = fun ω => (1 - Qg - Qc).mulVec (f + x ω) := funext fun ω => (parts _ _ _ _ (hG ω)).2.2
  have n1 := (C98_components sc hw.built hw.inRange hw.noLoops).1
  have n2 := (C98_euler sc hw).1
  have r1 : Qg.trace = (sc.nodes.length : ℝ) - sc.numComponents := by
    have n3 : (sc.B1.rank : ℝ) + sc.numComponents = sc.nodes.length := by exact_mod_cast n1
    rw [g4, rank_transpose]
    linarith
  have r3 : (1 - Qg - Qc).trace = (Module.finrank ℝ (sc.L1.toLin'.ker) : ℝ) := by
    rw [trace_sub, trace_sub, trace_one, Fintype.card_fin, r1, c4]
    have n3 : (Module.finrank ℝ (sc.L1.toLin'.ker) : ℝ) + sc.nodes.length + sc.B2.rank = sc.edges.length + sc.numComponents := by
      exact_mod_cast n2
    change (sc.edges.length : ℝ) - _ - _ = _
    linarith
  refine ⟨G, C, H, hG, ?_, ?_, ?_⟩
  · rw [hGe, p1, ← r1]
    exact scatters_of hx g2 g3 f
  · rw [hCe, p2, ← c4]
    exact scatters_of hx c2 c3 f
  · rw [hHe, p3, ← r3]
    exact scatters_of hx t1 t2 f

/-- C173: so extracting the component a flow consists of removes noise on average: the expected squared error of
`get_component_flow` for a gradient flow is the variance times (nodes minus connected components), that of the noisy flow
the variance times the number of edges. -/
theorem C173_gradient_flow (lib : NumLib) (hw : sc.WellFormed) (f : Fin sc.E → ℝ)
    (hf : sc.getComponentFlow lib f "gradient" false = .ok f)
    {Pr : Measure Ω} {x : Ω → Fin sc.E → ℝ} {v : ℝ} (hx : WhiteNoise Pr x v) :
    ∃ G : Ω → Fin sc.E → ℝ, (∀ ω, sc.getComponentFlow lib (f + x ω) "gradient" false = .ok (G ω)) ∧
      ∫ ω, (∑ e, (G ω e - f e) ^ 2) ∂Pr = v * ((sc.nodes.length : ℝ) - sc.numComponents) ∧
      ∫ ω, (∑ e, ((f + x ω) e - f e) ^ 2) ∂Pr = v * sc.E := by
  obtain ⟨g, c, h, hp⟩ := HodgeParts.exists lib sc f
  have hg : g = f := Except.ok.inj (hp.grad.symm.trans hf)
  obtain ⟨G, C, H, h1, h2, -⟩ := C173_split lib hw f g c h hp hx
  rw [hg] at h2
  refine ⟨G, fun ω => (h1 ω).grad, h2.spread, ?_⟩
  rw [← (hx.unfiltered f).2]
  congr 1
  funext ω
  rw [misfit, dotProduct]
  exact Finset.sum_congr rfl fun e _ => by rw [Pi.sub_apply, sq]

/-- the hypotheses are met on two triangles with white noise -/
example (lib : NumLib) (f : Fin twoTri.E → ℝ) : ∃ (Pr : Measure (Fin twoTri.E × Bool))
    (x : Fin twoTri.E × Bool → Fin twoTri.E → ℝ) (g c h : Fin twoTri.E → ℝ), WhiteNoise Pr x 4 ∧ twoTri.WellFormed ∧
    HodgeParts lib twoTri f g c h := by
  obtain ⟨Pr, x, hx⟩ := WhiteNoise.exists twoTri.E (by decide) (by norm_num : (0 : ℝ) ≤ 4)
  obtain ⟨g, c, h, hp⟩ := HodgeParts.exists lib twoTri f
  exact ⟨Pr, x, g, c, h, hx, twoTri_wellFormed, hp⟩

end Pytspl
