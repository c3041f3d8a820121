import Verif.Props.TrendWeights
import Verif.Props.Chains
import Verif.Lemmas.Poincare

/-!
# C190: which weight of the l1 trend filter removes the whole gradient component

Order 0, `divergence`: every weight above `√D / 2` does, for a network in which two connected nodes are at most `D` edges
apart, and on the chain of `N` nodes no weight below `√(N - 1) / 2` does.
-/

namespace Pytspl

open Matrix

variable {sc : SC ℝ}

/-- Every potential difference flow is that of a potential whose values are at most `√D / 2` times as large as the flow is
long. -/
private theorem centred_potential (hw : sc.WellFormed) (D : ℕ) (hD : DiameterLE (graphOf sc.nodes.length sc.edges) D)
    (q : Fin sc.N → ℝ) :
    ∃ p : Fin sc.N → ℝ, sc.B1.transpose.mulVec p = sc.B1.transpose.mulVec q ∧
      ∀ i, 2 * |p i| ≤ √D * norm2 (sc.B1.transpose.mulVec q) := by
  classical
  have hb := hw.built
  have hr := hw.inRange
  have hl := hw.noLoops
  set G := graphOf sc.nodes.length sc.edges with hG
  set S := sc.B1.transpose.mulVec q ⬝ᵥ sc.B1.transpose.mulVec q with hS
  have hS' : S = ∑ k : Fin sc.edges.length, (valueAt q sc.edges[k].2 - valueAt q sc.edges[k].1) ^ 2 := by
    rw [hS]
    refine Finset.sum_congr rfl fun k _ => ?_
    rw [b1_transpose_apply hb hr hl q k]
    ring
  have hmax : ∀ i : Fin sc.nodes.length, ∃ a, G.Reachable i a ∧ ∀ j, G.Reachable i j → q j ≤ q a := by
    intro i
    obtain ⟨a, h1, h2⟩ := Finset.exists_max_image (Finset.univ.filter fun j => G.Reachable i j) q ⟨i, by simp⟩
    exact ⟨a, by simpa using h1, fun j hj => h2 j (by simpa using hj)⟩
  have hmin : ∀ i : Fin sc.nodes.length, ∃ a, G.Reachable i a ∧ ∀ j, G.Reachable i j → q a ≤ q j := by
    intro i
    obtain ⟨a, h1, h2⟩ := Finset.exists_min_image (Finset.univ.filter fun j => G.Reachable i j) q ⟨i, by simp⟩
    exact ⟨a, by simpa using h1, fun j hj => h2 j (by simpa using hj)⟩
  choose a ha1 ha2 using hmax
  choose b hb1 hb2 using hmin
  have hval : ∀ (x : Fin sc.nodes.length → ℝ) (i : Fin sc.nodes.length), valueAt x ((i : ℕ) : Int) = x i := by
    intro x i
    unfold valueAt
    rw [dif_pos ⟨by omega, by omega⟩]
    congr 1
  refine ⟨fun i => q i - (q (a i) + q (b i)) / 2, ?_, ?_⟩
  · funext j
    rw [b1_transpose_apply hb hr hl _ j, b1_transpose_apply hb hr hl _ j]
    have hm : sc.edges[j] ∈ sc.edges := List.getElem_mem _
    obtain ⟨⟨a1, a2⟩, b1, b2⟩ := hr _ hm
    obtain ⟨x, hx⟩ : ∃ i : Fin sc.nodes.length, sc.edges[j].1 = ((i : ℕ) : Int) :=
      ⟨⟨sc.edges[j].1.toNat, by omega⟩, by simp only; omega⟩
    obtain ⟨y, hy⟩ : ∃ i : Fin sc.nodes.length, sc.edges[j].2 = ((i : ℕ) : Int) :=
      ⟨⟨sc.edges[j].2.toNat, by omega⟩, by simp only; omega⟩
    rw [hx, hy, hval, hval, hval, hval]
    have hadj : G.Adj x y := by
      refine ⟨?_, Or.inl ?_⟩
      · rintro rfl
        exact hl _ hm (hx.trans hy.symm)
      · rw [← hx, ← hy]; exact hm
    have hxy := hadj.reachable
    have e1 : q (a x) = q (a y) := le_antisymm (ha2 y _ (hxy.symm.trans (ha1 x))) (ha2 x _ (hxy.trans (ha1 y)))
    have e2 : q (b x) = q (b y) := le_antisymm (hb2 x _ (hxy.trans (hb1 y))) (hb2 y _ (hxy.symm.trans (hb1 x)))
    rw [e1, e2]
    ring
  · intro i
    have h1 := ha2 i i (SimpleGraph.Reachable.refl _)
    have h2 := hb2 i i (SimpleGraph.Reachable.refl _)
    have h3 : (q (a i) - q (b i)) ^ 2 ≤ D * S := by
      rw [hS']
      exact difference_bound sc.edges hr D hD q _ _ ((ha1 i).symm.trans (hb1 i))
    have h4 : q (a i) - q (b i) ≤ √D * norm2 (sc.B1.transpose.mulVec q) := by
      have h5 : 0 ≤ √(D : ℝ) * norm2 (sc.B1.transpose.mulVec q) := mul_nonneg (Real.sqrt_nonneg _) (norm2_nonneg _)
      refine le_of_sq_le_sq ?_ h5
      rw [mul_pow, Real.sq_sqrt (Nat.cast_nonneg _), norm2_sq]
      exact h3
    have h6 : 2 * |q i - (q (a i) + q (b i)) / 2| ≤ q (a i) - q (b i) := by
      rcases abs_cases (q i - (q (a i) + q (b i)) / 2) with ⟨h, -⟩ | ⟨h, -⟩ <;> rw [h] <;> linarith
    exact h6.trans h4

/-- a gradient flow is at most `√D / 2` times as long as the absolute values of its divergence add up to -/
private theorem grad_norm1 (hw : sc.WellFormed) (D : ℕ) (hD : DiameterLE (graphOf sc.nodes.length sc.edges) D)
    (q : Fin sc.N → ℝ) :
    norm2 (sc.B1.transpose.mulVec q) ≤ √D / 2 * norm1 (sc.B1.mulVec (sc.B1.transpose.mulVec q)) := by
  obtain ⟨p, h1, h2⟩ := centred_potential hw D hD q
  set y := sc.B1.transpose.mulVec q with hy
  have h3 : norm2 y ^ 2 = p ⬝ᵥ sc.B1.mulVec y := by
    rw [norm2_sq, dotProduct_mulVec p, ← mulVec_transpose, h1]
  have h4 : p ⬝ᵥ sc.B1.mulVec y ≤ (√D / 2 * norm2 y) * norm1 (sc.B1.mulVec y) := by
    unfold norm1
    rw [Finset.mul_sum]
    refine Finset.sum_le_sum fun i _ => ?_
    have h5 := h2 i
    calc p i * sc.B1.mulVec y i ≤ |p i * sc.B1.mulVec y i| := le_abs_self _
      _ = |p i| * |sc.B1.mulVec y i| := abs_mul _ _
      _ ≤ _ := mul_le_mul_of_nonneg_right (by linarith) (abs_nonneg _)
  rcases (norm2_nonneg y).eq_or_lt with h0 | h0
  · rw [← h0]
    exact mul_nonneg (by positivity) (Finset.sum_nonneg fun _ _ => abs_nonneg _)
  · rw [← h3] at h4
    nlinarith

/-- C190: if any two connected nodes are at most `D` edges apart and the weight is more than `√D / 2`, each stored flow is the
noisy flow without its gradient component, whichever minimiser the convex solver picks. -/
theorem C190_diameter (lib : NumLib) (cvx : CvxSolver) (hw : sc.WellFormed) (hE : 0 < sc.E) (D : ℕ)
    (hD : DiameterLE (graphOf sc.nodes.length sc.edges) D) (st st' : TrendHistory sc.E) (flow : Fin sc.E → ℝ)
    (realisations : ℕ) (snrDb : List ℝ) (mu : ℝ) (hmu : √D < 2 * mu) (noise : ℕ → ℕ → Fin sc.E → ℝ)
    (h : sc.denoisingL1 cvx st flow "divergence" realisations snrDb 0 mu noise = (.ok (), st')) (i j : ℕ) (db : ℝ)
    (x : Fin sc.E → ℝ) (hi : snrDb[i]? = some db) (hj : j < realisations) (hx : Stored st' i j x) :
    ∃ g, sc.getComponentFlow lib (noisy flow db (noise i j)) "gradient" false = .ok g ∧
      x = noisy flow db (noise i j) - g := by
  obtain ⟨g, c, hh, hp⟩ := HodgeParts.exists lib sc (noisy flow db (noise i j))
  have hS : sc.getShiftOperator "divergence" ((0 : ℕ) : Int) = .ok ⟨sc.N, sc.B1⟩ := rfl
  have h0 := Real.sqrt_nonneg (D : ℝ)
  refine ⟨g, hp.grad, ?_⟩
  exact best_large (fun f => by rw [transpose_transpose]) hp.proj.1 lib (grad_norm1 hw D hD) (by linarith)
    (run_best cvx hE (.inl rfl) (by linarith) (order := 0) h hS hi hj hx)

/-- C190: on every network of `N` nodes a weight of more than `√(N - 1) / 2` is enough. -/
theorem C190_nodes (lib : NumLib) (cvx : CvxSolver) (hw : sc.WellFormed) (hE : 0 < sc.E) (st st' : TrendHistory sc.E)
    (flow : Fin sc.E → ℝ) (realisations : ℕ) (snrDb : List ℝ) (mu : ℝ) (hmu : √((sc.nodes.length - 1 : ℕ) : ℝ) < 2 * mu)
    (noise : ℕ → ℕ → Fin sc.E → ℝ)
    (h : sc.denoisingL1 cvx st flow "divergence" realisations snrDb 0 mu noise = (.ok (), st')) (i j : ℕ) (db : ℝ)
    (x : Fin sc.E → ℝ) (hi : snrDb[i]? = some db) (hj : j < realisations) (hx : Stored st' i j x) :
    ∃ g, sc.getComponentFlow lib (noisy flow db (noise i j)) "gradient" false = .ok g ∧
      x = noisy flow db (noise i j) - g :=
  C190_diameter lib cvx hw hE _ (diameterLE_card _) st st' flow realisations snrDb mu hmu noise h i j db x hi hj hx

/-- C190: and no smaller number would do. On the chain of `N` nodes, with a weight below `√(N - 1) / 2` and the flow of one
unit along the chain, which is a gradient flow, the call stores a flow which still has a gradient component. -/
theorem C190_best (lib : NumLib) (cvx : CvxSolver) {s : Fin sc.E → ℝ} (hc : sc.IsChain s) (st : TrendHistory sc.E)
    (db mu : ℝ) (h0 : 0 ≤ mu) (hmu : 2 * mu < √((sc.nodes.length - 1 : ℕ) : ℝ)) :
    ∃ st' x, sc.denoisingL1 cvx st s "divergence" 1 [db] 0 mu (fun _ _ => 0) = (.ok (), st') ∧ Stored st' 0 0 x ∧
      noisy s db 0 = s ∧ sc.getComponentFlow lib s "gradient" false = .ok s ∧
      ∃ g, sc.getComponentFlow lib x "gradient" false = .ok g ∧ g ≠ 0 := by
  have hE := hc.nonempty
  have hS : sc.getShiftOperator "divergence" ((0 : ℕ) : Int) = .ok ⟨sc.N, sc.B1⟩ := rfl
  obtain ⟨st', h1, -, h2⟩ := denoisingL1_run cvx sc hE st s "divergence" (.inl rfl) 1 [db] 0 mu h0 (fun _ _ => 0) hS
  have h3 := (h2 0 0 db _ rfl one_pos).2 rfl
  have hno : noisy s db 0 = s := by
    funext k
    simp [noisy]
  refine ⟨st', _, h1, h3, hno, (C182_components hc s).grad, _, (C182_components hc _).grad, ?_⟩
  have hbest := run_best cvx hE (.inl rfl) h0 (order := 0) h1 hS (db := db) rfl one_pos h3
  intro hx
  rw [hx] at hbest
  have h4 := hbest s
  change norm2 (noisy s db 0 - 0) + _ ≤ norm2 (noisy s db 0 - s) + _ at h4
  rw [hno, sub_zero, sub_self, mulVec_zero] at h4
  have z1 : norm1 (0 : Fin sc.N → ℝ) = 0 := by simp [norm1]
  have z2 : norm2 (0 : Fin sc.E → ℝ) = 0 := by
    have := norm2_sq (0 : Fin sc.E → ℝ)
    rw [dotProduct_zero] at this
    exact pow_eq_zero_iff (two_ne_zero) |>.1 this
  rw [z1, z2, mul_zero, add_zero, zero_add] at h4
  have hN : sc.N = sc.E + 1 := hc.size
  have h5 : norm2 s = √((sc.nodes.length - 1 : ℕ) : ℝ) := by
    refine Eq.symm (Real.sqrt_eq_iff_mul_self_eq (Nat.cast_nonneg _) (norm2_nonneg _) |>.2 ?_)
    rw [← sq, norm2_sq, show sc.nodes.length - 1 = sc.E by simp only [SC.N] at hN; omega]
    have : ∀ k, s k * s k = 1 := by
      intro k
      rcases hc.joins k with ⟨-, e⟩ | ⟨-, e⟩ <;> rw [e] <;> norm_num
    simp [dotProduct, this]
  have h6 : norm1 (sc.B1.mulVec s) ≤ 2 := by
    let a : ℕ → ℝ := fun k => if 1 ≤ k ∧ k ≤ sc.E then 1 else 0
    have h7 := chain_div hc a (by simp [a]) (by simp [a])
    have h8 : (fun i : Fin sc.E => s i * a (i + 1)) = s := by
      funext i
      have := i.isLt
      simp only [a]
      rw [if_pos ⟨by omega, by omega⟩, mul_one]
    rw [h8, SC.getDivergence] at h7
    rw [h7]
    unfold norm1
    calc ∑ v : Fin sc.N, |a v - a (v + 1)|
        ≤ ∑ v : Fin sc.N, ((if (v : ℕ) = 0 then (1 : ℝ) else 0) + if (v : ℕ) = sc.E then 1 else 0) := by
          refine Finset.sum_le_sum fun v _ => ?_
          have hv := v.isLt.trans_eq hN
          simp only [a]
          by_cases g1 : (v : ℕ) = 0
          · rw [if_neg (by omega), if_pos ⟨by omega, by omega⟩, if_pos g1, if_neg (by omega)]
            norm_num
          · by_cases g2 : (v : ℕ) = sc.E
            · rw [if_pos ⟨by omega, by omega⟩, if_neg (by omega), if_neg g1, if_pos g2]
              norm_num
            · rw [if_pos ⟨by omega, by omega⟩, if_pos ⟨by omega, by omega⟩, if_neg g1, if_neg g2]
              norm_num
      _ = 2 := by
          rw [Finset.sum_add_distrib]
          have k1 : ∀ v : Fin sc.N, ((v : ℕ) = 0) = (v = ⟨0, by omega⟩) := fun v => by rw [Fin.ext_iff]
          have k2 : ∀ v : Fin sc.N, ((v : ℕ) = sc.E) = (v = ⟨sc.E, by omega⟩) := fun v => by rw [Fin.ext_iff]
          simp only [k1, k2, Finset.sum_ite_eq', Finset.mem_univ, if_true]
          norm_num
  rw [h5] at h4
  nlinarith [mul_le_mul_of_nonneg_left h6 h0]

/-- C190: the default weight, 0.5, does not remove the gradient component on any chain of three or more nodes. -/
theorem C190_default_weight (lib : NumLib) (cvx : CvxSolver) {s : Fin sc.E → ℝ} (hc : sc.IsChain s)
    (hN : 3 ≤ sc.nodes.length) (st : TrendHistory sc.E) (db : ℝ) :
    ∃ st' x, sc.denoisingL1 cvx st s "divergence" 1 [db] 0 (1 / 2) (fun _ _ => 0) = (.ok (), st') ∧ Stored st' 0 0 x ∧
      noisy s db 0 = s ∧ sc.getComponentFlow lib s "gradient" false = .ok s ∧
      ∃ g, sc.getComponentFlow lib x "gradient" false = .ok g ∧ g ≠ 0 := by
  refine C190_best lib cvx hc st db (1 / 2) (by norm_num) ?_
  apply Real.lt_sqrt_of_sq_lt
  norm_num
  omega

/-- The hypotheses of `C190_nodes` are met by a complex with a filled triangle and the weight 2, and those of `C190_best` by
a chain of five nodes and the weight 3/4. -/
example : (∃ sc : SC ℝ, sc.WellFormed ∧ 0 < sc.E ∧ sc.triangles ≠ [] ∧ √((sc.nodes.length - 1 : ℕ) : ℝ) < 2 * 2) ∧
    ∃ (sc : SC ℝ) (s : Fin sc.E → ℝ), sc.IsChain s ∧ 2 * (3 / 4) < √((sc.nodes.length - 1 : ℕ) : ℝ) := by
  constructor
  · obtain ⟨sc, hw, hs, hn, he, ht⟩ := sample_wellFormed ℝ
    refine ⟨sc, hw, by simp only [SC.E]; rw [he]; decide, by rw [ht]; decide, ?_⟩
    rw [Real.sqrt_lt' (by norm_num), hn]
    norm_num
    decide
  · obtain ⟨sc, s, h, e⟩ := chain_exists 4 (by norm_num)
    refine ⟨sc, s, h, ?_⟩
    have : sc.nodes.length - 1 = 4 := by
      have h1 := h.size
      have h2 : sc.E = sc.edges.length := rfl
      omega
    rw [this]
    apply Real.lt_sqrt_of_sq_lt
    norm_num

end Pytspl
