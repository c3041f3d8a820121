import Verif.Props.Accuracy
import Verif.Props.Chains
import Mathlib.Data.Fin.Tuple.Sort
import Mathlib.Algebra.Order.BigOperators.Ring.Finset

/-!
# C185: the chain is the worst network

On a network of `N` nodes no non-zero frequency of the lower Laplacian is below the smallest one of the chain with `N`
nodes.  So the default tolerance is right on every network of at most 99 nodes without filled triangles, and this is
the best possible number.
-/

namespace Pytspl

open Matrix

variable {lib : NumLib} {sc : SC ℝ}

/-! ## Sequences -/

private theorem picone {a a' p p' : ℝ} (h : 0 ≤ p) (h' : 0 ≤ p') (h0 : p = 0 → a = 0) (h0' : p' = 0 → a' = 0) :
    (p' - p) * (a' ^ 2 / p' - a ^ 2 / p) ≤ (a' - a) ^ 2 := by
  rcases h.eq_or_lt with e | hp
  · have ha := h0 e.symm
    rcases h'.eq_or_lt with e' | hp'
    · rw [← e, ← e']; simp; positivity
    · rw [← e, ha]
      simp only [sub_zero, div_zero]
      rw [mul_div_cancel₀ _ hp'.ne']
  · rcases h'.eq_or_lt with e' | hp'
    · have ha := h0' e'.symm
      rw [← e', ha]
      simp only [zero_sub, div_zero]
      rw [neg_mul_neg, mul_div_cancel₀ _ hp.ne', neg_sq]
    · have e1 : (p' - p) * (a' ^ 2 / p' - a ^ 2 / p) = (a' - a) ^ 2 - (a' * p - a * p') ^ 2 / (p * p') := by
        field_simp
        ring
      rw [e1]
      have : 0 ≤ (a' * p - a * p') ^ 2 / (p * p') := by positivity
      linarith

private theorem dirichlet {N : ℕ} (a : ℕ → ℝ) (h0 : a 0 = 0) (hN : a N = 0) :
    (2 - 2 * Real.cos (Real.pi / N)) * ∑ i ∈ Finset.range N, a i ^ 2 ≤
      ∑ i ∈ Finset.range N, (a (i + 1) - a i) ^ 2 := by
  rcases Nat.eq_zero_or_pos N with rfl | hpos
  · simp
  have hNr : (0 : ℝ) < N := by exact_mod_cast hpos
  have hpi := Real.pi_pos
  set θ := Real.pi / N with hθ
  have hθN : θ * N = Real.pi := by rw [hθ]; field_simp
  have hθ0 : 0 < θ := by rw [hθ]; positivity
  let φ : ℕ → ℝ := fun i => Real.sin (θ * i)
  let q : ℕ → ℝ := fun i => a i ^ 2 / φ i
  have hφ : ∀ i ≤ N, 0 ≤ φ i ∧ (φ i = 0 → a i = 0) := by
    intro i hi
    have hir : (i : ℝ) ≤ N := by exact_mod_cast hi
    have h1 : θ * i ≤ Real.pi := by rw [← hθN]; exact mul_le_mul_of_nonneg_left hir hθ0.le
    refine ⟨Real.sin_nonneg_of_nonneg_of_le_pi (by positivity) h1, fun hz => ?_⟩
    rcases Nat.eq_zero_or_pos i with rfl | h2
    · exact h0
    · rcases hi.eq_or_lt with rfl | h3
      · exact hN
      · have h3r : (i : ℝ) < N := by exact_mod_cast h3
        have h2r : (0 : ℝ) < i := by exact_mod_cast h2
        exact absurd hz (Real.sin_pos_of_pos_of_lt_pi (by positivity) (by
          rw [← hθN]; exact mul_lt_mul_of_pos_left h3r hθ0)).ne'
  have q0 : q 0 = 0 := by simp [q, h0]
  have qN : q N = 0 := by simp [q, hN]
  have hle : ∑ i ∈ Finset.range N, (φ (i + 1) - φ i) * (q (i + 1) - q i) ≤
      ∑ i ∈ Finset.range N, (a (i + 1) - a i) ^ 2 := by
    refine Finset.sum_le_sum fun i hi => ?_
    have hi := Finset.mem_range.1 hi
    exact picone (hφ i hi.le).1 (hφ (i + 1) hi).1 (hφ i hi.le).2 (hφ (i + 1) hi).2
  refine le_trans (le_of_eq ?_) hle
  let D : ℕ → ℝ := fun i => Real.sin (θ * i) - Real.sin (θ * i - θ)
  have hD : ∀ i, φ (i + 1) - φ i = D (i + 1) := by
    intro i
    simp only [φ, D]
    congr 2
    push_cast
    ring
  have hshift : ∑ i ∈ Finset.range N, D (i + 1) * q (i + 1) = ∑ i ∈ Finset.range N, D i * q i := by
    have h1 := Finset.sum_range_succ (fun i => D i * q i) N
    have h2 := Finset.sum_range_succ' (fun i => D i * q i) N
    rw [qN, mul_zero, add_zero] at h1
    rw [q0, mul_zero, add_zero] at h2
    rw [← h1, h2]
  simp only [hD, mul_sub, Finset.sum_sub_distrib]
  rw [hshift, ← Finset.sum_sub_distrib, Finset.mul_sum]
  refine Finset.sum_congr rfl fun i hi => ?_
  have hi := Finset.mem_range.1 hi
  have e1 : D i - D (i + 1) = (2 - 2 * Real.cos θ) * φ i := by
    simp only [φ, D]
    have : θ * ((i + 1 : ℕ) : ℝ) = θ * i + θ := by push_cast; ring
    rw [this, add_sub_cancel_right, Real.sin_add, Real.sin_sub]
    ring
  rw [← sub_mul, e1]
  by_cases hz : φ i = 0
  · rw [hz, (hφ i hi.le).2 hz]; simp
  · simp only [q]
    rw [mul_assoc, mul_div_cancel₀ _ hz]

private theorem neumann {M : ℕ} (y : ℕ → ℝ) (hy : ∑ i ∈ Finset.range (M + 1), y i = 0) :
    (2 - 2 * Real.cos (Real.pi / (M + 1 : ℕ))) * ∑ i ∈ Finset.range (M + 1), y i ^ 2 ≤
      ∑ i ∈ Finset.range M, (y (i + 1) - y i) ^ 2 := by
  let a : ℕ → ℝ := fun k => ∑ i ∈ Finset.range k, y i
  have ha : ∀ i, a (i + 1) - a i = y i := fun i => by simp only [a]; rw [Finset.sum_range_succ, add_sub_cancel_left]
  have h1 := dirichlet (N := M + 1) a (by simp [a]) hy
  simp only [ha] at h1
  set mu := 2 - 2 * Real.cos (Real.pi / (M + 1 : ℕ)) with hmu
  have hmu0 : 0 ≤ mu := by have := Real.cos_le_one (Real.pi / (M + 1 : ℕ)); rw [hmu]; linarith
  have hA : ∑ i ∈ Finset.range (M + 1), a i ^ 2 = ∑ i ∈ Finset.range M, a (i + 1) ^ 2 := by
    rw [Finset.sum_range_succ']; simp [a]
  have hS : ∑ i ∈ Finset.range (M + 1), y i ^ 2 = ∑ i ∈ Finset.range M, a (i + 1) * (y i - y (i + 1)) := by
    have e1 : ∀ i, y i ^ 2 = a (i + 1) * y i - a i * y i := fun i => by rw [← sub_mul, ha, sq]
    simp only [e1, Finset.sum_sub_distrib, mul_sub]
    rw [Finset.sum_range_succ (fun i => a (i + 1) * y i), Finset.sum_range_succ' (fun i => a i * y i)]
    have : a (M + 1) = 0 := hy
    simp [this, a]
  have hC := Finset.sum_mul_sq_le_sq_mul_sq (Finset.range M) (fun i => a (i + 1)) fun i => y i - y (i + 1)
  rw [← hS, ← hA] at hC
  have hd : ∑ i ∈ Finset.range M, (y i - y (i + 1)) ^ 2 = ∑ i ∈ Finset.range M, (y (i + 1) - y i) ^ 2 :=
    Finset.sum_congr rfl fun i _ => by ring
  rw [hd] at hC
  set S := ∑ i ∈ Finset.range (M + 1), y i ^ 2 with hSdef
  set A := ∑ i ∈ Finset.range (M + 1), a i ^ 2
  set D := ∑ i ∈ Finset.range M, (y (i + 1) - y i) ^ 2 with hDdef
  have hD0 : 0 ≤ D := Finset.sum_nonneg fun _ _ => sq_nonneg _
  have hS0 : 0 ≤ S := Finset.sum_nonneg fun _ _ => sq_nonneg _
  rcases hS0.eq_or_lt with h0 | h0
  · rw [← h0, mul_zero]; exact hD0
  · have h2 : mu * S * S ≤ D * S := by
      have h3 := mul_le_mul_of_nonneg_left hC hmu0
      have h4 := mul_le_mul_of_nonneg_right h1 hD0
      nlinarith
    exact le_of_mul_le_mul_right h2 h0

/-- the steps of an increasing sequence inside an interval -/
private theorem steps (y : ℕ → ℝ) (M : ℕ) (hy : ∀ i < M, y i ≤ y (i + 1)) {l u : ℝ} (hlu : l ≤ u) :
    ∑ i ∈ Finset.range M, (if l ≤ y i ∧ y (i + 1) ≤ u then (y (i + 1) - y i) ^ 2 else 0) ≤ (u - l) ^ 2 := by
  let c : ℝ → ℝ := fun t => max l (min t u)
  have hc : ∀ t, l ≤ c t ∧ c t ≤ u := fun t => ⟨le_max_left _ _, max_le hlu (min_le_right _ _)⟩
  have hcm : ∀ s t, s ≤ t → c s ≤ c t := fun s t hst => max_le_max le_rfl (min_le_min hst le_rfl)
  have hcid : ∀ t, l ≤ t → t ≤ u → c t = t := fun t h1 h2 => by simp only [c]; rw [min_eq_left h2, max_eq_right h1]
  have hterm : ∀ i ∈ Finset.range M, (if l ≤ y i ∧ y (i + 1) ≤ u then (y (i + 1) - y i) ^ 2 else 0) ≤
      (c (y (i + 1)) - c (y i)) ^ 2 := by
    intro i hi
    have hm := hy i (Finset.mem_range.1 hi)
    split
    · rename_i h
      rw [hcid _ (h.1.trans hm) h.2, hcid _ h.1 (hm.trans h.2)]
    · positivity
  refine (Finset.sum_le_sum hterm).trans ?_
  refine (Finset.sum_sq_le_sq_sum_of_nonneg fun i hi => sub_nonneg.2 (hcm _ _ (hy i (Finset.mem_range.1 hi)))).trans ?_
  rw [Finset.sum_range_sub (fun i => c (y i))]
  have h1 := hc (y M)
  have h2 := hc (y 0)
  have h3 : c (y 0) ≤ c (y M) := by
    have : ∀ k ≤ M, c (y 0) ≤ c (y k) := by
      intro k
      induction k with
      | zero => intro _; exact le_rfl
      | succ k ih => intro hk; exact (ih (by omega)).trans (hcm _ _ (hy k (by omega)))
    exact this M le_rfl
  exact pow_le_pow_left₀ (by linarith) (by linarith) 2

/-! ## Networks -/

private theorem end_values (hw : sc.WellFormed) (j : Fin sc.E) :
    ∃ u v : Fin sc.N, ∀ z : Fin sc.N → ℝ, sc.B1.transpose.mulVec z j = z v - z u := by
  have hr := hw.inRange sc.edges[j] (List.getElem_mem _)
  refine ⟨⟨sc.edges[j].1.toNat, by simp only [SC.N]; omega⟩, ⟨sc.edges[j].2.toNat, by simp only [SC.N]; omega⟩,
    fun z => ?_⟩
  rw [b1_transpose_apply hw.built hw.inRange hw.noLoops]
  unfold valueAt
  rw [dif_pos ⟨by omega, by simp only [SC.N]; omega⟩, dif_pos ⟨by omega, by simp only [SC.N]; omega⟩]

/-- the energy of a potential that is orthogonal to the potentials without energy -/
theorem node_energy (hw : sc.WellFormed) (v : Fin sc.E → ℝ) :
    (2 - 2 * Real.cos (Real.pi / sc.N)) * (sc.B1.mulVec v ⬝ᵥ sc.B1.mulVec v) ≤
      sc.B1.transpose.mulVec (sc.B1.mulVec v) ⬝ᵥ sc.B1.transpose.mulVec (sc.B1.mulVec v) := by
  classical
  set x := sc.B1.mulVec v with hx
  have hker : ∀ z : Fin sc.N → ℝ, sc.B1.transpose.mulVec z = 0 → x ⬝ᵥ z = 0 := by
    intro z hz
    rw [hx, dotProduct_comm, dotProduct_mulVec, ← mulVec_transpose, hz, zero_dotProduct]
  rcases Nat.eq_zero_or_pos sc.N with hN | hN
  · have : x ⬝ᵥ x = 0 := Finset.sum_eq_zero fun i _ => absurd (i.isLt.trans_eq hN) (Nat.not_lt_zero _)
    rw [this, mul_zero]
    exact Finset.sum_nonneg fun _ _ => mul_self_nonneg _
  obtain ⟨M, hM⟩ : ∃ M, sc.N = M + 1 := ⟨sc.N - 1, by omega⟩
  let σ := Tuple.sort x
  have hmono : Monotone (x ∘ σ) := Tuple.monotone_sort x
  let y : ℕ → ℝ := fun k => if h : k < sc.N then x (σ ⟨k, h⟩) else 0
  have hyv : ∀ i : Fin sc.N, y i = x (σ i) := fun i => dif_pos i.isLt
  have hyk : ∀ k (h : k < sc.N), y k = x (σ ⟨k, h⟩) := fun k h => dif_pos h
  have hym : ∀ j k, j ≤ k → k < sc.N → y j ≤ y k := by
    intro j k hjk hk
    rw [hyk j (by omega), hyk k hk]
    exact hmono (show (⟨j, by omega⟩ : Fin sc.N) ≤ ⟨k, hk⟩ from hjk)
  have hsum : ∀ F : ℝ → ℝ, ∑ i : Fin sc.N, F (x i) = ∑ k ∈ Finset.range sc.N, F (y k) := by
    intro F
    rw [← Fin.sum_univ_eq_sum_range (fun k => F (y k)), ← Equiv.sum_comp σ]
    exact Finset.sum_congr rfl fun i _ => by rw [hyv]
  have hone : ∑ i : Fin sc.N, x i = 0 := by
    have := hker (fun _ => 1) (by
      ext j
      obtain ⟨u, w, h⟩ := end_values hw j
      rw [h, sub_self]; rfl)
    simpa [dotProduct] using this
  have hy0 : ∑ k ∈ Finset.range (M + 1), y k = 0 := by rw [← hM, ← hsum fun t => t, hone]
  have hn := neumann y hy0
  rw [← hM] at hn
  have hxx : x ⬝ᵥ x = ∑ k ∈ Finset.range sc.N, y k ^ 2 := by
    rw [← hsum fun t => t ^ 2]
    exact Finset.sum_congr rfl fun i _ => (sq _).symm
  rw [hxx]
  refine hn.trans ?_
  -- which edges pass the step
  let cross : Fin sc.E → ℕ → Prop := fun j i => ∃ u w : Fin sc.N, (∀ z : Fin sc.N → ℝ,
    sc.B1.transpose.mulVec z j = z w - z u ∨ sc.B1.transpose.mulVec z j = z u - z w) ∧ x u ≤ y i ∧ y (i + 1) ≤ x w
  have hedge : ∀ j, ∑ i ∈ Finset.range M, (if cross j i then (y (i + 1) - y i) ^ 2 else 0) ≤
      sc.B1.transpose.mulVec x j * sc.B1.transpose.mulVec x j := by
    intro j
    obtain ⟨u, w, h⟩ := end_values hw j
    have hst := steps y M (fun i hi => hym i (i + 1) (by omega) (by omega)) (min_le_max (a := x u) (b := x w))
    have e : (max (x u) (x w) - min (x u) (x w)) ^ 2 = sc.B1.transpose.mulVec x j * sc.B1.transpose.mulVec x j := by
      rw [h, ← sq, max_sub_min_eq_abs, sq_abs]
    rw [← e]
    refine le_trans (Finset.sum_le_sum fun i hi => ?_) hst
    by_cases hc : cross j i
    · obtain ⟨u', w', hz, c1, c2⟩ := hc
      have hlt := hym i (i + 1) (by omega) (by have := Finset.mem_range.1 hi; omega)
      -- the ends are the same, up to order
      have hends : ∀ z : Fin sc.N → ℝ, z w' - z u' = z w - z u ∨ z w' - z u' = z u - z w := by
        intro z
        have := h z
        rcases hz z with e1 | e1
        · left; linarith
        · right; linarith
      rw [if_pos ⟨u', w', hz, c1, c2⟩]
      rw [if_pos]
      rcases eq_or_ne u' w' with huw | huw
      · -- a step of height zero
        subst huw
        have hx1 := hends x
        rw [sub_self] at hx1
        have huw' : x u = x w := by rcases hx1 with e1 | e1 <;> linarith
        exfalso
        have := hends (fun n => if n = u then 1 else 0)
        simp only [sub_self, if_true] at this
        have hne : w ≠ u := by
          rintro rfl
          have hl := hw.noLoops sc.edges[j] (List.getElem_mem _)
          have h1 := b1_transpose_apply hw.built hw.inRange hw.noLoops (fun n : Fin sc.N => ((n : ℕ) : ℝ)) j
          rw [h, sub_self] at h1
          have hr := hw.inRange sc.edges[j] (List.getElem_mem _)
          unfold valueAt at h1
          rw [dif_pos ⟨by omega, by simp only [SC.N]; omega⟩, dif_pos ⟨by omega, by simp only [SC.N]; omega⟩] at h1
          have h2 : ((sc.edges[j].2.toNat : ℕ) : ℝ) = (sc.edges[j].1.toNat : ℕ) := by linarith
          have h3 : sc.edges[j].2.toNat = sc.edges[j].1.toNat := by exact_mod_cast h2
          apply hl
          omega
        rw [if_neg hne] at this
        rcases this with e1 | e1 <;> norm_num at e1
      · have h1 := hends (fun n => if n = w' then 1 else 0)
        have h2 := hends (fun n => if n = u' then 1 else 0)
        simp only [if_true, if_neg huw, if_neg (Ne.symm huw), sub_zero, zero_sub] at h1 h2
        have hset : (u' = u ∧ w' = w) ∨ (u' = w ∧ w' = u) := by
          by_cases a1 : w = w'
          · left
            refine ⟨?_, a1.symm⟩
            by_contra hne
            rw [if_neg (Ne.symm hne), if_neg (by rw [a1]; exact Ne.symm huw)] at h2
            rcases h2 with e1 | e1 <;> norm_num at e1
          · by_cases a2 : u = w'
            · right
              refine ⟨?_, a2.symm⟩
              by_contra hne
              rw [if_neg (show ¬ w = u' from fun e => hne e.symm), if_neg (by rw [a2]; exact Ne.symm huw)] at h2
              rcases h2 with e1 | e1 <;> norm_num at e1
            · rw [if_neg a1, if_neg a2] at h1
              rcases h1 with e1 | e1 <;> norm_num at e1
        rcases hset with ⟨rfl, rfl⟩ | ⟨rfl, rfl⟩
        · exact ⟨(min_le_left _ _).trans c1, c2.trans (le_max_right _ _)⟩
        · exact ⟨(min_le_right _ _).trans c1, c2.trans (le_max_left _ _)⟩
    · rw [if_neg hc]
      split <;> positivity
  have hstep : ∀ i ∈ Finset.range M, (y (i + 1) - y i) ^ 2 ≤
      ∑ j : Fin sc.E, (if cross j i then (y (i + 1) - y i) ^ 2 else 0) := by
    intro i hi
    have hi := Finset.mem_range.1 hi
    by_cases hex : ∃ j, cross j i
    · obtain ⟨j, hj⟩ := hex
      refine le_trans ?_ (Finset.single_le_sum (f := fun j => if cross j i then (y (i + 1) - y i) ^ 2 else 0)
        (fun j _ => by split <;> positivity) (Finset.mem_univ j))
      rw [if_pos hj]
    · -- otherwise the step has no height
      have hle := hym i (i + 1) (by omega) (by omega)
      rcases hle.eq_or_lt with heq | hlt
      · have hz : (y (i + 1) - y i) ^ 2 = 0 := by rw [heq, sub_self, zero_pow two_ne_zero]
        exact hz.le.trans (Finset.sum_nonneg fun j _ => by split <;> positivity)
      · exfalso
        have hiN : i < sc.N := by omega
        have hiN' : i + 1 < sc.N := by omega
        have hval : ∀ n : Fin sc.N, ¬ x n ≤ y i → y (i + 1) ≤ x n := by
          intro n hn
          obtain ⟨m, rfl⟩ := σ.surjective n
          rw [← hyv] at hn ⊢
          refine hym _ _ ?_ m.isLt
          by_contra hm
          exact hn (hym _ _ (by omega) (by omega))
        have h1 := hker (fun n => if x n ≤ y i then 1 else 0) (by
          ext j
          obtain ⟨u, w, h⟩ := end_values hw j
          rw [h]
          by_cases c1 : x u ≤ y i <;> by_cases c2 : x w ≤ y i
          · simp [c1, c2]
          · exact absurd ⟨j, u, w, fun z => .inl (h z), c1, hval w c2⟩ hex
          · exact absurd ⟨j, w, u, fun z => .inr (h z), c2, hval u c1⟩ hex
          · simp [c1, c2])
        have h1' : ∑ n : Fin sc.N, (if x n ≤ y i then x n else 0) = 0 := by
          refine Eq.trans (Finset.sum_congr rfl fun n _ => ?_) h1
          by_cases hc : x n ≤ y i <;> simp [hc]
        have h2' : ∑ n : Fin sc.N, (if x n ≤ y i then 0 else x n) = 0 := by
          have : ∑ n : Fin sc.N, (if x n ≤ y i then x n else 0) + ∑ n : Fin sc.N, (if x n ≤ y i then 0 else x n) =
              ∑ n : Fin sc.N, x n := by
            rw [← Finset.sum_add_distrib]
            exact Finset.sum_congr rfl fun n _ => by split <;> simp
          rw [h1', hone, zero_add] at this
          exact this
        rcases lt_or_ge (y i) 0 with hneg | hnn
        · have : ∑ n : Fin sc.N, (if x n ≤ y i then x n else 0) < 0 := by
            refine Finset.sum_neg' (fun n _ => ?_) ⟨σ ⟨i, hiN⟩, Finset.mem_univ _, ?_⟩
            · split
              · linarith
              · exact le_rfl
            · rw [← hyk i hiN, if_pos le_rfl]; exact hneg
          linarith
        · have : 0 < ∑ n : Fin sc.N, (if x n ≤ y i then 0 else x n) := by
            refine Finset.sum_pos' (fun n _ => ?_) ⟨σ ⟨i + 1, hiN'⟩, Finset.mem_univ _, ?_⟩
            · split
              · exact le_rfl
              · rename_i hn
                linarith [hval n hn]
            · rw [← hyk (i + 1) hiN', if_neg (not_le.2 hlt)]; linarith
          linarith
  calc ∑ i ∈ Finset.range M, (y (i + 1) - y i) ^ 2
      ≤ ∑ i ∈ Finset.range M, ∑ j : Fin sc.E, (if cross j i then (y (i + 1) - y i) ^ 2 else 0) :=
        Finset.sum_le_sum hstep
    _ = ∑ j : Fin sc.E, ∑ i ∈ Finset.range M, (if cross j i then (y (i + 1) - y i) ^ 2 else 0) := Finset.sum_comm
    _ ≤ ∑ j : Fin sc.E, sc.B1.transpose.mulVec x j * sc.B1.transpose.mulVec x j :=
        Finset.sum_le_sum fun j _ => hedge j

/-- C185: on a network of `N` nodes every non-zero frequency of the lower Laplacian is at least `2 - 2 cos (π/N)`. -/
theorem C185_bound (hw : sc.WellFormed) {lam : ℝ} (hl : IsEigenvalue sc.L1l lam) (h0 : lam ≠ 0) :
    2 - 2 * Real.cos (Real.pi / sc.N) ≤ lam := by
  obtain ⟨v, hv, he⟩ := hl
  have hb : sc.B1.transpose.mulVec (sc.B1.mulVec v) = lam • v := by rw [mulVec_mulVec]; exact he
  have h1 := node_energy hw v
  have h2 : sc.B1.transpose.mulVec (sc.B1.mulVec v) ⬝ᵥ sc.B1.transpose.mulVec (sc.B1.mulVec v) =
      lam * (sc.B1.mulVec v ⬝ᵥ sc.B1.mulVec v) := by
    have : sc.B1.transpose.mulVec (sc.B1.mulVec v) ⬝ᵥ v = sc.B1.mulVec v ⬝ᵥ sc.B1.mulVec v := by
      rw [dotProduct_mulVec, ← mulVec_transpose]
    nth_rewrite 2 [hb]
    rw [dotProduct_smul, smul_eq_mul, this]
  rw [h2] at h1
  have hpos : 0 < sc.B1.mulVec v ⬝ᵥ sc.B1.mulVec v := by
    refine lt_of_le_of_ne (Finset.sum_nonneg fun _ _ => mul_self_nonneg _) fun hz => ?_
    have hz := dotProduct_self_eq_zero.1 hz.symm
    rw [hz, mulVec_zero] at hb
    rcases smul_eq_zero.1 hb.symm with h | h
    · exact h0 h
    · exact hv h
  exact le_of_mul_le_mul_right h1 hpos

/-- C185: the chain with `N` nodes has this frequency. -/
theorem C185_attained {s : Fin sc.E → ℝ} (h : sc.IsChain s) :
    IsEigenvalue sc.L1 (2 - 2 * Real.cos (Real.pi / sc.N)) := by
  have hN : (sc.N : ℝ) = sc.E + 1 := by
    have : sc.N = sc.E + 1 := h.size
    rw [this]; push_cast; ring
  have hE := h.nonempty
  have hEr : (0 : ℝ) < sc.E := by exact_mod_cast hE
  have hp := Real.pi_pos
  have hf := C182_frequencies h 1
  rw [Nat.cast_one, mul_one, ← hN] at hf
  refine ⟨_, ?_, hf⟩
  intro h0
  have h1 := congrFun h0 ⟨0, hE⟩
  simp only [Nat.cast_zero, zero_add, mul_one, Pi.zero_apply] at h1
  rcases mul_eq_zero.1 h1 with h3 | h3
  · rcases h.joins ⟨0, hE⟩ with ⟨-, e⟩ | ⟨-, e⟩ <;> rw [e] at h3 <;> norm_num at h3
  · refine (Real.sin_pos_of_pos_of_lt_pi (by rw [hN]; positivity) ?_).ne' h3
    rw [hN, div_lt_iff₀ (by positivity)]
    nlinarith

private theorem bound_99 {N : ℕ} (h1 : 1 ≤ N) (h : N ≤ 99) : 1 / 1000 < 2 - 2 * Real.cos (Real.pi / N) := by
  have hp := Real.pi_pos
  have hN1 : (1 : ℝ) ≤ N := by exact_mod_cast h1
  have hN : (N : ℝ) ≤ 99 := by exact_mod_cast h
  set y := Real.pi / 99 with hy
  have hxy : y ≤ Real.pi / N := div_le_div_of_nonneg_left hp.le (by linarith) hN
  have hx2 : Real.pi / N ≤ Real.pi := div_le_self hp.le hN1
  have hy0 : 0 < y := by rw [hy]; positivity
  have hcos : Real.cos (Real.pi / N) ≤ Real.cos y := Real.cos_le_cos_of_nonneg_of_le_pi hy0.le hx2 hxy
  have p1 := Real.pi_gt_d2
  have p2 := Real.pi_lt_d2
  have hy1 : 0.0317 < y := by rw [hy]; linarith
  have hy2 : y < 0.032 := by rw [hy]; linarith
  have hb := Real.cos_bound (x := y) (by rw [abs_of_pos hy0]; linarith)
  rw [abs_of_pos hy0] at hb
  have hb' := (abs_le.1 hb).2
  have h4 : y ^ 4 ≤ 0.0000011 := by
    have : y ^ 2 ≤ 0.032 ^ 2 := by nlinarith
    have h5 : y ^ 4 = y ^ 2 * y ^ 2 := by ring
    rw [h5]
    nlinarith [sq_nonneg y]
  have h2 : 0.0317 ^ 2 < y ^ 2 := by nlinarith
  norm_num at h2 h4 hb'
  linarith

/-- C185: with filled triangles as well, the default tolerance separates on every network of at most 99 nodes whose `T`
triangles have crossing depth at most `k`, when `T k² < 1000`. -/
theorem C185_gap (hs : sc.OnSimpleGraph) (ho : Oriented sc.edges sc.triangles) (hN : sc.nodes.length ≤ 99) {k : ℕ}
    (hk : DepthLE sc.edges sc.triangles k) (h2 : sc.triangles.length * k ^ 2 < 1000) :
    NoSmallEigenvalue sc.L1 (1 / 1000) := by
  have hw : sc.WellFormed := ⟨hs.built, hs.inRange, hs.noLoops, ho⟩
  obtain ⟨h12, h21⟩ := C12_lower_upper_annihilate sc hw
  rintro lam v hv he ⟨hpos, hle⟩
  have e1 : sc.L1l.mulVec (sc.L1l.mulVec v) = lam • sc.L1l.mulVec v := by
    rw [← mulVec_smul, ← he, mulVec_mulVec, mulVec_mulVec]
    congr 1
    change sc.L1l * sc.L1l = sc.L1l * (sc.L1l + sc.L1u)
    rw [Matrix.mul_add, h12, add_zero]
  have e2 : sc.L1u.mulVec (sc.L1u.mulVec v) = lam • sc.L1u.mulVec v := by
    rw [← mulVec_smul, ← he, mulVec_mulVec, mulVec_mulVec]
    congr 1
    change sc.L1u * sc.L1u = sc.L1u * (sc.L1l + sc.L1u)
    rw [Matrix.mul_add, h21, zero_add]
  by_cases z1 : sc.L1l.mulVec v = 0
  · by_cases z2 : sc.L1u.mulVec v = 0
    · have : lam • v = 0 := by
        rw [← he]
        change (sc.L1l + sc.L1u).mulVec v = 0
        rw [add_mulVec, z1, z2, add_zero]
      rcases smul_eq_zero.mp this with g | g
      · exact hpos.ne' g
      · exact hv g
    · have h1 := C121_upper sc hs k hk lam ⟨_, z2, e2⟩ hpos.ne'
      have h3 := mul_le_mul_of_nonneg_left hle (show (0 : ℝ) ≤ sc.triangles.length * k ^ 2 by positivity)
      have h4 : ((sc.triangles.length * k ^ 2 : ℕ) : ℝ) < 1000 := by exact_mod_cast h2
      push_cast at h4
      linarith
  · have h1 := C185_bound hw ⟨_, z1, e1⟩ hpos.ne'
    have hE : 0 < sc.E := by
      rcases Nat.eq_zero_or_pos sc.E with h | h
      · exact absurd (funext fun i => absurd (i.isLt.trans_eq h) (Nat.not_lt_zero _)) z1
      · exact h
    have hr := hw.inRange sc.edges[(⟨0, hE⟩ : Fin sc.E)] (List.getElem_mem _)
    have h2 := bound_99 (N := sc.N) (by simp only [SC.N]; omega) hN
    linarith

/-- C185: so on these networks the eigenvectors that `get_component_eigenpair("harmonic")` returns with the default
tolerance are an orthonormal basis of exactly the harmonic flows. -/
theorem C185_default_tolerance (hs : sc.OnSimpleGraph) (ho : Oriented sc.edges sc.triangles) (hE : 0 < sc.E)
    (hN : sc.nodes.length ≤ 99) {k : ℕ} (hk : DepthLE sc.edges sc.triangles k)
    (h2 : sc.triangles.length * k ^ 2 < 1000) :
    ∃ eh, sc.getComponentEigenpair lib "harmonic" = .ok eh ∧ eh.vecs.transpose * eh.vecs = 1 ∧
      ∀ f : Fin sc.E → ℝ, (sc.getDivergence f = 0 ∧ sc.getCurl f = 0) ↔ ∃ a, eh.vecs.mulVec a = f :=
  C31_harmonic_space_partial ⟨hs.built, hs.inRange, hs.noLoops, ho⟩ (C185_gap hs ho hN hk h2) hE

/-- C185: without filled triangles the default tolerance separates up to 99 nodes. -/
theorem C185_hollow (hw : sc.WellFormed) (hT : sc.triangles = []) (hE : 0 < sc.E) (hN : sc.nodes.length ≤ 99) :
    NoSmallEigenvalue sc.L1 (1 / 1000) := by
  intro lam v hv he hc
  have hu : sc.L1u = 0 := by
    ext i j
    unfold SC.L1u
    rw [Matrix.mul_apply]
    apply Finset.sum_eq_zero
    intro k _
    exact absurd k.2 (by simp [hT])
  rw [SC.L1, hu, add_zero] at he
  have h1 := C185_bound hw ⟨v, hv, he⟩ hc.1.ne'
  have hr := hw.inRange sc.edges[(⟨0, hE⟩ : Fin sc.E)] (List.getElem_mem _)
  have h2 := bound_99 (N := sc.N) (by simp only [SC.N]; omega) hN
  linarith [hc.2]

/-- C185: on every network of at most 99 nodes without filled triangles the eigenvectors that
`get_component_eigenpair("harmonic")` returns with the default tolerance are an orthonormal basis of exactly the
harmonic flows. -/
theorem C185_99_nodes (hw : sc.WellFormed) (hT : sc.triangles = []) (hE : 0 < sc.E) (hN : sc.nodes.length ≤ 99) :
    ∃ eh, sc.getComponentEigenpair lib "harmonic" = .ok eh ∧ eh.vecs.transpose * eh.vecs = 1 ∧
      ∀ f : Fin sc.E → ℝ, (sc.getDivergence f = 0 ∧ sc.getCurl f = 0) ↔ ∃ a, eh.vecs.mulVec a = f :=
  C31_harmonic_space_partial hw (C185_hollow hw hT hE hN) hE

/-- C185: 99 cannot be replaced by 100: there is a network of 100 nodes without filled triangles for which the returned
eigenvectors are not harmonic. -/
theorem C185_100_nodes : ∃ sc : SC ℝ, sc.WellFormed ∧ sc.triangles = [] ∧ 0 < sc.E ∧ sc.nodes.length = 100 ∧
    ∀ lib : NumLib, ∃ eh, sc.getComponentEigenpair lib "harmonic" = .ok eh ∧ 0 < eh.num ∧
      ∀ j, sc.getDivergence (fun k => eh.vecs k j) ≠ 0 := by
  obtain ⟨sc, s, h, e⟩ := chain_exists 99 (by norm_num)
  have hs := h.size
  refine ⟨sc, h.wellFormed, h.hollow, h.nonempty, ?_, fun lib => ?_⟩
  · have : sc.edges.length = 99 := e
    omega
  · obtain ⟨eh, a, b, c⟩ := C182_tolerance (lib := lib) h e.ge
    exact ⟨eh, a, b, c⟩

/-- The chain with 99 nodes meets the hypotheses. -/
example : ∃ sc : SC ℝ, sc.WellFormed ∧ sc.triangles = [] ∧ 0 < sc.E ∧ sc.nodes.length = 99 := by
  obtain ⟨sc, s, h, e⟩ := chain_exists 98 (by norm_num)
  have hs := h.size
  have : sc.edges.length = 98 := e
  exact ⟨sc, h.wellFormed, h.hollow, h.nonempty, by omega⟩

end Pytspl
