import Verif.Props.FloatArith
import Verif.Props.Hodge
import Verif.Model.FloatHodge

/-!
# C150, C151: the Hodge components in doubles
-/

namespace Pytspl

open Matrix

variable {R : Rounding}

private theorem rel' (x : ℝ) : |R.rnd x - x| ≤ 1 / 2 ^ 53 * |x| := R.rel x

private theorem abs_rnd (x : ℝ) : |R.rnd x| ≤ (1 + 1 / 2 ^ 53) * |x| := by
  have h1 := R.rel x
  have h2 := abs_add_le (R.rnd x - x) x
  rw [sub_add_cancel] at h2
  linarith

/-! ## C150 -/

/-- C150: the three components add up to the flow on every edge up to three units in the last place of the magnitudes
involved, whatever the solver returned. -/
theorem C150_sum (sc : SC ℝ) (f : Fin sc.E → ℝ) (p : Fin sc.N → ℝ) (w : Fin sc.T → ℝ) (g c h : Fin sc.E → ℝ)
    (hp : sc.FlParts R f p w g c h) (j : Fin sc.E) :
    |g j + c j + h j - f j| ≤ 3 / 2 ^ 53 * (|f j| + |g j| + |c j|) := by
  rw [hp.harmonic j]
  have h1 := R.rel (f j - g j)
  have h2 := R.rel (R.rnd (f j - g j) - c j)
  have h3 := abs_rnd (R := R) (f j - g j)
  have h4 := abs_sub (f j) (g j)
  have h5 := abs_sub (R.rnd (f j - g j)) (c j)
  have e : g j + c j + R.rnd (R.rnd (f j - g j) - c j) - f j =
      (R.rnd (R.rnd (f j - g j) - c j) - (R.rnd (f j - g j) - c j)) + (R.rnd (f j - g j) - (f j - g j)) := by ring
  rw [e]
  have h6 := abs_add_le (R.rnd (R.rnd (f j - g j) - c j) - (R.rnd (f j - g j) - c j)) (R.rnd (f j - g j) - (f j - g j))
  have p1 := abs_nonneg (f j)
  have p2 := abs_nonneg (g j)
  have p3 := abs_nonneg (c j)
  norm_num at h1 h2 h3 ⊢
  linarith

private theorem ten_exact (d : ℤ) (hd : d.natAbs ≤ 15) : powerOfTen R d = 10 ^ d.natAbs := by
  have h := R.int ((10 : ℤ) ^ d.natAbs) (by
    rw [abs_of_nonneg (by positivity)]
    calc (10 : ℤ) ^ d.natAbs ≤ 10 ^ 15 := pow_le_pow_right₀ (by norm_num) hd
      _ ≤ 2 ^ 53 := by norm_num)
  unfold powerOfTen
  push_cast at h
  exact h

/-- C150: `np.round(x, d)` of a double `x` is off by half a unit of the last digit kept, and two units in the last place. -/
theorem C150_round (x : ℝ) (d : ℤ) (hd : |d| ≤ 15) :
    |flNpRound R x d - x| ≤ (1 + 1 / 2 ^ 53) * (1 / 2 / (10 : ℝ) ^ d) + (2 / 2 ^ 53 + (1 / 2 ^ 53) ^ 2) * |x| := by
  have hm : powerOfTen R d = 10 ^ d.natAbs := ten_exact d (by rw [Int.abs_eq_natAbs] at hd; exact_mod_cast hd)
  set m : ℝ := (10 : ℝ) ^ d.natAbs with hmdef
  have mpos : 0 < m := by positivity
  have px := abs_nonneg x
  have main : ∀ s : ℝ, 0 < s → |R.rnd ((rint (R.rnd (x * s)) : ℝ) / s) - x| ≤
      (1 + 1 / 2 ^ 53) * (1 / 2 / s) + (2 / 2 ^ 53 + (1 / 2 ^ 53) ^ 2) * |x| := by
    intro s hs
    set n : ℝ := (rint (R.rnd (x * s)) : ℝ) with hn
    have h1 : |n - R.rnd (x * s)| ≤ 1 / 2 := rint_close _
    have h2 := R.rel (x * s)
    rw [abs_mul, abs_of_pos hs] at h2
    have h3 := R.rel (n / s)
    have h4 : |n / s - x| ≤ 1 / 2 / s + 1 / 2 ^ 53 * |x| := by
      have e : n / s - x = (n - x * s) / s := by field_simp
      rw [e, abs_div, abs_of_pos hs, div_le_iff₀ hs]
      have := abs_sub_le n (R.rnd (x * s)) (x * s)
      have e2 : (1 / 2 / s + 1 / 2 ^ 53 * |x|) * s = 1 / 2 + 1 / 2 ^ 53 * (|x| * s) := by field_simp
      rw [e2]
      linarith
    have h5 := abs_add_le (n / s - x) x
    rw [sub_add_cancel] at h5
    have h6 := abs_sub_le (R.rnd (n / s)) (n / s) x
    have h7 : (1 : ℝ) / 2 ^ 53 * |n / s| ≤ 1 / 2 ^ 53 * (1 / 2 / s + 1 / 2 ^ 53 * |x| + |x|) :=
      mul_le_mul_of_nonneg_left (by linarith) (by positivity)
    calc _ ≤ _ := h6
      _ ≤ 1 / 2 ^ 53 * (1 / 2 / s + 1 / 2 ^ 53 * |x| + |x|) + (1 / 2 / s + 1 / 2 ^ 53 * |x|) := by linarith
      _ = _ := by ring
  unfold flNpRound
  split_ifs with h0 h1
  · subst h0
    have := rint_close x
    have q : (0 : ℝ) ≤ (2 / 2 ^ 53 + (1 / 2 ^ 53) ^ 2) * |x| := by positivity
    rw [zpow_zero]
    linarith
  · have e : (10 : ℝ) ^ d = m := by
      rw [hmdef, ← zpow_natCast, Int.natAbs_of_nonneg h1.le]
    rw [hm, e]
    exact main m mpos
  · have e : (10 : ℝ) ^ d = m⁻¹ := by
      rw [hmdef, ← zpow_natCast, ← _root_.zpow_neg, Int.ofNat_natAbs_of_nonpos (by omega), neg_neg]
    have := main m⁻¹ (by positivity)
    rw [hm, e]
    rwa [div_inv_eq_mul, ← div_eq_mul_inv] at this

/-- C150: the components shown to the user, rounded to `d` digits, add up to the flow up to three half units of the last
digit kept and ten units in the last place. -/
theorem C150_rounded (sc : SC ℝ) (f : Fin sc.E → ℝ) (p : Fin sc.N → ℝ) (w : Fin sc.T → ℝ) (g c h : Fin sc.E → ℝ)
    (hp : sc.FlParts R f p w g c h) (d : ℤ) (hd : |d| ≤ 15) (j : Fin sc.E) :
    |flNpRound R (g j) d + flNpRound R (c j) d + flNpRound R (h j) d - f j| ≤
      (1 + 1 / 2 ^ 53) * (3 / 2 / (10 : ℝ) ^ d) + 10 / 2 ^ 53 * (|f j| + |g j| + |c j|) := by
  have hs := C150_sum sc f p w g c h hp j
  have h1 := C150_round (R := R) (g j) d hd
  have h2 := C150_round (R := R) (c j) d hd
  have h3 := C150_round (R := R) (h j) d hd
  have hh : |h j| ≤ (1 + 3 / 2 ^ 53) * (|f j| + |g j| + |c j|) := by
    have e : h j = (g j + c j + h j - f j) + (f j - g j - c j) := by ring
    have a := abs_add_le (g j + c j + h j - f j) (f j - g j - c j)
    rw [← e] at a
    have b := abs_sub (f j - g j) (c j)
    have b' := abs_sub (f j) (g j)
    linarith
  have e : flNpRound R (g j) d + flNpRound R (c j) d + flNpRound R (h j) d - f j =
      (flNpRound R (g j) d - g j) + (flNpRound R (c j) d - c j) + (flNpRound R (h j) d - h j) + (g j + c j + h j - f j) := by
    ring
  rw [e]
  have t1 := abs_add_le ((flNpRound R (g j) d - g j) + (flNpRound R (c j) d - c j) + (flNpRound R (h j) d - h j))
    (g j + c j + h j - f j)
  have t2 := abs_add_le ((flNpRound R (g j) d - g j) + (flNpRound R (c j) d - c j)) (flNpRound R (h j) d - h j)
  have t3 := abs_add_le (flNpRound R (g j) d - g j) (flNpRound R (c j) d - c j)
  have p1 := abs_nonneg (f j)
  have p2 := abs_nonneg (g j)
  have p3 := abs_nonneg (c j)
  have e3 : (3 : ℝ) / 2 / (10 : ℝ) ^ d = 3 * (1 / 2 / (10 : ℝ) ^ d) := by ring
  rw [e3]
  generalize (1 : ℝ) / 2 / (10 : ℝ) ^ d = z at *
  norm_num at h1 h2 h3 hh hs ⊢
  linarith

/-! ## C151 -/

private theorem one_term : ∀ l : List ℝ, (∀ x ∈ l, R.rnd x = x) → nonzeros l ≤ 1 → R.rnd l.sum = l.sum
  | [], _, _ => by simpa using R.zero
  | a :: l, hd, hn => by
    rw [List.sum_cons]
    by_cases ha : a = 0
    · subst ha
      rw [zero_add]
      exact one_term l (fun x hx => hd x (by simp [hx])) (by simpa [nonzeros] using hn)
    · have : nonzeros l = 0 := by
        have e : nonzeros (a :: l) = nonzeros l + 1 := by simp [nonzeros, ha]
        omega
      rw [List.sum_eq_zero (nonzeros_eq_zero this), add_zero]
      exact hd a (by simp)

/-- a sum of two doubles is rounded once -/
private theorem FlSum.two {l : List ℝ} {r : ℝ} (h : FlSum R l r) (hd : ∀ x ∈ l, R.rnd x = x) (hn : nonzeros l ≤ 2) :
    r = R.rnd l.sum := by
  induction h with
  | nil => simp [R.zero]
  | single x => simpa using (hd x (by simp)).symm
  | @add l1 l2 r1 r2 _ _ ih1 ih2 =>
    rw [nonzeros_append] at hn
    have d1 : ∀ x ∈ l1, R.rnd x = x := fun x hx => hd x (by simp [hx])
    have d2 : ∀ x ∈ l2, R.rnd x = x := fun x hx => hd x (by simp [hx])
    rw [ih1 d1 (by omega), ih2 d2 (by omega), List.sum_append]
    by_cases c1 : nonzeros l1 = 0
    · rw [List.sum_eq_zero (nonzeros_eq_zero c1), R.zero, zero_add, zero_add, R.idem]
    · by_cases c2 : nonzeros l2 = 0
      · rw [List.sum_eq_zero (nonzeros_eq_zero c2), R.zero, add_zero, add_zero, R.idem]
      · rw [one_term l1 d1 (by omega), one_term l2 d2 (by omega)]
  | @perm l l' r _ hp ih =>
    have h1 : nonzeros l = nonzeros l' := by
      classical
      exact hp.countP_eq _
    rw [ih (fun x hx => hd x (hp.mem_iff.1 hx)) (by omega), hp.sum_eq]

private theorem FlDot.two {n : ℕ} {a x : Fin n → ℝ} {y : ℝ} (h : FlDot R a x y)
    (hx : ∀ j, R.rnd (a j * x j) = a j * x j) (hs : support a ≤ 2) : y = R.rnd (∑ j, a j * x j) := by
  obtain ⟨l, hl, hc, hs'⟩ := h
  have hd : ∀ z ∈ l.map (fun j => a j * x j), R.rnd z = z := by
    intro z hz
    obtain ⟨j, -, rfl⟩ := List.mem_map.1 hz
    exact hx j
  have hcov : ∀ j, a j * x j ≠ 0 → j ∈ l := fun j hj => hc j fun h0 => hj (by rw [h0, zero_mul])
  rw [← sum_support hl _ hcov]
  exact (hs'.toSum hd).two hd ((nonzeros_map_le hl a _ fun j hj => by rw [hj, zero_mul]).trans hs)

/-- C151: the gradient component on the edge from `a` to `b` is the difference of the potential the solver returned,
rounded once. -/
theorem C151_gradient (sc : SC ℝ) (hb : sc.Built) (hr : EdgesInRange sc.nodes.length sc.edges) (hl : NoLoops sc.edges)
    (p : Fin sc.nodes.length → ℝ) (hd : IsDoubles R p) (g : Fin sc.edges.length → ℝ)
    (hg : FlMulVec R sc.B1.transpose p g) (j : Fin sc.edges.length) (a b : Fin sc.nodes.length)
    (hj : sc.edges[j] = (((a : ℕ) : Int), ((b : ℕ) : Int))) : g j = R.rnd (p b - p a) := by
  have hab : a ≠ b := by
    intro h
    have := hl _ (List.getElem_mem (l := sc.edges) j.2)
    rw [show sc.edges[(j : ℕ)] = _ from hj, h] at this
    exact this rfl
  have hB : ∀ i : Fin sc.nodes.length, sc.B1 i j = (if i = b then 1 else 0) - if i = a then 1 else 0 := by
    intro i
    have := hb.b1_entry hr hl i j
    rw [this, hj]
    simp only [Nat.cast_inj, Fin.ext_iff, eq_comm]
  have hsum : ∑ i, sc.B1.transpose j i * p i = p b - p a := by
    simp only [Matrix.transpose_apply, hB, sub_mul, ite_mul, one_mul, zero_mul, Finset.sum_sub_distrib]
    simp
  rw [← hsum]
  apply FlDot.two (hg j)
  · intro i
    rw [Matrix.transpose_apply, hB i]
    by_cases h1 : i = b
    · have : i ≠ a := fun h => hab (h.symm.trans h1)
      simp only [h1, if_true, if_neg (h1 ▸ this), sub_zero, one_mul]
      exact hd b
    · by_cases h2 : i = a
      · simp only [h2, if_true, if_neg (h2 ▸ h1), zero_sub, neg_one_mul, R.odd]
        rw [hd a]
      · simp only [if_neg h1, if_neg h2, sub_zero, zero_mul, R.zero]
  · classical
    unfold support
    have : (Finset.univ.filter fun i => sc.B1.transpose j i ≠ 0) ⊆ {a, b} := by
      intro i hi
      rw [Finset.mem_filter] at hi
      by_contra hn
      simp only [Finset.mem_insert, Finset.mem_singleton, not_or] at hn
      apply hi.2
      rw [Matrix.transpose_apply, hB i, if_neg hn.1, if_neg hn.2, sub_zero]
    exact (Finset.card_le_card this).trans Finset.card_le_two

/-- relative error in terms of the result -/
private theorem rnd_back (x : ℝ) : |R.rnd x - x| ≤ 1 / (2 ^ 53 - 1) * |R.rnd x| := by
  have h1 := R.rel x
  have h2 := abs_add_le (x - R.rnd x) (R.rnd x)
  rw [sub_add_cancel, abs_sub_comm] at h2
  norm_num at h1 ⊢
  linarith

/-- C151: around every triangle the gradient component computed in doubles circulates by at most `1/(2^53 - 1)` of the
magnitudes of the component on its three edges, whatever potential the solver returned. -/
theorem C151_curl_free (sc : SC ℝ) (hw : sc.WellFormed) (p : Fin sc.nodes.length → ℝ) (hd : IsDoubles R p)
    (g : Fin sc.edges.length → ℝ) (hg : FlMulVec R sc.B1.transpose p g) (iab ibc iac : Fin sc.edges.length) (a b c : Int)
    (h1 : sc.edges[iab] = (a, b)) (h2 : sc.edges[ibc] = (b, c)) (h3 : sc.edges[iac] = (a, c)) :
    |g iab + g ibc - g iac| ≤ 1 / (2 ^ 53 - 1) * (|g iab| + |g ibc| + |g iac|) := by
  have range : ∀ (j : Fin sc.edges.length) (x y : Int), sc.edges[j] = (x, y) →
      ∃ u v : Fin sc.nodes.length, x = ((u : ℕ) : Int) ∧ y = ((v : ℕ) : Int) := by
    intro j x y hj
    have := hw.inRange _ (List.getElem_mem (l := sc.edges) j.2)
    rw [show sc.edges[(j : ℕ)] = _ from hj] at this
    simp only at this
    exact ⟨⟨x.toNat, by omega⟩, ⟨y.toNat, by omega⟩, by simp only; omega, by simp only; omega⟩
  obtain ⟨u, v, rfl, rfl⟩ := range iab a b h1
  obtain ⟨v', x, hv, rfl⟩ := range ibc _ c h2
  have e1 := C151_gradient sc hw.built hw.inRange hw.noLoops p hd g hg iab u v h1
  have e2 := C151_gradient sc hw.built hw.inRange hw.noLoops p hd g hg ibc v x h2
  have e3 := C151_gradient sc hw.built hw.inRange hw.noLoops p hd g hg iac u x h3
  have b1 := rnd_back (R := R) (p v - p u)
  have b2 := rnd_back (R := R) (p x - p v)
  have b3 := rnd_back (R := R) (p x - p u)
  rw [← e1] at b1
  rw [← e2] at b2
  rw [← e3] at b3
  have e : g iab + g ibc - g iac = (g iab - (p v - p u)) + (g ibc - (p x - p v)) - (g iac - (p x - p u)) := by ring
  rw [e]
  have t1 := abs_sub ((g iab - (p v - p u)) + (g ibc - (p x - p v))) (g iac - (p x - p u))
  have t2 := abs_add_le (g iab - (p v - p u)) (g ibc - (p x - p v))
  linarith

/-- positions of the triangles with both ends of an edge -/
def trianglesOn (edges : List Edge) (triangles : List (List Int)) (j : Fin edges.length) : Finset (Fin triangles.length) :=
  Finset.univ.filter fun t => edges[j].1 ∈ triangles[t] ∧ edges[j].2 ∈ triangles[t]

private theorem b2_entry {sc : SC ℝ} (hb : sc.Built) (j : Fin sc.edges.length) (t : Fin sc.triangles.length) :
    sc.B2 j t = 0 ∨ (sc.B2 j t = 1 ∨ sc.B2 j t = -1) ∧ t ∈ trianglesOn sc.edges sc.triangles j := by
  obtain ⟨a, b, c, ia, ib, ic, h0, h1, h2, h3, hB⟩ := hb.tri_entry t
  have on : ∀ (x y : Int) (i : Fin sc.edges.length), listIndexOr sc.edges (x, y) (y, x) = .ok i → x ∈ [a, b, c] →
      y ∈ [a, b, c] → i ∈ {i | t ∈ trianglesOn sc.edges sc.triangles i} := by
    intro x y i hi hx hy
    simp only [Set.mem_ofPred_eq, trianglesOn, Finset.mem_filter, Finset.mem_univ, true_and]
    rw [h0]
    rcases listIndexOr_get hi with h | ⟨-, h⟩ <;> rw [h] <;> exact ⟨by assumption, by assumption⟩
  have o1 := on a b ia h1 (by simp) (by simp)
  have o2 := on b c ib h2 (by simp) (by simp)
  have o3 := on a c ic h3 (by simp) (by simp)
  rw [hB j]
  split_ifs with c1 c2 c3
  · exact .inr ⟨.inl rfl, c1 ▸ o2⟩
  · exact .inr ⟨.inr rfl, c2 ▸ o3⟩
  · exact .inr ⟨.inl rfl, c3 ▸ o1⟩
  · exact .inl rfl

/-- C151: at every node the net inflow of the curl component computed in doubles is at most, summed over the edges at the
node, `(1 + 2^-53)^(k-1) - 1` times the magnitudes of the solver's numbers on the `k` triangles at the edge.  It is exactly
zero if every edge at the node is on one triangle only. -/
theorem C151_divergence_free (sc : SC ℝ) (hw : sc.WellFormed) (w : Fin sc.triangles.length → ℝ) (hd : IsDoubles R w)
    (c : Fin sc.edges.length → ℝ) (hc : FlMulVec R sc.B2 w c) (i : Fin sc.nodes.length) :
    |(∑ j : Fin sc.edges.length, if sc.edges[j].2 = ((i : ℕ) : Int) then c j else 0) -
        (∑ j : Fin sc.edges.length, if sc.edges[j].1 = ((i : ℕ) : Int) then c j else 0)| ≤
      ∑ j ∈ edgesAt sc.edges i, ((1 + 1 / 2 ^ 53) ^ ((trianglesOn sc.edges sc.triangles j).card - 1) - 1) *
        ∑ t ∈ trianglesOn sc.edges sc.triangles j, |w t| := by
  classical
  have hu := b2_entry hw.built
  have err : ∀ j, |c j - sc.B2.mulVec w j| ≤ ((1 + 1 / 2 ^ 53) ^ ((trianglesOn sc.edges sc.triangles j).card - 1) - 1) *
      ∑ t ∈ trianglesOn sc.edges sc.triangles j, |w t| := by
    intro j
    have he := ((hc j).error_exact fun t => by
      rcases hu j t with h | ⟨h | h, -⟩
      · rw [h, zero_mul, R.zero]
      · rw [h, one_mul, hd t]
      · rw [h, neg_one_mul, R.odd, hd t]).2
    have h1 : support (sc.B2 j) ≤ (trianglesOn sc.edges sc.triangles j).card := by
      unfold support
      apply Finset.card_le_card
      intro t ht
      rw [Finset.mem_filter] at ht
      rcases hu j t with h | ⟨-, h⟩
      · exact absurd h ht.2
      · exact h
    have h2 : ∑ t, |sc.B2 j t * w t| ≤ ∑ t ∈ trianglesOn sc.edges sc.triangles j, |w t| := by
      rw [← Finset.sum_subset (Finset.subset_univ (trianglesOn sc.edges sc.triangles j))]
      · refine Finset.sum_le_sum fun t _ => ?_
        rcases hu j t with h | ⟨h | h, -⟩ <;> rw [h] <;> simp
      · intro t _ ht
        rcases hu j t with h | ⟨-, h⟩
        · rw [h, zero_mul, abs_zero]
        · exact absurd h ht
    refine he.trans (mul_le_mul (gam_mono (by omega)) h2 (Finset.sum_nonneg fun t _ => abs_nonneg _) (gam_nonneg _))
  have hz : sc.B1.mulVec c i = sc.B1.mulVec (c - sc.B2.mulVec w) i := by
    rw [Matrix.mulVec_sub, Matrix.mulVec_mulVec, hw.b1_mul_b2, Matrix.zero_mulVec, sub_zero]
  have h15 := (C15_divergence sc hw.built hw.inRange hw.noLoops c).1 i
  rw [← h15, show sc.getDivergence c i = sc.B1.mulVec c i from rfl, hz]
  calc |sc.B1.mulVec (c - sc.B2.mulVec w) i| ≤ ∑ j, |sc.B1 i j * (c - sc.B2.mulVec w) j| :=
        Finset.abs_sum_le_sum_abs (fun j => sc.B1 i j * (c - sc.B2.mulVec w) j) Finset.univ
    _ = ∑ j ∈ edgesAt sc.edges i, |c j - sc.B2.mulVec w j| := by
      rw [← Finset.sum_filter_add_sum_filter_not Finset.univ (fun j => j ∈ edgesAt sc.edges i)]
      have e1 : ∑ j ∈ Finset.univ.filter (fun j => ¬ j ∈ edgesAt sc.edges i), |sc.B1 i j * (c - sc.B2.mulVec w) j| = 0 := by
        apply Finset.sum_eq_zero
        intro j hj
        rw [abs_mul, b1_support hw.built hw.inRange hw.noLoops i j, if_neg (Finset.mem_filter.1 hj).2, zero_mul]
      rw [e1, add_zero]
      refine Finset.sum_congr (by ext j; simp) fun j hj => ?_
      rw [abs_mul, b1_support hw.built hw.inRange hw.noLoops i j]
      have hj' : j ∈ edgesAt sc.edges i := by simpa using hj
      rw [if_pos hj', one_mul]
      rfl
    _ ≤ _ := Finset.sum_le_sum fun j _ => err j

/-- C151: the same for the components of one decomposition: gradient differences, no circulation around triangles and no
net inflow at nodes. -/
theorem C151_parts (sc : SC ℝ) (hw : sc.WellFormed) (f : Fin sc.edges.length → ℝ) (p : Fin sc.nodes.length → ℝ)
    (w : Fin sc.triangles.length → ℝ) (g c h : Fin sc.edges.length → ℝ) (hp : IsDoubles R p) (hwd : IsDoubles R w)
    (hf : sc.FlParts R f p w g c h) :
    (∀ (j : Fin sc.edges.length) (a b : Fin sc.nodes.length), sc.edges[j] = (((a : ℕ) : Int), ((b : ℕ) : Int)) →
      g j = R.rnd (p b - p a)) ∧
    (∀ (iab ibc iac : Fin sc.edges.length) (a b d : Int), sc.edges[iab] = (a, b) → sc.edges[ibc] = (b, d) →
      sc.edges[iac] = (a, d) → |g iab + g ibc - g iac| ≤ 1 / (2 ^ 53 - 1) * (|g iab| + |g ibc| + |g iac|)) ∧
    ∀ i : Fin sc.nodes.length,
      |(∑ j : Fin sc.edges.length, if sc.edges[j].2 = ((i : ℕ) : Int) then c j else 0) -
          (∑ j : Fin sc.edges.length, if sc.edges[j].1 = ((i : ℕ) : Int) then c j else 0)| ≤
        ∑ j ∈ edgesAt sc.edges i, ((1 + 1 / 2 ^ 53) ^ ((trianglesOn sc.edges sc.triangles j).card - 1) - 1) *
          ∑ t ∈ trianglesOn sc.edges sc.triangles j, |w t| :=
  ⟨fun j a b hj => C151_gradient sc hw.built hw.inRange hw.noLoops p hp g hf.gradient j a b hj,
    fun iab ibc iac a b d h1 h2 h3 => C151_curl_free sc hw p hp g hf.gradient iab ibc iac a b d h1 h2 h3,
    fun i => C151_divergence_free sc hw w hwd c hf.curl i⟩

/-- Non-vacuity of C150 and C151: on a complex with a triangle there are solutions and parts, for every flow. -/
example : ∃ sc : SC ℝ, sc.WellFormed ∧ 0 < sc.triangles.length ∧
    ∃ (p : Fin sc.nodes.length → ℝ) (w : Fin sc.triangles.length → ℝ) (f g c h : Fin sc.edges.length → ℝ),
      IsDoubles double p ∧ IsDoubles double w ∧ sc.FlParts double f p w g c h ∧
      p = (fun i : Fin sc.nodes.length => double.rnd ((i : ℝ) / 3)) ∧
      f = fun j : Fin sc.edges.length => double.rnd ((j : ℝ) / 10) := by
  obtain ⟨sc, hw, -, hn, he, ht⟩ := sample_wellFormed ℝ
  refine ⟨sc, hw, by simp [ht, sampleTriangles], fun i : Fin sc.nodes.length => double.rnd ((i : ℝ) / 3), fun _ => double.rnd (1 / 7),
    fun j : Fin sc.edges.length => double.rnd ((j : ℝ) / 10), ?_⟩
  obtain ⟨g, hg⟩ := FlMulVec.exists double sc.B1.transpose fun i : Fin sc.nodes.length => double.rnd ((i : ℝ) / 3)
  obtain ⟨c, hc⟩ := FlMulVec.exists double sc.B2 fun _ => double.rnd (1 / 7)
  exact ⟨g, c, _, fun _ => double.idem _, fun _ => double.idem _, ⟨hg, hc, fun _ => rfl⟩, rfl, rfl⟩

end Pytspl
