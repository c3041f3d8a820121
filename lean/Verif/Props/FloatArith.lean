import Verif.Lemmas.FloatSum
import Verif.Lemmas.Double
import Verif.Lemmas.Incidence
import Verif.Spec.Samples
import Verif.Props.Operators

/-!
# C111, C112, C113: what rounding does to the operators

The statements hold for every rounding to doubles and for every order in which the terms of the sums
are added up.
-/

namespace Pytspl

open Matrix

variable {R : Rounding}

/-! ## Results exist -/

theorem FlAcc.exists (R : Rounding) : ∀ l : List ℝ, ∃ r, FlAcc R l r
  | [] => ⟨0, .nil⟩
  | [x] => ⟨_, .mul x⟩
  | x :: y :: l => by
    obtain ⟨r, hr⟩ := FlAcc.exists R (y :: l)
    exact ⟨_, .add (l1 := [x]) (.mul x) hr⟩

theorem FlDot.exists (R : Rounding) {n : ℕ} (a x : Fin n → ℝ) : ∃ y, FlDot R a x y := by
  obtain ⟨r, hr⟩ := FlAcc.exists R ((List.finRange n).map fun j => a j * x j)
  exact ⟨r, List.finRange n, List.nodup_finRange n, fun j _ => List.mem_finRange j, hr⟩

theorem FlMulVec.exists (R : Rounding) {m n : ℕ} (A : Matrix (Fin m) (Fin n) ℝ) (x : Fin n → ℝ) :
    ∃ y, FlMulVec R A x y := by
  choose y hy using fun i => FlDot.exists R (A i) x
  exact ⟨y, hy⟩

theorem FlMul.exists (R : Rounding) {m n p : ℕ} (A : Matrix (Fin m) (Fin n) ℝ) (B : Matrix (Fin n) (Fin p) ℝ) :
    ∃ C, FlMul R A B C := by
  choose C hC using fun (i : Fin m) (k : Fin p) => FlDot.exists R (A i) (fun j => B j k)
  exact ⟨C, hC⟩

/-! ## Entries of the incidence matrices -/

/-- the number is -1, 0 or 1 -/
private def Unit3 (x : ℝ) : Prop := x = -1 ∨ x = 0 ∨ x = 1

private theorem Unit3.mul {x y : ℝ} (hx : Unit3 x) (hy : Unit3 y) : Unit3 (x * y) := by
  rcases hx with rfl | rfl | rfl <;> rcases hy with rfl | rfl | rfl <;> simp [Unit3]

private theorem Unit3.abs_le {x : ℝ} (hx : Unit3 x) : |x| ≤ 1 := by
  rcases hx with rfl | rfl | rfl <;> simp

private theorem Unit3.int {x : ℝ} (hx : Unit3 x) : ∃ k : ℤ, x = k := by
  rcases hx with rfl | rfl | rfl
  · exact ⟨-1, by simp⟩
  · exact ⟨0, by simp⟩
  · exact ⟨1, by simp⟩

private theorem b1_unit {sc : SC ℝ} (hb : sc.Built) (i : Fin sc.N) (j : Fin sc.E) : Unit3 (sc.B1 i j) := by
  obtain ⟨u, v, -, -, hB⟩ := edgesToB1_ok_entry hb.b1 j
  rw [hB i]
  split_ifs <;> simp [Unit3]

private theorem b2_unit {sc : SC ℝ} (hb : sc.Built) (i : Fin sc.E) (j : Fin sc.T) : Unit3 (sc.B2 i j) := by
  obtain ⟨a, b, c, ia, ib, ic, -, -, -, -, hB⟩ := trianglesToB2_ok_entry hb.b2 j
  rw [hB i]
  split_ifs <;> simp [Unit3]

private theorem unit_product {m n p : ℕ} {A : Matrix (Fin m) (Fin n) ℝ} {B : Matrix (Fin n) (Fin p) ℝ}
    {C : Matrix (Fin m) (Fin p) ℝ} (hA : ∀ i j, Unit3 (A i j)) (hB : ∀ i j, Unit3 (B i j)) (hn : n ≤ 2 ^ 53)
    (h : FlMul R A B C) : C = A * B := by
  ext i k
  rw [Matrix.mul_apply]
  apply (h i k).int_exact
  · intro j
    exact ((hA i j).mul (hB j k)).int
  · calc ∑ j, |A i j * B j k| ≤ ∑ _j : Fin n, (1 : ℝ) :=
          Finset.sum_le_sum fun j _ => ((hA i j).mul (hB j k)).abs_le
      _ = n := by simp
      _ ≤ 2 ^ 53 := by exact_mod_cast hn

private theorem unit_product_entry {m n p : ℕ} {A : Matrix (Fin m) (Fin n) ℝ} {B : Matrix (Fin n) (Fin p) ℝ}
    (hA : ∀ i j, Unit3 (A i j)) (hB : ∀ i j, Unit3 (B i j)) (i : Fin m) (k : Fin p) :
    ∃ z : ℤ, (A * B) i k = z ∧ |z| ≤ n := by
  choose g hg using fun j => ((hA i j).mul (hB j k)).int
  refine ⟨∑ j, g j, ?_, ?_⟩
  · rw [Matrix.mul_apply]
    push_cast
    exact Finset.sum_congr rfl fun j _ => hg j
  · have : ∀ j, |g j| ≤ 1 := by
      intro j
      have := ((hA i j).mul (hB j k)).abs_le
      rw [hg] at this
      exact_mod_cast this
    calc |∑ j, g j| ≤ ∑ j, |g j| := Finset.abs_sum_le_sum_abs _ _
      _ ≤ ∑ _j : Fin n, 1 := Finset.sum_le_sum fun j _ => this j
      _ = n := by simp

/-! ## C111 -/

/-- C111: computed in doubles, in any order of summation, the Laplacians of a complex are exact: every
entry is the whole number which exact arithmetic gives, as long as the complex has at most `2^53`
edges, and nodes and triangles together. -/
theorem C111_laplacians_exact (R : Rounding) (sc : SC ℝ) (hb : sc.Built)
    (hE : sc.edges.length ≤ 2 ^ 53) (hNT : sc.nodes.length + sc.triangles.length ≤ 2 ^ 53) :
    (∀ M, sc.FlL0 R M → M = sc.L0) ∧ (∀ M, sc.FlL1l R M → M = sc.L1l) ∧ (∀ M, sc.FlL1u R M → M = sc.L1u) ∧
    (∀ M, sc.FlL2l R M → M = sc.L2l) ∧ (∀ M, sc.FlL1 R M → M = sc.L1) := by
  have u1 := b1_unit hb
  have u2 := b2_unit hb
  have hl : ∀ M, sc.FlL1l R M → M = sc.L1l := fun M h =>
    unit_product (fun i j => u1 j i) u1 (show sc.nodes.length ≤ 2 ^ 53 by omega) h
  have hu : ∀ M, sc.FlL1u R M → M = sc.L1u := fun M h =>
    unit_product u2 (fun i j => u2 j i) (show sc.triangles.length ≤ 2 ^ 53 by omega) h
  refine ⟨fun M h => unit_product u1 (fun i j => u1 j i) hE h, hl, hu,
    fun M h => unit_product (fun i j => u2 j i) u2 hE h, ?_⟩
  rintro M ⟨A, B, hA, hB, hM⟩
  ext i j
  rw [hM i j, hl A hA, hu B hB]
  obtain ⟨a, ha, ha'⟩ := unit_product_entry (A := sc.B1.transpose) (B := sc.B1) (fun i j => u1 j i) u1 i j
  obtain ⟨b, hb, hb'⟩ := unit_product_entry (A := sc.B2) (B := sc.B2.transpose) u2 (fun i j => u2 j i) i j
  change R.rnd (sc.L1l i j + sc.L1u i j) = sc.L1l i j + sc.L1u i j
  have e1 : sc.L1l i j = a := ha
  have e2 : sc.L1u i j = b := hb
  rw [e1, e2, ← Int.cast_add]
  apply R.int
  have hNT' : (sc.N : ℤ) + sc.T ≤ 2 ^ 53 := by
    have : sc.N + sc.T ≤ 2 ^ 53 := hNT
    exact_mod_cast this
  exact (abs_add_le _ _).trans (by linarith)

/-- C111: the boundary of a boundary is exactly zero in doubles too. -/
theorem C111_boundary_exact (R : Rounding) (sc : SC ℝ) (hw : sc.WellFormed) (hE : sc.edges.length ≤ 2 ^ 53)
    (Z : Matrix (Fin sc.nodes.length) (Fin sc.triangles.length) ℝ) (h : FlMul R sc.B1 sc.B2 Z) : Z = 0 := by
  rw [← hw.b1_mul_b2]
  exact unit_product (b1_unit hw.built) (b2_unit hw.built) hE h

/-- Non-vacuity of C111: there is a rounding, a complex with a triangle, and computed matrices. -/
example : ∃ sc : SC ℝ, sc.WellFormed ∧ 0 < sc.triangles.length ∧ sc.edges.length ≤ 2 ^ 53 ∧
    sc.nodes.length + sc.triangles.length ≤ 2 ^ 53 ∧ (∃ M, sc.FlL1 double M) ∧
    ∃ Z, FlMul double sc.B1 sc.B2 Z := by
  obtain ⟨sc, hw, -, hn, he, ht⟩ := sample_wellFormed ℝ
  refine ⟨sc, hw, by simp [ht, sampleTriangles], by simp [he, sampleEdges], by simp [hn, ht, sampleNodes, sampleTriangles], ?_, FlMul.exists _ _ _⟩
  obtain ⟨A, hA⟩ := FlMul.exists double sc.B1.transpose sc.B1
  obtain ⟨B, hB⟩ := FlMul.exists double sc.B2 sc.B2.transpose
  exact ⟨fun i j => double.rnd (A i j + B i j), A, B, hA, hB, fun _ _ => rfl⟩

/-! ## C112 -/

/-- The array holds doubles. -/
def IsDoubles (R : Rounding) {n : ℕ} (f : Fin n → ℝ) : Prop := ∀ j, R.rnd (f j) = f j

private theorem Unit3.exact {x y : ℝ} (hx : Unit3 x) (hy : R.rnd y = y) : R.rnd (x * y) = x * y := by
  rcases hx with rfl | rfl | rfl
  · rw [neg_one_mul, R.odd, hy]
  · rw [zero_mul, R.zero]
  · rw [one_mul, hy]

/-- positions of the edges at a node -/
def edgesAt (edges : List Edge) (i : ℕ) : Finset (Fin edges.length) :=
  Finset.univ.filter fun j => edges[j].1 = (i : Int) ∨ edges[j].2 = (i : Int)

theorem b1_support {sc : SC ℝ} (hb : sc.Built) (hr : EdgesInRange sc.nodes.length sc.edges)
    (hl : NoLoops sc.edges) (i : Fin sc.N) (j : Fin sc.edges.length) :
    |sc.B1 i j| = if j ∈ edgesAt sc.edges i then 1 else 0 := by
  have hm : sc.edges[j] ∈ sc.edges := List.getElem_mem _
  have hne := hl _ hm
  rw [hb.b1_entry hr hl i j]
  unfold edgesAt
  simp only [Finset.mem_filter, Finset.mem_univ, true_and, eq_comm (a := ((i : ℕ) : Int))]
  by_cases h1 : sc.edges[j].1 = ((i : ℕ) : Int)
  · have h2 : ¬ sc.edges[j].2 = ((i : ℕ) : Int) := fun h => hne (h1.trans h.symm)
    simp only [h1, h2, true_or, if_true, if_false, zero_sub, abs_neg, abs_one]
  · by_cases h2 : sc.edges[j].2 = ((i : ℕ) : Int)
    · simp only [h1, h2, or_true, if_true, if_false, sub_zero, abs_one]
    · simp only [h1, h2, or_self, if_false, sub_zero, abs_zero]

/-- C112: the divergence of a flow of doubles, computed in doubles, is at every node within
`(1 + 2^-53)^(d-1) - 1` times the total magnitude of the flow at that node of the exact net inflow, where
`d` is the number of edges at the node.  A node with a single edge has no error. -/
theorem C112_divergence (R : Rounding) (sc : SC ℝ) (hb : sc.Built)
    (hr : EdgesInRange sc.nodes.length sc.edges) (hl : NoLoops sc.edges) (f : Fin sc.edges.length → ℝ)
    (hf : IsDoubles R f) (y : Fin sc.nodes.length → ℝ) (hy : sc.FlDivergence R f y) (i : Fin sc.nodes.length) :
    |y i - ((∑ j : Fin sc.edges.length, if sc.edges[j].2 = ((i : ℕ) : Int) then f j else 0) -
        (∑ j : Fin sc.edges.length, if sc.edges[j].1 = ((i : ℕ) : Int) then f j else 0))| ≤
      ((1 + 1 / 2 ^ 53) ^ ((edgesAt sc.edges i).card - 1) - 1) * ∑ j ∈ edgesAt sc.edges i, |f j| := by
  rw [← (C15_divergence sc hb hr hl f).1 i]
  have he := ((hy i).error_exact fun j => (b1_unit hb i j).exact (hf j)).2
  have hs : support (sc.B1 i) = (edgesAt sc.edges i).card := by
    classical
    unfold support
    congr 1
    ext j
    rw [Finset.mem_filter]
    have h1 := b1_support hb hr hl i j
    have h2 : sc.B1 i j ≠ 0 ↔ |sc.B1 i j| ≠ 0 := abs_ne_zero.symm
    rw [h2, h1]
    by_cases h : j ∈ edgesAt sc.edges i <;> simp [h]
  have hS : ∑ j, |sc.B1 i j * f j| = ∑ j ∈ edgesAt sc.edges i, |f j| := by
    rw [← Finset.sum_subset (Finset.subset_univ (edgesAt sc.edges i))]
    · refine Finset.sum_congr rfl fun j hj => ?_
      rw [abs_mul, b1_support hb hr hl i j, if_pos hj, one_mul]
    · intro j _ hj
      rw [abs_mul, b1_support hb hr hl i j, if_neg hj, zero_mul]
  rw [hs, hS] at he
  exact he

/-- C112: the same bound in a simpler form. -/
theorem C112_divergence_simple (R : Rounding) (sc : SC ℝ) (hb : sc.Built)
    (hr : EdgesInRange sc.nodes.length sc.edges) (hl : NoLoops sc.edges) (hE : sc.edges.length ≤ 2 ^ 53)
    (f : Fin sc.edges.length → ℝ)
    (hf : IsDoubles R f) (y : Fin sc.nodes.length → ℝ) (hy : sc.FlDivergence R f y) (i : Fin sc.nodes.length) :
    |y i - ((∑ j : Fin sc.edges.length, if sc.edges[j].2 = ((i : ℕ) : Int) then f j else 0) -
        (∑ j : Fin sc.edges.length, if sc.edges[j].1 = ((i : ℕ) : Int) then f j else 0))| ≤
      ((edgesAt sc.edges i).card - 1 : ℕ) * (1 / 2 ^ 52) * ∑ j ∈ edgesAt sc.edges i, |f j| := by
  refine (C112_divergence R sc hb hr hl f hf y hy i).trans
    (mul_le_mul_of_nonneg_right ?_ (Finset.sum_nonneg fun j _ => abs_nonneg _))
  apply gam_le
  have : (edgesAt sc.edges i).card ≤ sc.edges.length := by
    have := Finset.card_le_univ (edgesAt sc.edges i)
    simpa using this
  omega

/-- C112: the curl of a flow of doubles, computed in doubles, is within `(1 + 2^-53)^2 - 1` times the
total magnitude of the flow around the triangle of `f(ab) + f(bc) - f(ac)`. -/
theorem C112_curl (R : Rounding) (sc : SC ℝ) (hb : sc.Built) (hl : NoLoops sc.edges)
    (f : Fin sc.edges.length → ℝ) (hf : IsDoubles R f) (y : Fin sc.triangles.length → ℝ) (hy : sc.FlCurl R f y)
    (t : Fin sc.triangles.length) :
    ∃ a b c, ∃ iab ibc iac : Fin sc.edges.length, sc.triangles[t] = [a, b, c] ∧
      (sc.edges[iab] = (a, b) ∨ ((a, b) ∉ sc.edges ∧ sc.edges[iab] = (b, a))) ∧
      (sc.edges[ibc] = (b, c) ∨ ((b, c) ∉ sc.edges ∧ sc.edges[ibc] = (c, b))) ∧
      (sc.edges[iac] = (a, c) ∨ ((a, c) ∉ sc.edges ∧ sc.edges[iac] = (c, a))) ∧
      |y t - (f iab + f ibc - f iac)| ≤ ((1 + 1 / 2 ^ 53) ^ 2 - 1) * (|f iab| + |f ibc| + |f iac|) := by
  obtain ⟨a, b, c, ia, ib, ic, h0, h1, h2, h3, hB⟩ := hb.tri_entry t
  obtain ⟨d1, d2, d3, -, -, -⟩ := triRows_distinct hl h1 h2 h3
  refine ⟨a, b, c, ia, ib, ic, h0, listIndexOr_get h1, listIndexOr_get h2, listIndexOr_get h3, ?_⟩
  have he := ((hy t).error_exact fun j => (b2_unit hb j t).exact (hf j)).2
  have e1 : ∑ j, sc.B2.transpose t j * f j = f ia + f ib - f ic := by
    rw [← sum_b2_col f (fun i => sc.B2 i t) d1 d2 d3 hB]
    exact Finset.sum_congr rfl fun j _ => mul_comm _ _
  have e2 : ∑ j, |sc.B2.transpose t j * f j| = |f ia| + |f ib| + |f ic| := by
    have habs : ∀ j, |sc.B2.transpose t j * f j| =
        (if j = ia then |f j| else 0) + (if j = ib then |f j| else 0) + (if j = ic then |f j| else 0) := by
      intro j
      rw [Matrix.transpose_apply, hB j]
      by_cases c1 : j = ib
      · subst c1
        simp [d1.symm, d3]
      · by_cases c2 : j = ic
        · subst c2
          simp [d2.symm, c1]
        · by_cases c3 : j = ia <;> simp [c1, c2, c3, d1, d2]
    rw [Finset.sum_congr rfl fun j _ => habs j, Finset.sum_add_distrib, Finset.sum_add_distrib]
    simp
  have hs : support (sc.B2.transpose t) ≤ 3 := by
    classical
    unfold support
    have : (Finset.univ.filter fun j => sc.B2.transpose t j ≠ 0) ⊆ {ia, ib, ic} := by
      intro j hj
      rw [Finset.mem_filter] at hj
      by_contra hn
      simp only [Finset.mem_insert, Finset.mem_singleton, not_or] at hn
      apply hj.2
      rw [Matrix.transpose_apply, hB j]
      simp [hn.1, hn.2.1, hn.2.2]
    exact (Finset.card_le_card this).trans Finset.card_le_three
  rw [e1, e2] at he
  refine he.trans (mul_le_mul_of_nonneg_right (gam_mono (by omega)) (by positivity))

/-- C112: flows of whole numbers of total magnitude up to `2^53` have exact divergence and curl in
doubles, equal to what exact arithmetic gives. -/
theorem C112_integer_flows (R : Rounding) (sc : SC ℝ) (hb : sc.Built) (f : Fin sc.edges.length → ℝ)
    (hi : ∀ j, ∃ k : ℤ, f j = k) (hs : ∑ j, |f j| ≤ 2 ^ 53) :
    (∀ y, sc.FlDivergence R f y → y = sc.getDivergence f) ∧ (∀ y, sc.FlCurl R f y → y = sc.getCurl f) := by
  have key : ∀ (n : ℕ) (A : Matrix (Fin n) (Fin sc.edges.length) ℝ) (_ : ∀ i j, Unit3 (A i j)) (y : Fin n → ℝ),
      FlMulVec R A f y → y = A.mulVec f := by
    intro n A hA y hy
    funext i
    rw [(hy i).int_exact]
    · rfl
    · intro j
      obtain ⟨p, hp⟩ := (hA i j).int
      obtain ⟨q, hq⟩ := hi j
      exact ⟨p * q, by rw [hp, hq]; push_cast; rfl⟩
    · refine le_trans (Finset.sum_le_sum fun j _ => ?_) hs
      rw [abs_mul]
      exact mul_le_of_le_one_left (abs_nonneg _) (hA i j).abs_le
  exact ⟨fun y hy => key _ _ (b1_unit hb) y hy, fun y hy => key _ _ (fun i j => b2_unit hb j i) y hy⟩

/-- Non-vacuity of C112: flows of doubles and computed results exist on a complex with a triangle. -/
example : ∃ (sc : SC ℝ) (f : Fin sc.edges.length → ℝ), sc.WellFormed ∧ 0 < sc.triangles.length ∧
    IsDoubles double f ∧ (∃ y, sc.FlDivergence double f y) ∧ (∃ y, sc.FlCurl double f y) ∧
    (∀ j, ∃ k : ℤ, f j = k) ∧ ∑ j, |f j| ≤ 2 ^ 53 := by
  obtain ⟨sc, hw, -, hn, he, ht⟩ := sample_wellFormed ℝ
  refine ⟨sc, fun _ => 3, hw, by simp [ht, sampleTriangles], ?_, FlMulVec.exists _ _ _, FlMulVec.exists _ _ _,
    fun _ => ⟨3, by simp⟩, ?_⟩
  · intro j
    have := double.int 3 (by norm_num)
    exact_mod_cast this
  · simp [he, sampleEdges]
    norm_num

/-! ## C113 -/

/-- a product with a matrix, when the vector carries an error already -/
theorem FlDot.chain {n : ℕ} {a z s S : Fin n → ℝ} {y : ℝ} (h : FlDot R a z y) (p : ℕ)
    (hz : ∀ j, |z j - s j| ≤ gam p * S j) (hs : ∀ j, |s j| ≤ S j) :
    |y - ∑ j, a j * s j| ≤ gam (p + n) * ∑ j, |a j| * S j := by
  have h1 := h.error.2
  have hk : support a ≤ n := by
    classical
    unfold support
    have := Finset.card_le_univ (Finset.univ.filter fun j => a j ≠ 0)
    simpa using this
  have hz' : ∀ j, |z j| ≤ (1 + gam p) * S j := by
    intro j
    have := abs_add_le (z j - s j) (s j)
    rw [sub_add_cancel] at this
    have := hz j
    have := hs j
    linarith
  set T := ∑ j, |a j| * S j with hT
  have e1 : ∑ j, |a j * z j| ≤ (1 + gam p) * T := by
    rw [hT, Finset.mul_sum]
    refine Finset.sum_le_sum fun j _ => ?_
    rw [abs_mul]
    calc |a j| * |z j| ≤ |a j| * ((1 + gam p) * S j) := mul_le_mul_of_nonneg_left (hz' j) (abs_nonneg _)
      _ = _ := by ring
  have e2 : |∑ j, a j * z j - ∑ j, a j * s j| ≤ gam p * T := by
    rw [← Finset.sum_sub_distrib, hT, Finset.mul_sum]
    refine (Finset.abs_sum_le_sum_abs _ _).trans (Finset.sum_le_sum fun j _ => ?_)
    rw [← mul_sub, abs_mul]
    calc |a j| * |z j - s j| ≤ |a j| * (gam p * S j) := mul_le_mul_of_nonneg_left (hz j) (abs_nonneg _)
      _ = _ := by ring
  have h2 : |y - ∑ j, a j * z j| ≤ gam n * ((1 + gam p) * T) :=
    h1.trans ((mul_le_mul_of_nonneg_right (gam_mono hk) (Finset.sum_nonneg fun j _ => abs_nonneg _)).trans
      (mul_le_mul_of_nonneg_left e1 (gam_nonneg _)))
  have e3 : gam (p + n) = gam n * (1 + gam p) + gam p := by
    unfold gam
    rw [pow_add]
    ring
  calc _ ≤ |y - ∑ j, a j * z j| + |∑ j, a j * z j - ∑ j, a j * s j| := abs_sub_le _ _ _
    _ ≤ gam n * ((1 + gam p) * T) + gam p * T := add_le_add h2 e2
    _ = _ := by rw [e3]; ring

/-- The shift applied to magnitudes: every entry of the matrix and of the flow replaced by its absolute
value, once or twice as the operator does. -/
noncomputable def absShift {n : ℕ} (L : Matrix (Fin n) (Fin n) ℝ) (f : Fin n → ℝ) (steps : Int) : Fin n → ℝ :=
  let A : Matrix (Fin n) (Fin n) ℝ := Matrix.of fun i j => |L i j|
  if steps = 1 then A.mulVec fun j => |f j| else A.mulVec (A.mulVec fun j => |f j|)

private theorem shift_error {n : ℕ} {L : Matrix (Fin n) (Fin n) ℝ} {f y : Fin n → ℝ} {steps : Int}
    (h : if steps = 1 then FlMulVec R L f y else ∃ z, FlMulVec R L f z ∧ FlMulVec R L z y) (i : Fin n) :
    |y i - (if steps = 1 then L.mulVec f else L.mulVec (L.mulVec f)) i| ≤ gam (2 * n) * absShift L f steps i ∧
    |(if steps = 1 then L.mulVec f else L.mulVec (L.mulVec f)) i| ≤ absShift L f steps i := by
  have one : ∀ {z : Fin n → ℝ}, FlMulVec R L f z → ∀ i,
      |z i - L.mulVec f i| ≤ gam n * ∑ j, |L i j| * |f j| := by
    intro z hz i
    have := (hz i).chain 0 (s := f) (S := fun j => |f j|) (fun j => by simp [gam]) (fun j => le_refl _)
    rw [Nat.zero_add] at this
    exact this
  have env : ∀ (g : Fin n → ℝ) (G : Fin n → ℝ), (∀ j, |g j| ≤ G j) → ∀ i,
      |L.mulVec g i| ≤ ∑ j, |L i j| * G j := by
    intro g G hg i
    change |∑ j, L i j * g j| ≤ _
    refine (Finset.abs_sum_le_sum_abs _ _).trans (Finset.sum_le_sum fun j _ => ?_)
    rw [abs_mul]
    exact mul_le_mul_of_nonneg_left (hg j) (abs_nonneg _)
  unfold absShift
  split_ifs at h ⊢ with hs
  · refine ⟨(one h i).trans (mul_le_mul_of_nonneg_right (gam_mono (by omega)) ?_),
      env f (fun j => |f j|) (fun j => le_refl _) i⟩
    exact Finset.sum_nonneg fun j _ => mul_nonneg (abs_nonneg _) (abs_nonneg _)
  · obtain ⟨z, hz, hy⟩ := h
    have e := env f (fun j => |f j|) (fun j => le_refl _)
    refine ⟨?_, env (L.mulVec f) (fun i => ∑ j, |L i j| * |f j|) e i⟩
    have := (hy i).chain n (s := L.mulVec f) (S := fun i => ∑ j, |L i j| * |f j|) (one hz) e
    rw [← two_mul] at this
    exact this

/-- C113: the shifting operators computed in doubles are, on every edge, within
`(1 + 2^-53)^(2E) - 1` times the shift of the magnitudes of the exact shift (`E` edges), for
any flow and number of steps; for the k-step operator the exponent is one larger. -/
theorem C113_shifting (R : Rounding) (sc : SC ℝ) (hb : sc.Built) (hE : sc.edges.length ≤ 2 ^ 53)
    (hNT : sc.nodes.length + sc.triangles.length ≤ 2 ^ 53) (f y : Fin sc.edges.length → ℝ) (steps : Int)
    (i : Fin sc.edges.length) :
    (sc.FlLowerShift R f steps y → |y i - sc.applyLowerShifting f steps i| ≤
      ((1 + 1 / 2 ^ 53) ^ (2 * sc.edges.length) - 1) * absShift sc.L1l f steps i) ∧
    (sc.FlUpperShift R f steps y → |y i - sc.applyUpperShifting f steps i| ≤
      ((1 + 1 / 2 ^ 53) ^ (2 * sc.edges.length) - 1) * absShift sc.L1u f steps i) ∧
    (sc.FlKStepShift R f steps y → |y i - sc.applyKStepShifting f steps i| ≤
      ((1 + 1 / 2 ^ 53) ^ (2 * sc.edges.length + 1) - 1) *
        (absShift sc.L1l f steps i + absShift sc.L1u f steps i)) := by
  obtain ⟨-, hl, hu, -, -⟩ := C111_laplacians_exact R sc hb hE hNT
  have low : ∀ y, sc.FlLowerShift R f steps y →
      |y i - sc.applyLowerShifting f steps i| ≤ gam (2 * sc.E) * absShift sc.L1l f steps i ∧
      |sc.applyLowerShifting f steps i| ≤ absShift sc.L1l f steps i := by
    rintro y ⟨M, hM, h⟩
    rw [hl M hM] at h
    exact shift_error h i
  have up : ∀ y, sc.FlUpperShift R f steps y →
      |y i - sc.applyUpperShifting f steps i| ≤ gam (2 * sc.E) * absShift sc.L1u f steps i ∧
      |sc.applyUpperShifting f steps i| ≤ absShift sc.L1u f steps i := by
    rintro y ⟨M, hM, h⟩
    rw [hu M hM] at h
    exact shift_error h i
  refine ⟨fun h => (low y h).1, fun h => (up y h).1, ?_⟩
  rintro ⟨a, b, ha, hb', hy⟩
  obtain ⟨a1, a2⟩ := low a ha
  obtain ⟨b1, b2⟩ := up b hb'
  set p := sc.applyLowerShifting f steps i
  set q := sc.applyUpperShifting f steps i
  set P := absShift sc.L1l f steps i
  set Q := absShift sc.L1u f steps i
  have e0 : sc.applyKStepShifting f steps i = p + q := rfl
  rw [e0, hy i]
  change _ ≤ gam (2 * sc.E + 1) * (P + Q)
  rw [gam_succ]
  set g := gam (2 * sc.E)
  have hr := R.rel (a i + b i)
  change _ ≤ roundoff * _ at hr
  have t1 : |(a i + b i) - (p + q)| ≤ g * (P + Q) := by
    have : (a i + b i) - (p + q) = (a i - p) + (b i - q) := by ring
    rw [this]
    exact (abs_add_le _ _).trans (by linarith)
  have t2 : |a i + b i| ≤ (1 + g) * (P + Q) := by
    have h1 := abs_add_le ((a i + b i) - (p + q)) (p + q)
    rw [sub_add_cancel] at h1
    have h2 : |p + q| ≤ P + Q := (abs_add_le _ _).trans (add_le_add a2 b2)
    linarith
  have t3 : |R.rnd (a i + b i) - (p + q)| ≤ |R.rnd (a i + b i) - (a i + b i)| + |(a i + b i) - (p + q)| :=
    abs_sub_le _ _ _
  have t4 := mul_le_mul_of_nonneg_left t2 roundoff_pos.le
  calc _ ≤ _ := t3
    _ ≤ roundoff * ((1 + g) * (P + Q)) + g * (P + Q) := by linarith
    _ = _ := by ring

/-- Non-vacuity of C113: computed shifts exist. -/
example : ∃ (sc : SC ℝ) (f y : Fin sc.edges.length → ℝ), sc.Built ∧ sc.edges.length ≤ 2 ^ 53 ∧
    sc.nodes.length + sc.triangles.length ≤ 2 ^ 53 ∧ 0 < sc.triangles.length ∧ sc.FlKStepShift double f 2 y := by
  obtain ⟨sc, hw, -, hn, he, ht⟩ := sample_wellFormed ℝ
  obtain ⟨A, hA⟩ := FlMul.exists double sc.B1.transpose sc.B1
  obtain ⟨B, hB⟩ := FlMul.exists double sc.B2 sc.B2.transpose
  obtain ⟨z, hz⟩ := FlMulVec.exists double A (fun _ => 1)
  obtain ⟨w, hw'⟩ := FlMulVec.exists double A z
  obtain ⟨z2, hz2⟩ := FlMulVec.exists double B (fun _ => 1)
  obtain ⟨w2, hw2⟩ := FlMulVec.exists double B z2
  exact ⟨sc, fun _ => 1, fun i => double.rnd (w i + w2 i), hw.built, by simp [he, sampleEdges], by simp [hn, ht, sampleNodes, sampleTriangles],
    by simp [ht, sampleTriangles], w, w2, ⟨A, hA, z, hz, hw'⟩, ⟨B, hB, z2, hz2, hw2⟩, fun _ => rfl⟩

end Pytspl
