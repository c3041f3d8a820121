import Verif.Props.FloatHodge
import Verif.Props.Rcond
import Verif.Props.Accuracy
import Verif.Props.BaseFilter

/-!
# C153: checking computed Hodge components by their computed divergence and curl

Nothing is assumed about the solver.  The bounds are in terms of numbers a user has or can compute with the package in
doubles.
-/

namespace Pytspl

open Matrix

variable {R : Rounding} {lib : NumLib} {m n : ℕ}

/-! ## norms of rounding errors -/

private theorem norm2_le_of_abs {z x : Fin n → ℝ} {K : ℝ} (hK : 0 ≤ K) (h : ∀ i, |z i| ≤ K * |x i|) :
    norm2 z ≤ K * norm2 x := by
  refine Real.sqrt_le_iff.2 ⟨mul_nonneg hK (norm2_nonneg x), ?_⟩
  rw [mul_pow, norm2_sq, dotProduct, dotProduct, Finset.mul_sum]
  refine Finset.sum_le_sum fun i _ => ?_
  have := mul_self_le_mul_self (abs_nonneg _) (h i)
  rw [abs_mul_abs_self] at this
  calc z i * z i ≤ K * |x i| * (K * |x i|) := this
    _ = K ^ 2 * (|x i| * |x i|) := by ring
    _ = K ^ 2 * (x i * x i) := by rw [abs_mul_abs_self]

private theorem norm2_le_of_rows (A : Matrix (Fin m) (Fin n) ℝ) {F K : ℝ} (hF : ∑ i, ∑ j, A i j ^ 2 ≤ F) (hK : 0 ≤ K)
    {z : Fin m → ℝ} {x : Fin n → ℝ} (h : ∀ i, |z i| ≤ K * ∑ j, |A i j * x j|) : norm2 z ≤ K * (√F * norm2 x) := by
  have hF0 : 0 ≤ F := le_trans (Finset.sum_nonneg fun i _ => Finset.sum_nonneg fun j _ => sq_nonneg _) hF
  refine Real.sqrt_le_iff.2 ⟨mul_nonneg hK (mul_nonneg (Real.sqrt_nonneg _) (norm2_nonneg x)), ?_⟩
  rw [mul_pow, mul_pow, Real.sq_sqrt hF0, norm2_sq]
  have row : ∀ i, z i * z i ≤ K ^ 2 * ((∑ j, A i j ^ 2) * (x ⬝ᵥ x)) := by
    intro i
    have h1 := mul_self_le_mul_self (abs_nonneg _) (h i)
    rw [abs_mul_abs_self] at h1
    have h2 := Finset.sum_mul_sq_le_sq_mul_sq Finset.univ (fun j => |A i j|) fun j => |x j|
    simp only [sq_abs] at h2
    have h3 : ∑ j, x j ^ 2 = x ⬝ᵥ x := by simp only [dotProduct, sq]
    rw [h3] at h2
    simp only [← abs_mul] at h2
    calc z i * z i ≤ K * (∑ j, |A i j * x j|) * (K * ∑ j, |A i j * x j|) := h1
      _ = K ^ 2 * (∑ j, |A i j * x j|) ^ 2 := by ring
      _ ≤ _ := mul_le_mul_of_nonneg_left h2 (sq_nonneg K)
  calc z ⬝ᵥ z ≤ ∑ i, K ^ 2 * ((∑ j, A i j ^ 2) * (x ⬝ᵥ x)) := Finset.sum_le_sum fun i _ => row i
    _ = K ^ 2 * ((∑ i, ∑ j, A i j ^ 2) * (x ⬝ᵥ x)) := by rw [← Finset.mul_sum, ← Finset.sum_mul]
    _ ≤ _ := mul_le_mul_of_nonneg_left
        (mul_le_mul_of_nonneg_right hF (Finset.sum_nonneg fun i _ => mul_self_nonneg _)) (sq_nonneg K)

private theorem norm2_mulVec_le (A : Matrix (Fin m) (Fin n) ℝ) {F : ℝ} (hF : ∑ i, ∑ j, A i j ^ 2 ≤ F) (x : Fin n → ℝ) :
    norm2 (A.mulVec x) ≤ √F * norm2 x := by
  have := norm2_le_of_rows A hF zero_le_one (z := A.mulVec x) (x := x) fun i => by
    rw [one_mul]
    exact Finset.abs_sum_le_sum_abs (fun j => A i j * x j) Finset.univ
  rwa [one_mul] at this

private theorem support_le (a : Fin n → ℝ) : support a ≤ n := by
  classical
  unfold support
  exact (Finset.card_filter_le _ _).trans (by simp)

private theorem norm2_fl_le (A : Matrix (Fin m) (Fin n) ℝ) {F : ℝ} (hF : ∑ i, ∑ j, A i j ^ 2 ≤ F) {x : Fin n → ℝ}
    {y : Fin m → ℝ} (h : FlMulVec R A x y) (hn : n ≤ 2 ^ 53) :
    norm2 (y - A.mulVec x) ≤ n * (1 / 2 ^ 52) * (√F * norm2 x) := by
  refine norm2_le_of_rows A hF (by positivity) fun i => ?_
  refine ((h i).error.2).trans (mul_le_mul_of_nonneg_right ?_ (Finset.sum_nonneg fun j _ => abs_nonneg _))
  exact (gam_mono (support_le _)).trans (gam_le n hn)

private theorem rnd_back' (x : ℝ) : |R.rnd x - x| ≤ 1 / 2 ^ 52 * |R.rnd x| := by
  have h1 := R.rel x
  have h2 := abs_add_le (x - R.rnd x) (R.rnd x)
  rw [sub_add_cancel, abs_sub_comm] at h2
  have := abs_nonneg (R.rnd x)
  norm_num at h1 ⊢
  linarith

private theorem norm2_neg' (x : Fin n → ℝ) : norm2 (-x) = norm2 x := by
  unfold norm2
  rw [neg_dotProduct_neg]

private theorem norm2_sub_le' (x y : Fin n → ℝ) : norm2 (x - y) ≤ norm2 x + norm2 y := by
  rw [sub_eq_add_neg]
  exact (norm2_add_le x (-y)).trans (by rw [norm2_neg'])

private theorem norm2_of_sq {x : Fin m → ℝ} {y : Fin n → ℝ} {c : ℝ} (hc : 0 ≤ c) (h : x ⬝ᵥ x ≤ c * (y ⬝ᵥ y)) :
    norm2 x ≤ √c * norm2 y := by
  unfold norm2
  rw [← Real.sqrt_mul hc]
  exact Real.sqrt_le_sqrt h

/-- the gradient flow computed in doubles from a potential, against the exact one -/
private theorem gradient_fl (sc : SC ℝ) (hb : sc.Built) (hr : EdgesInRange sc.nodes.length sc.edges)
    (hl : NoLoops sc.edges) (p : Fin sc.nodes.length → ℝ) (hd : IsDoubles R p) (g : Fin sc.edges.length → ℝ)
    (hg : FlMulVec R sc.B1.transpose p g) : norm2 (g - sc.B1.transpose.mulVec p) ≤ 1 / 2 ^ 52 * norm2 g := by
  refine norm2_le_of_abs (by positivity) fun j => ?_
  have hj := hr _ (List.getElem_mem (l := sc.edges) j.2)
  have e : sc.edges[j] = ((((⟨sc.edges[j].1.toNat, by simp only [Fin.getElem_fin]; omega⟩ : Fin sc.nodes.length) : ℕ) : Int),
      (((⟨sc.edges[j].2.toNat, by simp only [Fin.getElem_fin]; omega⟩ : Fin sc.nodes.length) : ℕ) : Int)) := by
    simp only [Fin.getElem_fin]
    ext <;> simp only <;> omega
  generalize (⟨sc.edges[j].1.toNat, _⟩ : Fin sc.nodes.length) = a at e
  generalize (⟨sc.edges[j].2.toNat, _⟩ : Fin sc.nodes.length) = b at e
  have h1 := C151_gradient sc hb hr hl p hd g hg j a b e
  have h2 : sc.B1.transpose.mulVec p j = p b - p a := by
    have hB : ∀ i : Fin sc.nodes.length, sc.B1 i j = (if i = b then 1 else 0) - if i = a then 1 else 0 := by
      intro i
      rw [hb.b1_entry hr hl i j, e]
      simp only [Nat.cast_inj, Fin.ext_iff, eq_comm]
    change ∑ i, sc.B1.transpose j i * p i = p b - p a
    simp only [Matrix.transpose_apply, hB, sub_mul, ite_mul, one_mul, zero_mul, Finset.sum_sub_distrib]
    simp
  rw [Pi.sub_apply, h2, h1]
  exact rnd_back' _

/-- a component computed from any potential, against the exact one -/
private theorem certificate (A : Matrix (Fin m) (Fin n) ℝ) {F κ ρ u : ℝ} (hF : ∑ i, ∑ j, A i j ^ 2 ≤ F) (hκ : 0 ≤ κ)
    (hn : n ≤ 2 ^ 53) (hu : (n : ℝ) * (1 / 2 ^ 52) + 1 / 2 ^ 52 ≤ u) (f g' x g r : Fin n → ℝ) (y : Fin m → ℝ)
    (hx : norm2 (x - g) ≤ κ * norm2 (A.mulVec (f - x))) (hρ : norm2 (g' - x) ≤ u * ρ)
    (hr : ∀ j, r j = R.rnd (f j - g' j)) (hy : FlMulVec R A r y) :
    norm2 (g' - g) ≤ κ * norm2 y + (1 + κ * √F) * (u * (norm2 r + ρ)) := by
  have h1 : norm2 (g' - g) ≤ norm2 (g' - x) + norm2 (x - g) := by
    have := norm2_add_le (g' - x) (x - g)
    rwa [sub_add_sub_cancel] at this
  have h2 : norm2 (r - (f - g')) ≤ 1 / 2 ^ 52 * norm2 r :=
    norm2_le_of_abs (by positivity) fun j => by
      rw [Pi.sub_apply, Pi.sub_apply, hr j]
      exact rnd_back' _
  have h3 := norm2_fl_le A hF hy hn
  have e : A.mulVec (f - x) = (y - (y - A.mulVec r)) - A.mulVec (r - (f - g')) + A.mulVec (g' - x) := by
    simp only [mulVec_sub]
    abel
  have h4 : norm2 (A.mulVec (f - x)) ≤ norm2 y + norm2 (y - A.mulVec r) + norm2 (A.mulVec (r - (f - g'))) +
      norm2 (A.mulVec (g' - x)) := by
    rw [e]
    refine (norm2_add_le _ _).trans (add_le_add_left ?_ _)
    refine (norm2_sub_le' _ _).trans (add_le_add_left ?_ _)
    exact norm2_sub_le' _ _
  have h5 := norm2_mulVec_le A hF (r - (f - g'))
  have h6 := norm2_mulVec_le A hF (g' - x)
  have sF := Real.sqrt_nonneg F
  have h7 := mul_le_mul_of_nonneg_left h2 sF
  have h8 := mul_le_mul_of_nonneg_left hρ sF
  have h9 : norm2 (A.mulVec (f - x)) ≤ norm2 y + √F * (u * (norm2 r + ρ)) := by
    have := mul_le_mul_of_nonneg_right hu (mul_nonneg sF (norm2_nonneg r))
    nlinarith
  have h10 := mul_le_mul_of_nonneg_left h9 hκ
  have : 0 ≤ u * norm2 r := mul_nonneg (le_trans (by positivity) hu) (norm2_nonneg r)
  nlinarith

private theorem residual_le (A : Matrix (Fin m) (Fin n) ℝ) {F : ℝ} (hF : ∑ i, ∑ j, A i j ^ 2 ≤ F) (x x' : Fin n → ℝ)
    (y : Fin m → ℝ) : norm2 (A.mulVec x) ≤ norm2 y + norm2 (y - A.mulVec x') + √F * norm2 (x' - x) := by
  have e : A.mulVec x = y - (y - A.mulVec x') - A.mulVec (x' - x) := by
    rw [mulVec_sub]; abel
  rw [e]
  exact (norm2_sub_le' _ _).trans (add_le_add (norm2_sub_le' _ _) (norm2_mulVec_le A hF _))

/-! ## The certificates -/

/-- C153: a gradient part computed in doubles from any potential `p` is near the exact gradient part if the divergence of
what it leaves of the flow, computed in doubles, is small. -/
theorem C153_gradient (sc : SC ℝ) (hb : sc.Built) (hr : EdgesInRange sc.nodes.length sc.edges) (hl : NoLoops sc.edges)
    (D : ℕ) (hD : DiameterLE (graphOf sc.nodes.length sc.edges) D) (hE : sc.edges.length ≤ 2 ^ 53)
    (f g c h : Fin sc.edges.length → ℝ) (hp : HodgeParts lib sc f g c h) (p : Fin sc.nodes.length → ℝ)
    (hd : IsDoubles R p) (g' : Fin sc.edges.length → ℝ) (hg : FlMulVec R sc.B1.transpose p g')
    (r : Fin sc.edges.length → ℝ) (hr' : ∀ j, r j = R.rnd (f j - g' j)) (y : Fin sc.nodes.length → ℝ)
    (hy : sc.FlDivergence R r y) :
    norm2 (g' - g) ≤ √((sc.nodes.length - 1 : ℕ) * D : ℝ) * norm2 y +
      (1 + √((sc.nodes.length - 1 : ℕ) * D : ℝ) * √(2 * sc.edges.length)) *
        ((sc.edges.length + 1 : ℝ) / 2 ^ 52 * (norm2 r + norm2 g')) := by
  refine certificate sc.B1 (x := sc.B1.transpose.mulVec p) (f := f) (g := g) ?_ (Real.sqrt_nonneg _) hE
    (le_of_eq (by ring)) g' r y ?_ ?_ hr' hy
  · rw [Finset.sum_comm]
    exact SC.b1_square hb hr hl
  · exact norm2_of_sq (by positivity) (C122_gradient sc hb hr hl D hD f g c h hp p _ rfl)
  · refine (gradient_fl sc hb hr hl p hd g' hg).trans (mul_le_mul_of_nonneg_right ?_ (norm2_nonneg _))
    rw [add_div]
    have : (0 : ℝ) ≤ sc.edges.length / 2 ^ 52 := by positivity
    linarith

/-- C153: a curl part computed in doubles from any triangle signal `w` is near the exact curl part if the curl of what it
leaves of the flow, computed in doubles, is small. -/
theorem C153_curl (sc : SC ℝ) (hs : sc.OnSimpleGraph) (k : ℕ) (hk : DepthLE sc.edges sc.triangles k)
    (hE : sc.edges.length ≤ 2 ^ 53) (hT : sc.triangles.length ≤ 2 ^ 53)
    (f g c h : Fin sc.edges.length → ℝ) (hp : HodgeParts lib sc f g c h) (w : Fin sc.triangles.length → ℝ)
    (c' : Fin sc.edges.length → ℝ) (hc : FlMulVec R sc.B2 w c')
    (r : Fin sc.edges.length → ℝ) (hr' : ∀ j, r j = R.rnd (f j - c' j)) (z : Fin sc.triangles.length → ℝ)
    (hz : sc.FlCurl R r z) :
    norm2 (c' - c) ≤ √(sc.triangles.length * k ^ 2 : ℝ) * norm2 z +
      (1 + √(sc.triangles.length * k ^ 2 : ℝ) * √(3 * sc.triangles.length)) *
        ((sc.edges.length + sc.triangles.length + 1 : ℝ) / 2 ^ 52 *
          (norm2 r + √(3 * sc.triangles.length) * norm2 w)) := by
  refine certificate sc.B2.transpose (x := sc.B2.mulVec w) (f := f) (g := c) ?_ (Real.sqrt_nonneg _) hE
    ?_ c' r z ?_ ?_ hr' hz
  · rw [Finset.sum_comm]
    exact SC.b2_square hs
  · rw [add_div, add_div]
    have : (0 : ℝ) ≤ sc.triangles.length / 2 ^ 52 := by positivity
    linarith
  · exact norm2_of_sq (by positivity) (C122_curl sc hs k hk f g c h hp w _ rfl)
  · refine (norm2_fl_le sc.B2 (SC.b2_square hs) hc hT).trans
      (mul_le_mul_of_nonneg_right ?_ (mul_nonneg (Real.sqrt_nonneg _) (norm2_nonneg _)))
    change (sc.triangles.length : ℝ) * _ ≤ _
    rw [add_div, add_div]
    have : (0 : ℝ) ≤ sc.edges.length / 2 ^ 52 := by positivity
    linarith

/-- C153: the harmonic part computed in doubles is near the exact one if its own divergence and curl, computed in doubles,
are small. -/
theorem C153_harmonic (sc : SC ℝ) (hs : sc.OnSimpleGraph) (ho : Oriented sc.edges sc.triangles) (D k : ℕ)
    (hD : DiameterLE (graphOf sc.nodes.length sc.edges) D) (hk : DepthLE sc.edges sc.triangles k)
    (hE : sc.edges.length ≤ 2 ^ 53) (hT : sc.triangles.length ≤ 2 ^ 53)
    (f g c h : Fin sc.edges.length → ℝ) (hp : HodgeParts lib sc f g c h) (p : Fin sc.nodes.length → ℝ)
    (hd : IsDoubles R p) (w : Fin sc.triangles.length → ℝ) (g' c' h' : Fin sc.edges.length → ℝ)
    (hf : sc.FlParts R f p w g' c' h') (y : Fin sc.nodes.length → ℝ) (hy : sc.FlDivergence R h' y)
    (z : Fin sc.triangles.length → ℝ) (hz : sc.FlCurl R h' z) :
    norm2 (h' - h) ≤ √((sc.nodes.length - 1 : ℕ) * D : ℝ) * norm2 y + √(sc.triangles.length * k ^ 2 : ℝ) * norm2 z +
      (1 + √((sc.nodes.length - 1 : ℕ) * D : ℝ) * √(2 * sc.edges.length) +
          √(sc.triangles.length * k ^ 2 : ℝ) * √(3 * sc.triangles.length)) *
        ((sc.edges.length + sc.triangles.length + 4 : ℝ) / 2 ^ 52 *
          (norm2 f + norm2 g' + norm2 c' + norm2 h' + √(3 * sc.triangles.length) * norm2 w)) := by
  have hF1 : ∑ i : Fin sc.N, ∑ j : Fin sc.E, sc.B1 i j ^ 2 ≤ 2 * sc.edges.length := by
    rw [Finset.sum_comm]
    exact SC.b1_square hs.built hs.inRange hs.noLoops
  have hF2 : ∑ t : Fin sc.T, ∑ j : Fin sc.E, sc.B2.transpose t j ^ 2 ≤ 3 * sc.triangles.length := by
    rw [Finset.sum_comm]
    exact SC.b2_square hs
  set x := f - sc.B1.transpose.mulVec p - sc.B2.mulVec w with hx
  have h122 := C122_harmonic sc hs ho D k hD hk f g c h hp p w x hx
  set κ1 := √((sc.nodes.length - 1 : ℕ) * D : ℝ) with hκ1
  set κ2 := √(sc.triangles.length * k ^ 2 : ℝ) with hκ2
  set s1 := √(2 * sc.edges.length : ℝ) with hs1
  set s2 := √(3 * sc.triangles.length : ℝ) with hs2
  have k1 : 0 ≤ κ1 := Real.sqrt_nonneg _
  have k2 : 0 ≤ κ2 := Real.sqrt_nonneg _
  have p1 : 0 ≤ s1 := Real.sqrt_nonneg _
  have p2 : 0 ≤ s2 := Real.sqrt_nonneg _
  have a1 : norm2 (x - h) ≤ κ1 * norm2 (sc.B1.mulVec x) + κ2 * norm2 (sc.B2.transpose.mulVec x) := by
    have n1 := norm2_nonneg (sc.B1.mulVec x)
    have n2 := norm2_nonneg (sc.B2.transpose.mulVec x)
    refine Real.sqrt_le_iff.2 ⟨add_nonneg (mul_nonneg k1 n1) (mul_nonneg k2 n2), h122.trans ?_⟩
    have q1 : κ1 ^ 2 = ((sc.nodes.length - 1 : ℕ) * D : ℝ) := Real.sq_sqrt (by positivity)
    have q2 : κ2 ^ 2 = (sc.triangles.length * k ^ 2 : ℝ) := Real.sq_sqrt (by positivity)
    rw [← q1, ← q2, ← norm2_sq, ← norm2_sq]
    have := mul_nonneg (mul_nonneg k1 n1) (mul_nonneg k2 n2)
    change κ1 ^ 2 * norm2 (sc.B1.mulVec x) ^ 2 + κ2 ^ 2 * norm2 (sc.B2.transpose.mulVec x) ^ 2 ≤ _
    nlinarith
  -- the rounding of the subtractions
  have a2 : norm2 (g' + c' + h' - f) ≤ 2 / 2 ^ 52 * (norm2 f + norm2 g' + norm2 c') := by
    have b1 : norm2 (g' + c' + h' - f) ≤ 2 / 2 ^ 52 * norm2 (fun j => |f j| + |g' j| + |c' j|) :=
      norm2_le_of_abs (by positivity) fun j => by
        rw [abs_of_nonneg (a := |f j| + |g' j| + |c' j|) (by positivity)]
        refine (C150_sum sc f p w g' c' h' hf j).trans (mul_le_mul_of_nonneg_right (by norm_num) (by positivity))
    have nabs : ∀ v : Fin sc.edges.length → ℝ, norm2 (fun j => |v j|) = norm2 v := by
      intro v
      unfold norm2 dotProduct
      simp only [abs_mul_abs_self]
    have b2 : norm2 (fun j => |f j| + |g' j| + |c' j|) ≤ norm2 f + norm2 g' + norm2 c' := by
      have c1 := norm2_add_le (fun j => |f j| + |g' j|) fun j => |c' j|
      have c2 := norm2_add_le (fun j => |f j|) fun j => |g' j|
      rw [nabs] at c1
      rw [nabs, nabs] at c2
      exact c1.trans (add_le_add_left c2 _)
    exact b1.trans (mul_le_mul_of_nonneg_left b2 (by positivity))
  have a3 := gradient_fl sc hs.built hs.inRange hs.noLoops p hd g' hf.gradient
  have a4 : norm2 (c' - sc.B2.mulVec w) ≤ sc.triangles.length * (1 / 2 ^ 52) * (s2 * norm2 w) :=
    norm2_fl_le sc.B2 (SC.b2_square hs) hf.curl hT
  have a5 : norm2 (h' - x) ≤ norm2 (g' + c' + h' - f) + norm2 (g' - sc.B1.transpose.mulVec p) +
      norm2 (c' - sc.B2.mulVec w) := by
    have e : h' - x = (g' + c' + h' - f) - (g' - sc.B1.transpose.mulVec p) - (c' - sc.B2.mulVec w) := by
      rw [hx]; abel
    rw [e]
    exact (norm2_sub_le' _ _).trans (add_le_add_left (norm2_sub_le' _ _) _)
  have a6 : norm2 (y - sc.B1.mulVec h') ≤ sc.edges.length * (1 / 2 ^ 52) * (s1 * norm2 h') :=
    norm2_fl_le sc.B1 hF1 hy hE
  have a7 : norm2 (z - sc.B2.transpose.mulVec h') ≤ sc.edges.length * (1 / 2 ^ 52) * (s2 * norm2 h') :=
    norm2_fl_le sc.B2.transpose hF2 hz hE
  have a8 : norm2 (sc.B1.mulVec x) ≤ norm2 y + norm2 (y - sc.B1.mulVec h') + s1 * norm2 (h' - x) :=
    residual_le sc.B1 hF1 x h' y
  have a9 : norm2 (sc.B2.transpose.mulVec x) ≤ norm2 z + norm2 (z - sc.B2.transpose.mulVec h') + s2 * norm2 (h' - x) :=
    residual_le sc.B2.transpose hF2 x h' z
  have a10 : norm2 (h' - h) ≤ norm2 (h' - x) + norm2 (x - h) := by
    have := norm2_add_le (h' - x) (x - h)
    rwa [sub_add_sub_cancel] at this
  -- the rounding errors together
  set S := norm2 f + norm2 g' + norm2 c' + norm2 h' + s2 * norm2 w with hS
  set ε := (sc.edges.length + sc.triangles.length + 4 : ℝ) / 2 ^ 52 with hε
  have nf := norm2_nonneg f
  have ng := norm2_nonneg g'
  have nc := norm2_nonneg c'
  have nh := norm2_nonneg h'
  have nw := mul_nonneg p2 (norm2_nonneg w)
  have tot : norm2 (h' - x) + sc.edges.length * (1 / 2 ^ 52) * norm2 h' ≤ ε * S := by
    have u1 : (4 / 2 ^ 52 : ℝ) ≤ ε := by
      rw [hε]; gcongr; have : (0 : ℝ) ≤ sc.edges.length + sc.triangles.length := by positivity
      linarith
    have u2 : (sc.edges.length * (1 / 2 ^ 52) : ℝ) ≤ ε := by
      rw [hε, mul_one_div]; gcongr; have : (0 : ℝ) ≤ sc.triangles.length := by positivity
      linarith
    have u3 : (sc.triangles.length * (1 / 2 ^ 52) : ℝ) ≤ ε := by
      rw [hε, mul_one_div]; gcongr; have : (0 : ℝ) ≤ sc.edges.length := by positivity
      linarith
    have v1 := mul_le_mul_of_nonneg_right u1 (add_nonneg (add_nonneg nf ng) nc)
    have v2 := mul_le_mul_of_nonneg_right u2 nh
    have v3 := mul_le_mul_of_nonneg_right u3 nw
    have e : ε * S = ε * (norm2 f + norm2 g' + norm2 c') + ε * norm2 h' + ε * (s2 * norm2 w) := by
      rw [hS]; ring
    rw [e]
    linarith
  have t0 : 0 ≤ (sc.edges.length * (1 / 2 ^ 52) : ℝ) * norm2 h' := mul_nonneg (by positivity) nh
  have t1 : norm2 (sc.B1.mulVec x) ≤ norm2 y + s1 * (ε * S) := by
    have := mul_le_mul_of_nonneg_left tot p1
    linarith
  have t2 : norm2 (sc.B2.transpose.mulVec x) ≤ norm2 z + s2 * (ε * S) := by
    have := mul_le_mul_of_nonneg_left tot p2
    linarith
  have t3 := mul_le_mul_of_nonneg_left t1 k1
  have t4 := mul_le_mul_of_nonneg_left t2 k2
  linarith

/-- Non-vacuity of C153: on the sample complex, with doubles that are not integers, every hypothesis holds. -/
example (lib : NumLib) : ∃ sc : SC ℝ, sc.OnSimpleGraph ∧ Oriented sc.edges sc.triangles ∧ sc.triangles ≠ [] ∧
    sc.edges.length ≤ 2 ^ 53 ∧ sc.triangles.length ≤ 2 ^ 53 ∧
    (∃ D, DiameterLE (graphOf sc.nodes.length sc.edges) D) ∧ DepthLE sc.edges sc.triangles 1 ∧
    ∃ (p : Fin sc.nodes.length → ℝ) (w : Fin sc.triangles.length → ℝ) (f g c h g' c' h' : Fin sc.edges.length → ℝ),
      p = (fun i : Fin sc.nodes.length => double.rnd ((i : ℝ) / 3)) ∧
      f = (fun j : Fin sc.edges.length => double.rnd ((j : ℝ) / 10)) ∧
      IsDoubles double p ∧ HodgeParts lib sc f g c h ∧ sc.FlParts double f p w g' c' h' ∧
      (∃ y, sc.FlDivergence double h' y) ∧ ∃ z, sc.FlCurl double h' z := by
  obtain ⟨sc, hw, hs, hn, he, ht⟩ := sample_wellFormed ℝ
  refine ⟨sc, hs, hw.oriented, by rw [ht]; decide, by rw [he]; decide, by rw [ht]; decide, ⟨_, diameterLE_card _⟩, ?_,
    fun i : Fin sc.nodes.length => double.rnd ((i : ℝ) / 3), fun _ => double.rnd (1 / 7),
    fun j : Fin sc.edges.length => double.rnd ((j : ℝ) / 10), ?_⟩
  · rw [he, ht]
    intro t
    refine ⟨1, le_refl _, .free t ⟨0, by decide⟩ ?_ ?_⟩
    · have : t = ⟨0, by decide⟩ := by
        have := t.2
        simp [sampleTriangles] at this
        exact Fin.ext this
      subst this
      exact ⟨0, 1, 2, rfl, .inl (.inl rfl)⟩
    · intro t' _
      have h1 := t.2
      have h2 := t'.2
      simp [sampleTriangles] at h1 h2
      exact Fin.ext (h2.trans h1.symm)
  · obtain ⟨g, c, h, hp⟩ := HodgeParts.exists lib sc fun j : Fin sc.edges.length => double.rnd ((j : ℝ) / 10)
    obtain ⟨g', hg⟩ := FlMulVec.exists double sc.B1.transpose fun i : Fin sc.nodes.length => double.rnd ((i : ℝ) / 3)
    obtain ⟨c', hc⟩ := FlMulVec.exists double sc.B2 fun _ => double.rnd (1 / 7)
    exact ⟨g, c, h, g', c', _, rfl, rfl, fun _ => double.idem _, hp, ⟨hg, hc, fun _ => rfl⟩,
      FlMulVec.exists double sc.B1 _, FlMulVec.exists double sc.B2.transpose _⟩

end Pytspl
