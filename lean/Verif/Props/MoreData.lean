import Verif.Props.NestedSplits
import Verif.Props.GpPredict

/-!
# C195: a larger share of training data never makes predictions less certain
-/

namespace Pytspl

open Matrix

private theorem postCov_value {E n p : ℕ} {K : Matrix (Fin E) (Fin E) ℝ} {s : ℝ} (hK : SymmPSD K) (hs : 0 < s)
    (i : Fin n → Fin E) (j : Fin p → Fin E) (x : Fin p → ℝ) : ∃ v : Fin n → ℝ,
    (obsCov K s i).mulVec v = (fun a => K (i a) ⬝ᵥ spread j x) ∧
    x ⬝ᵥ (postCov K s i j).mulVec x = x ⬝ᵥ (Matrix.of fun a b => K (j a) (j b)).mulVec x -
      v ⬝ᵥ (obsCov K s i).mulVec v := by
  set C : Matrix (Fin p) (Fin n) ℝ := Matrix.of fun a b => K (j a) (i b) with hC
  set k : Fin n → ℝ := C.transpose.mulVec x with hk
  set v : Fin n → ℝ := (obsCov K s i)⁻¹.mulVec k with hv
  have e2 : (obsCov K s i).mulVec v = k := by
    rw [hv, mulVec_mulVec, (obsCov_inv hK hs i).1, one_mulVec]
  refine ⟨v, ?_, ?_⟩
  · rw [e2, hk]
    ext a
    rw [dotProduct_comm (K (i a)), spread_dot]
    simp only [mulVec, dotProduct, transpose_apply, hC, of_apply]
    refine Finset.sum_congr rfl fun b _ => ?_
    rw [mul_comm]
    congr 1
    exact congrFun (congrFun hK.1 (i a)) (j b)
  · rw [e2]
    unfold postCov
    rw [sub_mulVec, dotProduct_sub, ← mulVec_mulVec, ← mulVec_mulVec, ← hC, ← hk, ← hv]
    congr 1
    rw [dotProduct_mulVec, ← mulVec_transpose, ← hk, dotProduct_comm]

/-- more observations never increase the posterior covariance, in any direction -/
private theorem postCov_mono {E n n' p : ℕ} {K : Matrix (Fin E) (Fin E) ℝ} {s : ℝ} (hK : SymmPSD K) (hs : 0 < s)
    (i : Fin n → Fin E) (i' : Fin n' → Fin E) (g : Fin n → Fin n') (hg : Function.Injective g) (hi : ∀ a, i' (g a) = i a)
    (j : Fin p → Fin E) (x : Fin p → ℝ) :
    x ⬝ᵥ (postCov K s i' j).mulVec x ≤ x ⬝ᵥ (postCov K s i j).mulVec x := by
  obtain ⟨v, h1, h2⟩ := postCov_value hK hs i j x
  obtain ⟨v', h1', h2'⟩ := postCov_value hK hs i' j x
  set w : Fin n' → ℝ := spread g v with hw
  have d : ∀ u : Fin n' → ℝ, w ⬝ᵥ u = ∑ a, v a * u (g a) := fun u => spread_dot g v u
  have hwg : ∀ a, w (g a) = v a := by
    intro a
    rw [hw]
    unfold spread
    rw [Finset.sum_eq_single a]
    · simp
    · intro b _ hb
      rw [if_neg fun h => hb (hg h)]
    · simp
  have e1 : w ⬝ᵥ (obsCov K s i').mulVec v' = v ⬝ᵥ (obsCov K s i).mulVec v := by
    rw [h1', h1, d]
    simp only [hi, dotProduct]
  have e2 : w ⬝ᵥ (obsCov K s i').mulVec w = v ⬝ᵥ (obsCov K s i).mulVec v := by
    rw [obsCov_quad, obsCov_quad]
    congr 1
    · rw [d]
      simp only [dotProduct]
      refine Finset.sum_congr rfl fun a _ => ?_
      congr 1
      change (fun b => K (i' (g a)) (i' b)) ⬝ᵥ w = (fun b => K (i a) (i b)) ⬝ᵥ v
      rw [dotProduct_comm, d, dotProduct_comm]
      simp only [hi, dotProduct]
    · rw [d]
      simp only [dotProduct, hwg]
  have e3 : 0 ≤ (v' - w) ⬝ᵥ (obsCov K s i').mulVec (v' - w) := by
    rw [obsCov_quad]
    have := slice_nonneg (i := i') hK (v' - w)
    have := mul_nonneg hs.le (dot_self_nonneg (v' - w))
    linarith
  rw [mulVec_sub, dotProduct_sub, sub_dotProduct, sub_dotProduct, dot_symm (obsCov_symm hK s i') v' w, e1, e2] at e3
  rw [h2, h2']
  linarith

/-- C195: two calls of `train_test_split` with the same seed, whatever the targets and whether they are normalised, and a
model with given parameters that is conditioned on one training set and on the other: at any edges the covariance of the
prediction from the larger training set is at most that from the smaller one, for every weighted sum of the values, and in
particular the variance of each value.  The test edges of the second call are test edges of the first. -/
theorem C195_share {lib : NumLib} {sc : SC ℝ} {tol : ℝ} (m : GpModel sc.E) (hk : m.kernel.FromComplex lib tol) (ht : 0 < tol)
    (hn : 0 < m.noise) (sh : Shuffler) (t t' t2 t2' : Trainer sc) (size size2 : TrainSize) (norm norm2 : Bool) (seed : Int)
    (xTr xTe x xTr2 xTe2 x2 : List ℚ) (yTr yTe y yTr2 yTe2 y2 : FTensor)
    (h : t.split sh size norm seed = (.ok (xTr, yTr, xTe, yTe, x, y), t'))
    (h2 : t2.split sh size2 norm2 seed = (.ok (xTr2, yTr2, xTe2, yTe2, x2, y2), t2'))
    (hle : xTr.length ≤ xTr2.length) (obs obs2 : List ℝ) (ho : obs.length = xTr.length) (ho2 : obs2.length = xTr2.length)
    (rs : List (Fin sc.E)) :
    (∀ e ∈ xTe2, e ∈ xTe) ∧ ∃ mean cov mean2 cov2,
      m.predictive xTr obs (edgeTensor rs) = .ok ⟨rs.length, mean, cov⟩ ∧
      m.predictive xTr2 obs2 (edgeTensor rs) = .ok ⟨rs.length, mean2, cov2⟩ ∧
      (∀ w : Fin rs.length → ℝ, ∑ a, ∑ b, w a * w b * cov2 a b ≤ ∑ a, ∑ b, w a * w b * cov a b) ∧
      ∀ a, cov2 a a ≤ cov a a := by
  have hsub := (C194_nested rfl sh t t' t2 t2' size size2 norm norm2 seed _ _ _ _ _ _ _ _ _ _ _ _ h h2 hle).2.1
  refine ⟨fun e he => hsub.subset he, ?_⟩
  obtain ⟨d, hd, rfl, -, -⟩ := split_parts h
  obtain ⟨d2, hd2, rfl, -, -⟩ := split_parts h2
  have hlt : ∀ i ∈ sh.perm seed sc.E, i < sc.E := fun i hi =>
    List.mem_range.mp ((sh.isPerm seed sc.E).mem_iff.mp hi)
  have hlen : (sh.perm seed sc.E).length = sc.E := by rw [(sh.isPerm seed sc.E).length_eq, List.length_range]
  set r : List (Fin sc.E) := (sh.perm seed sc.E).pmap (fun i hi => (⟨i, hi⟩ : Fin sc.E)) hlt with hr
  have hrl : r.length = sc.E := by rw [hr, List.length_pmap, hlen]
  have hx : ∀ k, ((sh.perm seed sc.E).drop k).map (fun i : ℕ => (i : ℚ)) = edgeTensor (r.drop k) := by
    intro k
    unfold edgeTensor
    rw [List.map_drop, List.map_drop, hr, List.map_pmap, List.pmap_eq_map]
  rw [hx] at ho hle ⊢
  rw [hx] at ho2 hle ⊢
  have hle' : d2 ≤ d := by
    simp only [edgeTensor, List.length_map, List.length_drop, hrl] at hle
    omega
  have hobs : ∀ (k : ℕ) (l : List ℝ), l.length = (edgeTensor (r.drop k)).length →
      ∃ f : Fin (r.drop k).length → ℝ, l = List.ofFn f := by
    intro k l hl
    rw [edgeTensor, List.length_map] at hl
    refine ⟨fun a => l.get (a.cast hl.symm), ?_⟩
    refine List.ext_getElem (by simp [hl]) fun a h1 h2 => ?_
    simp
  obtain ⟨f, rfl⟩ := hobs _ _ ho
  obtain ⟨f2, rfl⟩ := hobs _ _ ho2
  have hK := m.prior_psd hk ht
  have hg : ∀ a : Fin (r.drop d).length, (a : ℕ) + (d - d2) < (r.drop d2).length := by
    intro a
    have := a.2
    simp only [List.length_drop] at this ⊢
    omega
  have hm := postCov_mono hK hn (r.drop d).get (r.drop d2).get (fun a => ⟨a + (d - d2), hg a⟩)
    (fun a b hab => by
      simp only [Fin.mk.injEq] at hab
      exact Fin.ext (by omega))
    (fun a => by
      simp only [List.get_eq_getElem, List.getElem_drop]
      congr 1
      omega) rs.get
  have hq : ∀ (A : Matrix (Fin rs.length) (Fin rs.length) ℝ) (w : Fin rs.length → ℝ),
      ∑ a, ∑ b, w a * w b * A a b = w ⬝ᵥ A.mulVec w := by
    intro A w
    simp only [dotProduct, mulVec, Finset.mul_sum]
    exact Finset.sum_congr rfl fun a _ => Finset.sum_congr rfl fun b _ => by ring
  have hle2 : ∀ w : Fin rs.length → ℝ,
      w ⬝ᵥ (postCov m.prior m.noise (r.drop d2).get rs.get + m.noise • (1 : Matrix _ _ ℝ)).mulVec w ≤
      w ⬝ᵥ (postCov m.prior m.noise (r.drop d).get rs.get + m.noise • (1 : Matrix _ _ ℝ)).mulVec w := by
    intro w
    rw [add_mulVec, add_mulVec, dotProduct_add, dotProduct_add]
    linarith [hm w]
  refine ⟨_, _, _, _, predictive_eq m hk ht _ rs f, predictive_eq m hk ht _ rs f2, fun w => ?_, fun a => ?_⟩
  · rw [hq, hq]
    exact hle2 w
  · have := hle2 (Pi.single a 1)
    simpa using this

/-- The hypotheses are met: two and three training items of the sample complex, and a model with positive noise. -/
example (sh : Shuffler) : ∃ (lib : NumLib) (m : GpModel twoTri.E) (t t2 : Trainer twoTri) (xTr xTe x xTr2 xTe2 x2 : List ℚ)
    (yTr yTe y yTr2 yTe2 y2 : FTensor) (t' t2' : Trainer twoTri), m.kernel.FromComplex lib (1 / 1000) ∧ 0 < m.noise ∧
    t.split sh (.count 2) false 4 = (.ok (xTr, yTr, xTe, yTe, x, y), t') ∧
    t2.split sh (.count 3) false 4 = (.ok (xTr2, yTr2, xTe2, yTe2, x2, y2), t2') ∧ xTr.length < xTr2.length := by
  obtain ⟨lib⟩ := NumLib.exists
  obtain ⟨k, -, hk⟩ := GpKernel.FromComplex.exists lib twoTri (by decide) (1 / 1000) .matern
  have hE : 3 < twoTri.E := by decide
  obtain ⟨tr, te, t', h1, -, h2, -⟩ := C77_count sh (⟨List.replicate twoTri.E 0, none, none⟩ : Trainer twoTri) 2 4 (by simp)
    (by norm_num) (by omega) (by norm_num)
  obtain ⟨tr2, te2, t2', h1', -, h2', -⟩ := C77_count sh (⟨List.replicate twoTri.E 1, none, none⟩ : Trainer twoTri) 3 4
    (by simp) (by norm_num) hE (by norm_num)
  exact ⟨lib, ⟨k, 0, none, 1⟩, _, _, _, _, _, _, _, _, _, _, _, _, _, _, _, _, hk, by norm_num, h1, h1', by simp [h2, h2']⟩

end Pytspl
