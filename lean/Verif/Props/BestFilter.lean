import Verif.Props.PolyFilters
import Verif.Lemmas.EigProj
import Verif.Lemmas.ConcreteEig
import Verif.Props.Chebyshev

/-!
# C159: type-one least-squares filters are the best polynomial approximations of the Hodge components
-/

namespace Pytspl

open Matrix Polynomial

variable {lib : NumLib} {sc : SC ℝ}

/-- sum of the squared entries of a matrix -/
private def frob {m n : ℕ} (M : Matrix (Fin m) (Fin n) ℝ) : ℝ := ∑ j, ∑ i, M i j ^ 2

private theorem frob_trace {m n : ℕ} (M : Matrix (Fin m) (Fin n) ℝ) : frob M = (M * M.transpose).trace := by
  rw [frob, trace, Finset.sum_comm]
  exact Finset.sum_congr rfl fun i _ => Finset.sum_congr rfl fun j _ => by
    exact pow_two _

private theorem frob_mul {m n k : ℕ} (D : Matrix (Fin m) (Fin n) ℝ) (V : Matrix (Fin n) (Fin k) ℝ) :
    frob (D * V) = (D * (V * V.transpose) * D.transpose).trace := by
  rw [frob_trace, transpose_mul]
  simp only [Matrix.mul_assoc]

private theorem frob_eig {n k : ℕ} {D : Matrix (Fin n) (Fin n) ℝ} {V : Matrix (Fin n) (Fin k) ℝ} {x : Fin k → ℝ}
    (hV : V.transpose * V = 1) (h : ∀ j, D.mulVec (fun i => V i j) = x j • fun i => V i j) :
    frob (D * V) = ∑ j, x j ^ 2 := by
  refine Finset.sum_congr rfl fun j _ => ?_
  have h1 : (fun i => V i j) ⬝ᵥ (fun i => V i j) = 1 := by
    have := congrFun (congrFun hV j) j
    rw [one_apply_eq] at this
    exact this
  have h2 : ∀ i, (D * V) i j = x j * V i j := fun i => congrFun (h j) i
  calc ∑ i, (D * V) i j ^ 2 = x j ^ 2 * ((fun i => V i j) ⬝ᵥ fun i => V i j) := by
        rw [dotProduct, Finset.mul_sum]
        exact Finset.sum_congr rfl fun i _ => by rw [h2]; ring
    _ = x j ^ 2 := by rw [h1, mul_one]

/-- each component is a matrix applied to the flow -/
theorem component_matrix (hw : sc.WellFormed) {component : String}
    (hc : component = "harmonic" ∨ component = "curl" ∨ component = "gradient") :
    ∃ Q : Matrix (Fin sc.E) (Fin sc.E) ℝ,
      ∀ f, sc.getComponentFlow lib f component false = .ok (Q.mulVec f) := by
  have key : ∀ {A : Matrix (Fin sc.E) (Fin sc.E) ℝ} (_ : SymmPSD A) (s : ℝ → ℝ),
      ∃ U w Q, IsEig A U w ∧ Q * U = U * diagonal fun i => s (w i) := by
    intro A hA s
    have h := lib.isEig hA
    refine ⟨_, _, (lib.eigh sc.E A).2 * diagonal (fun i => s ((lib.eigh sc.E A).1 i)) * (lib.eigh sc.E A).2.transpose, h, ?_⟩
    rw [Matrix.mul_assoc, h.orth, Matrix.mul_one]
  rcases hc with rfl | rfl | rfl
  · obtain ⟨U, w, Q, h1, h2⟩ := key (symmPSD_L1 sc) fun x => if x = 0 then 1 else 0
    refine ⟨Q, fun f => ?_⟩
    obtain ⟨g, c, h, hp⟩ := HodgeParts.exists lib sc f
    rw [hp.harm, harmonic_of_eig hw h1 h2 hp.harm]
  · obtain ⟨U, w, Q, h1, h2⟩ := key (symmPSD_L1u sc) fun x => if x = 0 then 0 else 1
    refine ⟨Q, fun f => ?_⟩
    obtain ⟨g, c, h, hp⟩ := HodgeParts.exists lib sc f
    rw [hp.curl, curl_of_eig h1 h2 hp.curl]
  · obtain ⟨U, w, Q, h1, h2⟩ := key (symmPSD_L1l sc) fun x => if x = 0 then 0 else 1
    refine ⟨Q, fun f => ?_⟩
    obtain ⟨g, c, h, hp⟩ := HodgeParts.exists lib sc f
    rw [hp.grad, gradient_of_eig h1 h2 hp.grad]

/-- 1 for the component's own eigenvectors, 0 for the others -/
private noncomputable def own (a b : String) : ℝ := if a = b then 1 else 0

private theorem sum_parts {n : ℕ} {eh ec eg : EigPairs n} (hn : eh.num + ec.num + eg.num = n) {component : String}
    (hc : component = "harmonic" ∨ component = "curl" ∨ component = "gradient") (F : ℝ → ℝ → ℝ) :
    ((List.range n).map fun s => F ((allVals eh ec eg)[s]?.getD 0) (maskFn component eh.num ec.num s)).sum =
      (∑ j, F (eh.vals j) (own component "harmonic")) + (∑ j, F (ec.vals j) (own component "curl")) +
        ∑ j, F (eg.vals j) (own component "gradient") := by
  have e : ∀ G : ℕ → ℝ, ((List.range n).map G).sum =
      (∑ i ∈ Finset.range eh.num, G i) + (∑ i ∈ Finset.range ec.num, G (eh.num + i)) +
        ∑ i ∈ Finset.range eg.num, G (eh.num + ec.num + i) := by
    intro G
    rw [← Finset.sum_range_add, ← Finset.sum_range_add, hn]
    rfl
  rw [e]
  congr 1
  · congr 1
    · rw [Finset.sum_range]
      refine Finset.sum_congr rfl fun j _ => ?_
      have h1 : (allVals eh ec eg)[(j : ℕ)]?.getD 0 = eh.vals j := by
        rw [allVals, List.getElem?_append_left (by simp; omega), List.getElem?_append_left (by simp)]
        simp
      have hj := j.isLt
      rw [h1]
      congr 1
      rcases hc with rfl | rfl | rfl <;> simp [maskFn, own]
      omega
    · rw [Finset.sum_range]
      refine Finset.sum_congr rfl fun j _ => ?_
      have h1 : (allVals eh ec eg)[eh.num + (j : ℕ)]?.getD 0 = ec.vals j := by
        rw [allVals, List.getElem?_append_left (by simp), List.getElem?_append_right (by simp)]
        simp
      have hj := j.isLt
      rw [h1]
      congr 1
      rcases hc with rfl | rfl | rfl <;> simp [maskFn, own]
  · rw [Finset.sum_range]
    refine Finset.sum_congr rfl fun j _ => ?_
    have h1 : (allVals eh ec eg)[eh.num + ec.num + (j : ℕ)]?.getD 0 = eg.vals j := by
      rw [allVals, List.getElem?_append_right (by simp)]
      simp
    rw [h1]
    congr 1
    rcases hc with rfl | rfl | rfl <;> simp [maskFn, own]
    omega

/-- a component of an eigenvector is the eigenvector or 0 -/
private theorem component_eig (hw : sc.WellFormed) (hgap : NoSmallEigenvalue sc.L1 (1 / 1000))
    {eh ec eg : EigPairs sc.E} (hp : EigParts lib sc (1 / 1000) eh ec eg) {component : String}
    (hc : component = "harmonic" ∨ component = "curl" ∨ component = "gradient")
    {Q : Matrix (Fin sc.E) (Fin sc.E) ℝ}
    (hQ : ∀ f, sc.getComponentFlow lib f component false = .ok (Q.mulVec f)) :
    (∀ j, Q.mulVec (fun k => eh.vecs k j) = own component "harmonic" • fun k => eh.vecs k j) ∧
    (∀ j, Q.mulVec (fun k => ec.vecs k j) = own component "curl" • fun k => ec.vecs k j) ∧
    (∀ j, Q.mulVec (fun k => eg.vecs k j) = own component "gradient" • fun k => eg.vecs k j) := by
  obtain ⟨kh, kc, kg⟩ := C28_kinds hw _ machineEps_le hgap eh ec eg hp
  have key : ∀ (v g c : Fin sc.E → ℝ), IsProj sc.B1.transpose v g → IsProj sc.B2 v c →
      Q.mulVec v = if component = "harmonic" then v - g - c else if component = "curl" then c else g := by
    intro v g c h1 h2
    have hh := HodgeParts.of_proj lib h1 h2
    have hv := hQ v
    rcases hc with rfl | rfl | rfl
    · rw [hh.harm] at hv; simpa using (Except.ok.inj hv).symm
    · rw [hh.curl] at hv; simpa using (Except.ok.inj hv).symm
    · rw [hh.grad] at hv; simpa using (Except.ok.inj hv).symm
  have z1 : ∀ v, sc.getDivergence v = 0 → IsProj sc.B1.transpose v 0 := fun v h =>
    IsProj.zero (by rw [transpose_transpose]; exact h)
  have z2 : ∀ v, sc.getCurl v = 0 → IsProj sc.B2 v 0 := fun v h => IsProj.zero h
  refine ⟨fun j => ?_, fun j => ?_, fun j => ?_⟩
  · rw [key _ _ _ (z1 _ (kh j).1) (z2 _ (kh j).2.1)]
    rcases hc with rfl | rfl | rfl <;> simp [own]
  · have hv : ∃ x, sc.B2.mulVec x = fun k => ec.vecs k j := by
      obtain ⟨hd, he, hpos⟩ := kc j
      have hne : ec.vals j ≠ 0 := by linarith
      unfold SC.getDivergence at hd
      rw [SC.L1, add_mulVec, SC.L1l, ← mulVec_mulVec _ sc.B1.transpose, hd, mulVec_zero, zero_add, SC.L1u,
        ← mulVec_mulVec] at he
      refine ⟨(ec.vals j)⁻¹ • sc.B2.transpose.mulVec (fun k => ec.vecs k j), ?_⟩
      rw [mulVec_smul, he, smul_smul, inv_mul_cancel₀ hne, one_smul]
    rw [key _ _ _ (z1 _ (kc j).1) (IsProj.self hv)]
    rcases hc with rfl | rfl | rfl <;> simp [own]
  · have hv : ∃ x, sc.B1.transpose.mulVec x = fun k => eg.vecs k j := by
      obtain ⟨hd, he, hpos⟩ := kg j
      have hne : eg.vals j ≠ 0 := by linarith
      unfold SC.getCurl at hd
      rw [SC.L1, add_mulVec, SC.L1u, ← mulVec_mulVec _ sc.B2, hd, mulVec_zero, add_zero, SC.L1l,
        ← mulVec_mulVec] at he
      refine ⟨(eg.vals j)⁻¹ • sc.B1.mulVec (fun k => eg.vecs k j), ?_⟩
      rw [mulVec_smul, he, smul_smul, inv_mul_cancel₀ hne, one_smul]
    rw [key _ _ _ (IsProj.self hv) (z2 _ (kg j).1)]
    rcases hc with rfl | rfl | rfl <;> simp [own]

private theorem component_valid {f t : Fin sc.E → ℝ} {component : String}
    (h : sc.getComponentFlow lib f component false = .ok t) :
    component = "harmonic" ∨ component = "curl" ∨ component = "gradient" := by
  by_contra hne
  push Not at hne
  simp [SC.getComponentFlow, hne] at h

private theorem zip_sum {n : ℕ} (w : Fin n → ℝ) (al : List ℝ) (hl : al.length = n) (F : ℝ → ℝ → ℝ) :
    (((List.ofFn w).zip al).map fun x => F x.1 x.2).sum =
      ((List.finRange n).map fun i : Fin n => F (w i) (al[(i : ℕ)]?.getD 0)).sum := by
  congr 1
  apply List.ext_getElem
  · simp [hl]
  · intro i h1 h2
    have h3 : i < n := by simpa using h2
    have h4 : i < al.length := by omega
    simp [List.getElem?_eq_getElem h4]

/-- the residual of a polynomial for the component mask is the squared distance between the polynomial of the
Hodge Laplacian and the component -/
theorem residual_eq_distance (hw : sc.WellFormed) (hgap : NoSmallEigenvalue sc.L1 (1 / 1000))
    {U : Matrix (Fin sc.E) (Fin sc.E) ℝ} {w : Fin sc.E → ℝ} {component : String} {mask : List ℝ}
    (hU : getEigendecomposition lib (.ndarray sc.L1) = .ok (U, w))
    (hm : sc.getComponentCoefficients lib component = .ok mask)
    {Q : Matrix (Fin sc.E) (Fin sc.E) ℝ}
    (hQ : ∀ f, sc.getComponentFlow lib f component false = .ok (Q.mulVec f)) (p : ℝ[X]) :
    fitResidual ((List.ofFn w).zip mask) p = ∑ j, ∑ i, (aeval sc.L1 p - Q) i j ^ 2 := by
  have hc := component_valid (hQ 0)
  obtain ⟨hE, -, hw'⟩ := eig_ok hU
  obtain ⟨eh, ec, eg, hp⟩ := EigParts.exists lib sc (1 / 1000) hE
  obtain ⟨al, h1, h2, h3⟩ := coeffs_sum hw hp component hc
  rw [hm] at h1
  obtain rfl := Except.ok.inj h1
  obtain ⟨cnt, -, -, -⟩ := C27_counts hw _ machineEps_le hgap eh ec eg hp
  obtain ⟨⟨o1, o2, o3⟩, -, hb⟩ := C144_basis hw _ machineEps_le (default_not_eigenvalue hw.built) eh ec eg hp
  obtain ⟨kh, kc, kg⟩ := C28_kinds hw _ machineEps_le hgap eh ec eg hp
  obtain ⟨q1, q2, q3⟩ := component_eig hw hgap hp hc hQ
  rw [fitResidual, zip_sum w mask h2 fun x y => (p.eval x - y) ^ 2, hw', h3 fun x y => (p.eval x - y) ^ 2,
    sum_parts cnt hc fun x y => (p.eval x - y) ^ 2]
  have hone : eh.vecs * eh.vecs.transpose + ec.vecs * ec.vecs.transpose + eg.vecs * eg.vecs.transpose = 1 := by
    apply Matrix.ext_of_mulVec_single
    intro i
    rw [add_mulVec, add_mulVec, one_mulVec, ← mulVec_mulVec, ← mulVec_mulVec, ← mulVec_mulVec]
    exact hb _
  change _ = frob (aeval sc.L1 p - Q)
  set D := aeval sc.L1 p - Q with hD
  have hDe : ∀ (v : Fin sc.E → ℝ) (x y : ℝ), sc.L1.mulVec v = x • v → Q.mulVec v = y • v →
      D.mulVec v = (p.eval x - y) • v := by
    intro v x y h1 h2
    rw [hD, sub_mulVec, aeval_eig _ _ h1, h2, sub_smul]
  have kh' : ∀ j, sc.L1.mulVec (fun k => eh.vecs k j) = eh.vals j • fun k => eh.vecs k j := fun j => by
    rw [(kh j).2.2, zero_smul]
    exact (C12_hodge_kernel sc _).mpr ⟨(kh j).1, (kh j).2.1⟩
  have hsplit : frob D = frob (D * eh.vecs) + frob (D * ec.vecs) + frob (D * eg.vecs) := by
    rw [frob_mul, frob_mul, frob_mul, ← trace_add, ← trace_add, ← Matrix.add_mul, ← Matrix.add_mul,
      ← Matrix.mul_add, ← Matrix.mul_add, hone, Matrix.mul_one, frob_trace]
  rw [hsplit, frob_eig o1 fun j => hDe _ _ _ (kh' j) (q1 j), frob_eig o2 fun j => hDe _ _ _ (kc j).2.1 (q2 j),
    frob_eig o3 fun j => hDe _ _ _ (kg j).2.1 (q3 j)]

/-- the total squared error over an orthonormal family of flows does not depend on the family -/
theorem total_error {Q : Matrix (Fin sc.E) (Fin sc.E) ℝ} {component : String}
    (hQ : ∀ f, sc.getComponentFlow lib f component false = .ok (Q.mulVec f))
    {v c : Fin sc.E → Fin sc.E → ℝ} (hv : ∀ a b, v a ⬝ᵥ v b = if a = b then 1 else 0)
    (hc : ∀ a, sc.getComponentFlow lib (v a) component false = .ok (c a))
    (M : Matrix (Fin sc.E) (Fin sc.E) ℝ) :
    ∑ a, ∑ i, (M.mulVec (v a) i - c a i) ^ 2 = ∑ j, ∑ i, (M - Q) i j ^ 2 := by
  have hc' : ∀ a, c a = Q.mulVec (v a) := fun a => by
    have := hc a
    rw [hQ] at this
    exact (Except.ok.inj this).symm
  have h1 : (Matrix.of v) * (Matrix.of v).transpose = 1 := by
    ext a b
    rw [one_apply]
    exact hv a b
  have h2 : (Matrix.of v).transpose * Matrix.of v = 1 := mul_eq_one_comm.mp h1
  have h3 := frob_mul (M - Q) (Matrix.of v).transpose
  rw [transpose_transpose, h2, Matrix.mul_one, ← frob_trace] at h3
  change _ = frob (M - Q)
  rw [← h3]
  refine Finset.sum_congr rfl fun a _ => Finset.sum_congr rfl fun i _ => ?_
  have : ((M - Q) * (Matrix.of v).transpose) i a = (M - Q).mulVec (v a) i := rfl
  rw [this, sub_mulVec, hc']
  rfl

/-- C159: the type-one least-squares filter is the best of its size.  Whatever flow it was designed with: over
every orthonormal family of flows, its total squared error against the true components is at most that of any
other polynomial of the Hodge Laplacian with as many coefficients. -/
theorem C159_best (hw : sc.WellFormed) (hgap : NoSmallEigenvalue sc.L1 (1 / 1000)) (st st' : FilterSt sc.E)
    (f : Fin sc.E → ℝ) (component : String) (L : Int)
    (h : LSFilter.typeOne lib sc st f component L = (.ok (), st')) :
    ∃ H, st'.history.get? "filter" = some (.mat H) ∧
      ∀ q : ℝ[X], (q.natDegree : Int) < L →
      ∀ v c : Fin sc.E → Fin sc.E → ℝ, (∀ a b, v a ⬝ᵥ v b = if a = b then 1 else 0) →
        (∀ a, sc.getComponentFlow lib (v a) component false = .ok (c a)) →
        ∑ a, ∑ i, (H.mulVec (v a) i - c a i) ^ 2 ≤ ∑ a, ∑ i, ((aeval sc.L1 q).mulVec (v a) i - c a i) ^ 2 := by
  obtain ⟨U, w, t, mask, h1, h2, h3, h0, p, hp, hfil, -⟩ := C51_type_one st st' f component L h
  obtain ⟨Q, hQ⟩ := component_matrix (lib := lib) hw (component_valid h2)
  refine ⟨_, hfil, fun q hq v c hv hc => ?_⟩
  rw [total_error hQ hv hc, total_error hQ hv hc, ← residual_eq_distance hw hgap h1 h3 hQ,
    ← residual_eq_distance hw hgap h1 h3 hQ]
  exact (hp (L.toNat - 1) (by omega)).2 q (by omega)

/-- C159: what the recorded frequency responses say.  The squared distance between the response recorded for each
smaller size and the component's mask is the total squared error, over every orthonormal family of flows, of the
filter of that size; the last one is that of the stored filter; they never increase with the size. -/
theorem C159_responses (hw : sc.WellFormed) (hgap : NoSmallEigenvalue sc.L1 (1 / 1000)) (st st' : FilterSt sc.E)
    (f : Fin sc.E → ℝ) (component : String) (L : Int)
    (h : LSFilter.typeOne lib sc st f component L = (.ok (), st')) :
    ∃ (mask : List ℝ) (resp : List (Fin sc.E → ℝ)) (H : ℕ → Matrix (Fin sc.E) (Fin sc.E) ℝ),
      sc.getComponentCoefficients lib component = .ok mask ∧
      st'.history.get? "frequency_responses" = some (.rows resp) ∧ (resp.length : Int) = L ∧
      st'.history.get? "filter" = some (.mat (H (resp.length - 1))) ∧
      (∀ l r, resp[l]? = some r → ∀ v c : Fin sc.E → Fin sc.E → ℝ,
        (∀ a b, v a ⬝ᵥ v b = if a = b then 1 else 0) →
        (∀ a, sc.getComponentFlow lib (v a) component false = .ok (c a)) →
        ∑ k : Fin sc.E, (r k - mask[(k : ℕ)]?.getD 0) ^ 2 =
          ∑ a, ∑ i, ((H l).mulVec (v a) i - c a i) ^ 2) ∧
      ∀ (l l' : ℕ) (r r' : Fin sc.E → ℝ), resp[l]? = some r → resp[l']? = some r' → l ≤ l' →
        ∑ k : Fin sc.E, (r' k - mask[(k : ℕ)]?.getD 0) ^ 2 ≤ ∑ k : Fin sc.E, (r k - mask[(k : ℕ)]?.getD 0) ^ 2 := by
  obtain ⟨U, w, t, mask, h1, h2, h3, h0, p, hp, hfil, -, ⟨resp, hr1, hr2, hr3⟩, -⟩ :=
    C51_type_one st st' f component L h
  obtain ⟨Q, hQ⟩ := component_matrix (lib := lib) hw (component_valid h2)
  obtain ⟨hE, -, hw'⟩ := eig_ok h1
  rw [snap_eq lib (symmPSD_L1 sc) machineEps_le hgap] at hw'
  obtain ⟨eh, ec, eg, hpp⟩ := EigParts.exists lib sc (1 / 1000) hE
  obtain ⟨al, m1, m2, -⟩ := coeffs_sum hw hpp component (component_valid h2)
  rw [h3] at m1
  obtain rfl := Except.ok.inj m1
  have hres : ∀ l r, resp[l]? = some r → l < L.toNat ∧
      ∑ k : Fin sc.E, (r k - mask[(k : ℕ)]?.getD 0) ^ 2 = fitResidual ((List.ofFn w).zip mask) (p l) := by
    intro l r hl
    have hl' : l < L.toNat := by
      rw [← hr2]; exact (List.getElem?_eq_some_iff.1 hl).1
    refine ⟨hl', ?_⟩
    have hs := hr3 l hl' _ (eigh_isSpectrum lib (symmPSD_L1 sc))
    rw [hl] at hs
    rw [Option.some.inj hs, fitResidual, zip_sum w mask m2 fun x y => ((p l).eval x - y) ^ 2, hw', Fin.sum_univ_def]
  refine ⟨mask, resp, fun l => aeval sc.L1 (p l), h3, hr1, by omega, by rw [hr2]; exact hfil, ?_, ?_⟩
  · intro l r hl v c hv hc
    rw [(hres l r hl).2, residual_eq_distance hw hgap h1 h3 hQ, total_error hQ hv hc]
  · intro l l' r r' hl hl' hle
    obtain ⟨a1, a2⟩ := hres l r hl
    obtain ⟨b1, b2⟩ := hres l' r' hl'
    rw [a2, b2]
    exact (hp l' b1).2 _ ((hp l a1).1.trans hle)

/-- C159: when the design returns: exactly for a complex with edges, one of the three components and a positive
size. -/
theorem C159_returns (hw : sc.WellFormed) (st : FilterSt sc.E) (f : Fin sc.E → ℝ) (component : String) (L : Int) :
    (∃ st', LSFilter.typeOne lib sc st f component L = (.ok (), st')) ↔
      0 < sc.E ∧ (component = "harmonic" ∨ component = "curl" ∨ component = "gradient") ∧ 0 < L := by
  constructor
  · rintro ⟨st', h⟩
    obtain ⟨U, w, t, mask, h1, h2, h3, h0, -⟩ := C51_type_one st st' f component L h
    exact ⟨(eig_ok h1).1, component_valid h2, by omega⟩
  · rintro ⟨hE, hc, hL⟩
    obtain ⟨Q, hQ⟩ := component_matrix (lib := lib) hw hc
    obtain ⟨eh, ec, eg, hp⟩ := EigParts.exists lib sc (1 / 1000) hE
    obtain ⟨al, h1, h2, -⟩ := coeffs_sum hw hp component hc
    rw [LSFilter.typeOne, LSFilter.typeOneDesign]
    simp only [bind, Except.bind, getEigendecomposition_dense lib hE sc.L1 machineEps, SC.getTrueSignal, hQ, h1]
    rw [applyFilter_eq lib _ _ _ _ _ _ _ hL (by simp [h2])]
    exact ⟨_, rfl⟩

/-! ## The bound is met, and need not be zero -/

private theorem tri_gap : NoSmallEigenvalue tri.L1 (1 / 1000) := by
  intro mu v hv h hm
  rw [tri_L1, smul_mulVec, one_mulVec] at h
  have : (3 - mu) • v = 0 := by rw [sub_smul, h, sub_self]
  rcases smul_eq_zero.1 this with h | h
  · linarith [hm.2]
  · exact hv h

/-- the gradient projector of the filled triangle -/
private noncomputable def triGrad : Matrix (Fin 3) (Fin 3) ℝ := !![2/3, 1/3, -1/3; 1/3, 2/3, 1/3; -1/3, 1/3, 2/3]

private theorem triGrad_proj (j : Fin 3) :
    IsProj (!![-1, -1, 0; 1, 0, -1; 0, 1, 1] : Matrix (Fin 3) (Fin 3) ℝ).transpose (Pi.single j 1)
      fun i => triGrad i j := by
  constructor
  · refine ⟨fun a => (!![-1/3, -1/3, 0; 1/3, 0, -1/3; 0, 1/3, 1/3] : Matrix (Fin 3) (Fin 3) ℝ) a j, ?_⟩
    funext i
    simp only [mulVec, dotProduct, Fin.sum_univ_three, triGrad, transpose_apply]
    fin_cases i <;> fin_cases j <;> simp <;> norm_num
  · funext i
    simp only [mulVec, dotProduct, Fin.sum_univ_three, triGrad, transpose_apply]
    fin_cases i <;> fin_cases j <;> simp <;> norm_num

private theorem triGrad_spec (lib : NumLib) (j : Fin tri.E) :
    tri.getComponentFlow lib (Pi.single j 1) "gradient" false = .ok fun i => triGrad i j := by
  obtain ⟨g, c, h, hp⟩ := HodgeParts.exists lib tri (Pi.single j 1)
  have hproj : IsProj tri.B1.transpose (Pi.single j 1) fun i => triGrad i j := by
    have hB : tri.B1 = (!![-1, -1, 0; 1, 0, -1; 0, 1, 1] : Matrix (Fin 3) (Fin 3) ℝ) := by
      change triB1.map (Int.cast : ℤ → ℝ) = _
      ext a b
      fin_cases a <;> fin_cases b <;> simp [triB1]
    rw [hB]
    exact triGrad_proj j
  rw [hp.grad, gradient_eq_of_proj hp.grad hproj]

/-- C159: for the filled triangle, whose gradient and curl flows share the eigenvalue 3, the best gradient filter of
every size is two thirds of the flow: the hypotheses of `C159_best` are met, and the least total error is not 0. -/
theorem C159_triangle (lib : NumLib) (st : FilterSt tri.E) (f : Fin tri.E → ℝ) (L : Int) (hL : 0 < L) :
    ∃ st', LSFilter.typeOne lib tri st f "gradient" L = (.ok (), st') ∧
      st'.history.get? "filter" = some (.mat ((2 / 3 : ℝ) • 1)) := by
  obtain ⟨st', h⟩ := (C159_returns (lib := lib) tri_wellFormed st f "gradient" L).2
    ⟨by decide, by simp, hL⟩
  refine ⟨st', h, ?_⟩
  obtain ⟨U, w, t, mask, h1, h2, h3, h0, p, hp, hfil, -⟩ := C51_type_one st st' f "gradient" L h
  obtain ⟨H, hH, hbest⟩ := C159_best tri_wellFormed tri_gap st st' f "gradient" L h
  rw [hfil] at hH
  obtain rfl : aeval tri.L1 (p (L.toNat - 1)) = H := by simpa using hH
  have hs : ∀ q : ℝ[X], aeval tri.L1 q = (q.eval 3) • (1 : Matrix (Fin tri.E) (Fin tri.E) ℝ) := by
    intro q
    have e : tri.L1 = algebraMap ℝ (Matrix (Fin tri.E) (Fin tri.E) ℝ) 3 := by
      rw [tri_L1, Algebra.algebraMap_eq_smul_one]
    rw [e, aeval_algebraMap_apply, Algebra.algebraMap_eq_smul_one, coe_aeval_eq_eval]
  have hv : ∀ a b : Fin tri.E, (Pi.single a 1 : Fin tri.E → ℝ) ⬝ᵥ Pi.single b 1 = if a = b then 1 else 0 := by
    intro a b
    rw [single_one_dotProduct, Pi.single_apply]
  have hb := hbest (C (2 / 3)) (by simpa using hL) (fun a => Pi.single a 1) _ hv (triGrad_spec lib)
  rw [hfil, hs]
  rw [hs, hs, eval_C] at hb
  have hx : ∀ x : ℝ, ∑ a : Fin tri.E, ∑ i : Fin tri.E,
      ((x • (1 : Matrix (Fin tri.E) (Fin tri.E) ℝ)).mulVec (Pi.single a 1) i - triGrad i a) ^ 2 =
        3 * x ^ 2 - 4 * x + 2 := by
    intro x
    simp only [smul_mulVec, one_mulVec, Pi.smul_apply, smul_eq_mul, Pi.single_apply]
    change ∑ a : Fin 3, ∑ i : Fin 3, (x * (if i = a then 1 else 0) - triGrad i a) ^ 2 = _
    simp [Fin.sum_univ_three, triGrad]
    ring
  rw [hx, hx] at hb
  have : eval 3 (p (L.toNat - 1)) = 2 / 3 := by nlinarith [sq_nonneg (eval 3 (p (L.toNat - 1)) - 2 / 3)]
  rw [this]

end Pytspl
