import Verif.Model.Lstsq
import Verif.Props.Accuracy

/-!
# Property C123: the singular value cut-off does not change the components
-/

namespace Pytspl

open Matrix

variable {lib : NumLib} {sc : SC ℝ} {m n : ℕ}

/-- Such a solution exists for every system. -/
theorem LstsqRcond.exists (A : Matrix (Fin m) (Fin n) ℝ) (b : Fin m → ℝ) (rcond : ℝ) :
    ∃ x, LstsqRcond A b rcond x := by
  classical
  obtain ⟨lib⟩ := NumLib.exists
  have hs := symmPSD_gram A
  have h := lib.isEig hs
  have hn : ∀ i, 0 ≤ (lib.eigh n (A.transpose * A)).1 i := fun i => by
    rw [← h.quad i]
    exact hs.2 _
  refine ⟨_, (lib.eigh n (A.transpose * A)).2, fun i => Real.sqrt ((lib.eigh n (A.transpose * A)).1 i),
    fun i => Real.sqrt_nonneg _, h.orth, ?_,
    Finset.univ.filter (fun i => ∀ j, rcond * Real.sqrt ((lib.eigh n (A.transpose * A)).1 j) <
      Real.sqrt ((lib.eigh n (A.transpose * A)).1 i)), fun i => by simp, rfl⟩
  rw [h.eig]
  congr 2
  funext i
  rw [Real.sq_sqrt (hn i)]

/-- If the kept singular values are exactly the non-zero ones, the result solves the normal equations. -/
theorem LstsqRcond.isProj {A : Matrix (Fin m) (Fin n) ℝ} {b : Fin m → ℝ} {rcond C F : ℝ} {x : Fin n → ℝ}
    (h : LstsqRcond A b rcond x)
    (hC : ∀ lam, IsEigenvalue (A.transpose * A) lam → lam ≠ 0 → 1 ≤ C * lam) (hC0 : 0 ≤ C)
    (hF : ∑ i, ∑ j, A i j ^ 2 ≤ F) (hsmall : rcond ^ 2 * F * C < 1) :
    IsProj A b (A.mulVec x) := by
  obtain ⟨V, s, hs0, hV, hE, keep, hkeep, rfl⟩ := h
  have hI : IsEig (A.transpose * A) V fun i => s i ^ 2 := ⟨hV, hE⟩
  have hAV : ∀ i, A.mulVec (fun k => V k i) ⬝ᵥ A.mulVec (fun k => V k i) = s i ^ 2 := by
    intro i
    rw [dot_mulVec_transpose, mulVec_mulVec, hI.col_eig i, smul_dotProduct, hI.col_dot]
    simp
  have hsF : ∀ i, s i ^ 2 ≤ F := by
    intro i
    rw [← hAV i]
    refine le_trans ?_ hF
    refine Finset.sum_le_sum fun r _ => ?_
    have hcs := Finset.sum_mul_sq_le_sq_mul_sq Finset.univ (A r) (fun k => V k i)
    have h1 : ∑ k, V k i ^ 2 = 1 := by
      have := hI.col_dot i i
      simp only [if_true] at this
      rw [← this]
      exact Finset.sum_congr rfl fun k _ => sq _
    rw [h1, mul_one] at hcs
    calc A.mulVec (fun k => V k i) r * A.mulVec (fun k => V k i) r
        = (∑ k, A r k * V k i) ^ 2 := (sq _).symm
      _ ≤ _ := hcs
  have hdrop : ∀ i, i ∉ keep → s i = 0 := by
    intro i hi
    rw [hkeep] at hi
    push Not at hi
    obtain ⟨j, hj⟩ := hi
    by_contra hne
    have h1 := hC (s i ^ 2) ⟨_, hI.col_ne_zero i, hI.col_eig i⟩ (pow_ne_zero 2 hne)
    have h2 : s i ^ 2 ≤ rcond ^ 2 * F := by
      calc s i ^ 2 ≤ (rcond * s j) ^ 2 := pow_le_pow_left₀ (hs0 i) hj 2
        _ = rcond ^ 2 * s j ^ 2 := by ring
        _ ≤ rcond ^ 2 * F := mul_le_mul_of_nonneg_left (hsF j) (sq_nonneg _)
    have h3 := mul_le_mul_of_nonneg_left h2 hC0
    nlinarith
  have hkept : ∀ i, i ∈ keep → s i ≠ 0 := by
    intro i hi h0
    have := (hkeep i).mp hi i
    rw [h0, mul_zero] at this
    exact lt_irrefl _ this
  have hz : ∀ i, s i = 0 → (fun k => V k i) ⬝ᵥ A.transpose.mulVec b = 0 := by
    intro i h0
    have h1 := hAV i
    rw [h0, sq, mul_zero] at h1
    rw [dot_mulVec_transpose, transpose_transpose, dotProduct_self_eq_zero.mp h1, zero_dotProduct]
  refine ⟨⟨_, rfl⟩, ?_⟩
  rw [mulVec_mulVec, mulVec_sum]
  conv_rhs => rw [hI.expand (A.transpose.mulVec b)]
  rw [← Finset.sum_subset (Finset.subset_univ keep)]
  · refine Finset.sum_congr rfl fun i hi => ?_
    rw [mulVec_smul, hI.col_eig, smul_smul, div_mul_cancel₀ _ (pow_ne_zero 2 (hkept i hi))]
    rfl
  · intro i _ hi
    have := hz i (hdrop i hi)
    change ((fun k => V k i) ⬝ᵥ A.transpose.mulVec b) • _ = 0
    rw [this, zero_smul]

/-- non-zero eigenvalues of `Aᵀ A` are eigenvalues of `A Aᵀ` -/
private theorem eig_swap {A : Matrix (Fin m) (Fin n) ℝ} {lam : ℝ} (h : IsEigenvalue (A.transpose * A) lam)
    (h0 : lam ≠ 0) : IsEigenvalue (A * A.transpose) lam := by
  obtain ⟨v, hv, he⟩ := h
  refine ⟨A.mulVec v, fun hz => ?_, ?_⟩
  · rw [← mulVec_mulVec, hz, mulVec_zero] at he
    rcases smul_eq_zero.mp he.symm with g | g
    · exact h0 g
    · exact hv g
  · rw [← mulVec_mulVec, mulVec_mulVec (M := A.transpose), he, mulVec_smul]

/-- the squares of the entries of `B1` add up to twice the number of edges -/
theorem SC.b1_square (hb : sc.Built) (hr : EdgesInRange sc.nodes.length sc.edges) (hl : NoLoops sc.edges) :
    ∑ j : Fin sc.E, ∑ i : Fin sc.N, sc.B1.transpose j i ^ 2 ≤ 2 * sc.edges.length := by
  have : ∀ j : Fin sc.E, ∑ i : Fin sc.N, sc.B1.transpose j i ^ 2 = 2 := by
    intro j
    have h1 : sc.L1l j j = ∑ i : Fin sc.N, sc.B1.transpose j i ^ 2 := by
      change ∑ i : Fin sc.N, sc.B1 i j * sc.B1 i j = _
      exact Finset.sum_congr rfl fun i _ => (sq _).symm
    rw [← h1, (C119_lower sc hb hr hl).2 j j]
    have hne : sc.edges[j].1 ≠ sc.edges[j].2 := hl _ (List.getElem_mem _)
    generalize sc.edges[j] = e at hne
    unfold endSign
    simp only [if_true, hne, hne.symm, if_false]
    norm_num
  rw [Finset.sum_congr rfl fun j _ => this j, Finset.sum_const, Finset.card_univ, Fintype.card_fin, nsmul_eq_mul]
  exact le_of_eq (mul_comm _ _)

/-- the squares of the entries of `B2` add up to at most three times the number of triangles -/
theorem SC.b2_square (hs : sc.OnSimpleGraph) :
    ∑ i : Fin sc.E, ∑ t : Fin sc.T, sc.B2 i t ^ 2 ≤ 3 * sc.triangles.length := by
  rw [Finset.sum_comm]
  have : ∀ t : Fin sc.T, ∑ i : Fin sc.E, sc.B2 i t ^ 2 ≤ 3 := by
    intro t
    obtain ⟨a, b, c, ia, ib, ic, h0, h1, h2, h3, hB⟩ := hs.built.tri_entry t
    calc ∑ i : Fin sc.E, sc.B2 i t ^ 2 ≤ ∑ i : Fin sc.E, ((if i = ia then (1 : ℝ) else 0) +
          (if i = ib then 1 else 0) + (if i = ic then 1 else 0)) := by
          refine Finset.sum_le_sum fun i _ => ?_
          rw [hB i]
          split_ifs <;> norm_num
      _ = 3 := by
          rw [Finset.sum_add_distrib, Finset.sum_add_distrib]
          simp
          norm_num
  calc ∑ t : Fin sc.T, ∑ i : Fin sc.E, sc.B2 i t ^ 2 ≤ ∑ _t : Fin sc.T, (3 : ℝ) := Finset.sum_le_sum fun t _ => this t
    _ = 3 * sc.triangles.length := by
        rw [Finset.sum_const, Finset.card_univ, Fintype.card_fin, nsmul_eq_mul]
        exact mul_comm _ _

/-- C123, gradient: numpy's cut-off for small singular values does not change the gradient component, if
`(eps max(E, N))² 2E (N - 1) D < 1`. -/
theorem C123_gradient (sc : SC ℝ) (hb : sc.Built) (hr : EdgesInRange sc.nodes.length sc.edges) (hl : NoLoops sc.edges)
    (D : ℕ) (hD : DiameterLE (graphOf sc.nodes.length sc.edges) D)
    (hsmall : (machineEps * (max sc.edges.length sc.nodes.length : ℕ)) ^ 2 * (2 * sc.edges.length) *
      ((sc.nodes.length - 1 : ℕ) * D : ℝ) < 1)
    (f g : Fin sc.edges.length → ℝ) (h : sc.GradientFlowRcond f g) : sc.getComponentFlow lib f "gradient" false = .ok g := by
  obtain ⟨p, hp, rfl⟩ := h
  have h1 := hp.isProj (C := ((sc.nodes.length - 1 : ℕ) * D : ℝ))
    (fun lam he h0 => C121_lower sc hb hr hl D hD lam (by
      have := eig_swap he h0
      rw [transpose_transpose] at this
      exact this) h0) (by positivity) (SC.b1_square hb hr hl) hsmall
  exact (HodgeParts.of_proj lib h1 (lib.isProj sc.B2 f)).grad

/-- C123, curl. -/
theorem C123_curl (sc : SC ℝ) (hs : sc.OnSimpleGraph) (k : ℕ) (hk : DepthLE sc.edges sc.triangles k)
    (hsmall : (machineEps * (max sc.edges.length sc.triangles.length : ℕ)) ^ 2 * (3 * sc.triangles.length) *
      (sc.triangles.length * k ^ 2 : ℝ) < 1)
    (f c : Fin sc.edges.length → ℝ) (h : sc.CurlFlowRcond f c) : sc.getComponentFlow lib f "curl" false = .ok c := by
  obtain ⟨w, hp, rfl⟩ := h
  have h1 := hp.isProj (C := (sc.triangles.length * k ^ 2 : ℝ))
    (fun lam he h0 => C121_upper sc hs k hk lam (eig_swap he h0) h0) (by positivity) (SC.b2_square hs) hsmall
  exact (HodgeParts.of_proj lib (lib.isProj sc.B1.transpose f) h1).curl

/-- C123, harmonic. -/
theorem C123_harmonic (sc : SC ℝ) (hs : sc.OnSimpleGraph) (D k : ℕ)
    (hD : DiameterLE (graphOf sc.nodes.length sc.edges) D) (hk : DepthLE sc.edges sc.triangles k)
    (h1 : (machineEps * (max sc.edges.length sc.nodes.length : ℕ)) ^ 2 * (2 * sc.edges.length) *
      ((sc.nodes.length - 1 : ℕ) * D : ℝ) < 1)
    (h2 : (machineEps * (max sc.edges.length sc.triangles.length : ℕ)) ^ 2 * (3 * sc.triangles.length) *
      (sc.triangles.length * k ^ 2 : ℝ) < 1)
    (f h : Fin sc.edges.length → ℝ) (hh : sc.HarmonicFlowRcond f h) : sc.getComponentFlow lib f "harmonic" false = .ok h := by
  obtain ⟨g, c, hg, hc, rfl⟩ := hh
  have e1 := C123_gradient (lib := lib) sc hs.built hs.inRange hs.noLoops D hD h1 f g hg
  have e2 := C123_curl (lib := lib) sc hs k hk h2 f c hc
  obtain ⟨g', c', h', hp⟩ := HodgeParts.exists lib sc f
  have k1 : g = g' := Except.ok.inj (e1.symm.trans hp.grad)
  have k2 : c = c' := Except.ok.inj (e2.symm.trans hp.curl)
  rw [k1, k2, hp.harm, hp.proj.2.2]

/-- C123: in particular on all networks with up to a million nodes and edges, for the gradient component. -/
theorem C123_million (sc : SC ℝ) (hb : sc.Built) (hr : EdgesInRange sc.nodes.length sc.edges) (hl : NoLoops sc.edges)
    (hN : sc.nodes.length ≤ 10 ^ 6) (hE : sc.edges.length ≤ 10 ^ 6) (f g : Fin sc.edges.length → ℝ)
    (h : sc.GradientFlowRcond f g) : sc.getComponentFlow lib f "gradient" false = .ok g := by
  refine C123_gradient sc hb hr hl (sc.nodes.length - 1) (diameterLE_card _) ?_ f g h
  have h1 : ((max sc.edges.length sc.nodes.length : ℕ) : ℝ) ≤ 10 ^ 6 := by exact_mod_cast max_le hE hN
  have h2 : (sc.edges.length : ℝ) ≤ 10 ^ 6 := by exact_mod_cast hE
  have h3 : ((sc.nodes.length - 1 : ℕ) : ℝ) ≤ 10 ^ 6 := by exact_mod_cast (Nat.sub_le _ _).trans hN
  calc (machineEps * (max sc.edges.length sc.nodes.length : ℕ)) ^ 2 * (2 * sc.edges.length) *
        (((sc.nodes.length - 1 : ℕ) : ℝ) * ((sc.nodes.length - 1 : ℕ) : ℝ))
      ≤ (machineEps * 10 ^ 6) ^ 2 * (2 * 10 ^ 6) * (10 ^ 6 * 10 ^ 6) := by
        unfold machineEps
        gcongr
    _ < 1 := by unfold machineEps; norm_num

/-- Non-vacuity of C123. -/
example : ∃ sc : SC ℝ, sc.OnSimpleGraph ∧ sc.triangles ≠ [] ∧ sc.nodes.length ≤ 10 ^ 6 ∧ sc.edges.length ≤ 10 ^ 6 ∧
    ∀ f, (∃ g, sc.GradientFlowRcond f g) ∧ (∃ c, sc.CurlFlowRcond f c) ∧ ∃ h, sc.HarmonicFlowRcond f h := by
  obtain ⟨sc, hw, hs, hn, he, ht⟩ := sample_wellFormed ℝ
  refine ⟨sc, hs, by rw [ht]; decide, by rw [hn]; decide, by rw [he]; decide, fun f => ?_⟩
  obtain ⟨p, hp⟩ := LstsqRcond.exists sc.B1.transpose f (defaultRcond sc.E sc.N)
  obtain ⟨w, hw⟩ := LstsqRcond.exists sc.B2 f (defaultRcond sc.E sc.T)
  exact ⟨⟨_, p, hp, rfl⟩, ⟨_, w, hw, rfl⟩, _, _, _, ⟨p, hp, rfl⟩, ⟨w, hw, rfl⟩, rfl⟩

end Pytspl
