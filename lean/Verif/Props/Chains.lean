import Verif.Props.Rings

/-!
# C182: chains

On a chain of `n` edges every flow is a gradient flow.  Its frequencies are explicit: with at most 98 edges the default
tolerance finds no harmonic flow, as it should; from 99 edges on it does.
-/

namespace Pytspl

open Matrix

variable {lib : NumLib} {sc : SC ℝ}

/-- the `i`-th edge joins the nodes `i` and `i + 1`; the sign says whether it is stored in this direction -/
structure SC.IsChain (sc : SC ℝ) (s : Fin sc.E → ℝ) : Prop where
  wellFormed : sc.WellFormed
  size : sc.nodes.length = sc.edges.length + 1
  hollow : sc.triangles = []
  nonempty : 0 < sc.E
  joins : ∀ i : Fin sc.E,
    (sc.edges[i] = (((i : ℕ) : Int), (((i : ℕ) + 1 : ℕ) : Int)) ∧ s i = 1) ∨
    (sc.edges[i] = ((((i : ℕ) + 1 : ℕ) : Int), ((i : ℕ) : Int)) ∧ s i = -1)

variable {s : Fin sc.E → ℝ}

private theorem sign_sq (h : sc.IsChain s) (i : Fin sc.E) : s i * s i = 1 := by
  rcases h.joins i with ⟨-, e⟩ | ⟨-, e⟩ <;> rw [e] <;> norm_num

/-- potential differences along the chain -/
private theorem chain_diff (h : sc.IsChain s) (φ : ℕ → ℝ) (i : Fin sc.E) :
    s i * sc.B1.transpose.mulVec (fun v : Fin sc.N => φ v) i = φ ((i : ℕ) + 1) - φ i := by
  have hv : ∀ k : ℕ, k < sc.E + 1 → valueAt (fun v : Fin sc.N => φ v) ((k : ℕ) : Int) = φ k := by
    intro k hk
    have hN : sc.N = sc.E + 1 := h.size
    unfold valueAt
    rw [dif_pos ⟨by omega, by rw [hN]; omega⟩]
    simp
  have h1 := hv i (by omega)
  have h2 := hv ((i : ℕ) + 1) (by omega)
  rw [b1_transpose_apply h.wellFormed.built h.wellFormed.inRange h.wellFormed.noLoops]
  rcases h.joins i with ⟨e, es⟩ | ⟨e, es⟩
  · rw [e, es, h1, h2, one_mul]
  · rw [e, es, h1, h2]; ring

private theorem no_curl (h : sc.IsChain s) (f : Fin sc.E → ℝ) : sc.getCurl f = 0 := by
  ext t
  have := t.isLt
  simp only [SC.T, h.hollow, List.length_nil] at this
  omega

/-- the divergence of the flow `a` along the chain -/
theorem chain_div (h : sc.IsChain s) (a : ℕ → ℝ) (h0 : a 0 = 0) (hE : a (sc.E + 1) = 0) :
    sc.getDivergence (fun i => s i * a (i + 1)) = fun v : Fin sc.N => a v - a (v + 1) := by
  have key : ∀ φ : ℕ → ℝ, (fun v : Fin sc.N => φ v) ⬝ᵥ sc.getDivergence (fun i => s i * a (i + 1)) =
      (fun v : Fin sc.N => φ v) ⬝ᵥ fun v : Fin sc.N => a v - a (v + 1) := by
    intro φ
    have e1 : (fun v : Fin sc.N => φ v) ⬝ᵥ sc.getDivergence (fun i => s i * a (i + 1)) =
        ∑ i : Fin sc.E, a (i + 1) * (φ ((i : ℕ) + 1) - φ i) := by
      rw [SC.getDivergence, dotProduct_mulVec, ← mulVec_transpose]
      refine Finset.sum_congr rfl fun i _ => ?_
      rw [← chain_diff h φ i]
      ring
    have e2 : (fun v : Fin sc.N => φ v) ⬝ᵥ (fun v : Fin sc.N => a v - a (v + 1)) =
        ∑ v ∈ Finset.range (sc.E + 1), φ v * (a v - a (v + 1)) := by
      have hN : sc.N = sc.E + 1 := h.size
      rw [← hN]
      exact Fin.sum_univ_eq_sum_range (fun v => φ v * (a v - a (v + 1))) sc.N
    rw [e1, e2, Fin.sum_univ_eq_sum_range (fun i => a (i + 1) * (φ (i + 1) - φ i)) sc.E]
    simp only [mul_sub, Finset.sum_sub_distrib]
    rw [Finset.sum_range_succ' (fun v => φ v * a v), Finset.sum_range_succ (fun v => φ v * a (v + 1)), h0, hE,
      mul_zero, mul_zero, add_zero, add_zero]
    congr 1 <;> exact Finset.sum_congr rfl fun i _ => mul_comm _ _
  have hd : sc.getDivergence (fun i => s i * a (i + 1)) - (fun v : Fin sc.N => a v - a (v + 1)) = 0 := by
    rw [← dotProduct_self_eq_zero, dotProduct_sub]
    set d := sc.getDivergence (fun i => s i * a (i + 1)) - fun v : Fin sc.N => a v - a (v + 1)
    have := key fun k => if hk : k < sc.N then d ⟨k, hk⟩ else 0
    simp only [Fin.is_lt, dif_pos, Fin.eta] at this
    rw [this, sub_self]
  exact sub_eq_zero.1 hd

/-- C182: on a chain every flow is a gradient flow. -/
theorem C182_components (h : sc.IsChain s) (f : Fin sc.E → ℝ) : HodgeParts lib sc f f 0 0 := by
  refine C23_unique h.wellFormed f _ _ _ (by simp) ?_ ⟨0, by rw [mulVec_zero]⟩ ?_ (no_curl h _)
  · let g : ℕ → ℝ := fun k => if hk : k < sc.E then s ⟨k, hk⟩ * f ⟨k, hk⟩ else 0
    have hg : ∀ i : Fin sc.E, g i = s i * f i := fun i => dif_pos i.isLt
    refine ⟨fun v : Fin sc.N => ∑ k ∈ Finset.range v, g k, ?_⟩
    ext i
    have h1 := chain_diff h (fun v => ∑ k ∈ Finset.range v, g k) i
    rw [Finset.sum_range_succ, add_sub_cancel_left, hg] at h1
    have h3 := sign_sq h i
    have h4 : sc.B1.transpose.mulVec (fun v : Fin sc.N => ∑ k ∈ Finset.range v, g k) i =
        s i * (s i * sc.B1.transpose.mulVec (fun v : Fin sc.N => ∑ k ∈ Finset.range v, g k) i) := by
      rw [← mul_assoc, h3, one_mul]
    rw [h4, h1]
    linear_combination -(f i) * h3
  · rw [SC.getDivergence, mulVec_zero]

/-- C182: so a flow without divergence is zero. -/
theorem C182_harmonic_space (h : sc.IsChain s) (f : Fin sc.E → ℝ) (hd : sc.getDivergence f = 0) : f = 0 := by
  obtain ⟨lib⟩ := NumLib.exists
  have h1 : HodgeParts lib sc f 0 0 f := C23_unique h.wellFormed f 0 0 f (by simp) ⟨0, by simp⟩ ⟨0, by simp⟩ hd
    (no_curl h f)
  have h2 := C182_components (lib := lib) h f
  exact Except.ok.inj (h1.harm.symm.trans h2.harm)

/-! ## Frequencies -/

private theorem chain_laplacian (h : sc.IsChain s) (a : ℕ → ℝ) (h0 : a 0 = 0) (hE : a (sc.E + 1) = 0) {lam : ℝ}
    (hl : ∀ k, 2 * a (k + 1) - a k - a (k + 2) = lam * a (k + 1)) :
    sc.L1.mulVec (fun i => s i * a (i + 1)) = lam • fun i => s i * a (i + 1) := by
  have hu : sc.L1u.mulVec (fun i => s i * a (i + 1)) = 0 := by
    have := no_curl h fun i => s i * a (i + 1)
    rw [SC.getCurl] at this
    rw [SC.L1u, ← mulVec_mulVec, this, mulVec_zero]
  have hd := chain_div h a h0 hE
  rw [SC.L1, add_mulVec, hu, add_zero, SC.L1l, ← mulVec_mulVec]
  rw [SC.getDivergence] at hd
  rw [hd]
  ext i
  have h1 := chain_diff h (fun v => a v - a (v + 1)) i
  have h3 := sign_sq h i
  have h4 := hl i
  rw [Pi.smul_apply, smul_eq_mul]
  have h5 : a ((i : ℕ) + 1 + 1) = a (i + 2) := rfl
  rw [h5] at h1
  linear_combination (-(sc.B1.transpose.mulVec (fun v : Fin sc.N => a v - a (v + 1)) i)) * h3 + s i * h1 + s i * h4

/-- C182: the standing waves with `k` half periods have the frequency `2 - 2 cos (πk/(n+1))`. -/
theorem C182_frequencies (h : sc.IsChain s) (k : ℕ) :
    sc.L1.mulVec (fun i => s i * Real.sin (Real.pi * k / (sc.E + 1) * ((i : ℕ) + 1))) =
      (2 - 2 * Real.cos (Real.pi * k / (sc.E + 1))) •
        (fun i => s i * Real.sin (Real.pi * k / (sc.E + 1) * ((i : ℕ) + 1))) := by
  have hEr : (sc.E : ℝ) + 1 ≠ 0 := by positivity
  set θ := Real.pi * k / (sc.E + 1) with hθ
  have := chain_laplacian h (fun j => Real.sin (θ * j)) (by simp) (by
    have : θ * ((sc.E + 1 : ℕ) : ℝ) = k * Real.pi := by rw [hθ]; push_cast; field_simp
    simp only [this, Real.sin_nat_mul_pi]) (lam := 2 - 2 * Real.cos θ) (fun j => by
    have e1 : θ * (j : ℝ) = θ * ((j + 1 : ℕ) : ℝ) - θ := by push_cast; ring
    have e2 : θ * ((j + 2 : ℕ) : ℝ) = θ * ((j + 1 : ℕ) : ℝ) + θ := by push_cast; ring
    simp only [e1, e2]
    rw [Real.sin_add, Real.sin_sub]; ring)
  push_cast at this
  exact this

/-- C182: there are no other frequencies. -/
theorem C182_spectrum (h : sc.IsChain s) {lam : ℝ} (hl : IsEigenvalue sc.L1 lam) :
    ∃ k, 1 ≤ k ∧ k ≤ sc.E ∧ lam = 2 - 2 * Real.cos (Real.pi * k / (sc.E + 1)) := by
  have hEr : (0 : ℝ) < sc.E + 1 := by positivity
  obtain ⟨v, hv, hlv⟩ := hl
  by_contra hcon
  push Not at hcon
  have hsym : ∀ (w : Fin sc.E → ℝ) (mu : ℝ), sc.L1.mulVec w = mu • w → lam ≠ mu → v ⬝ᵥ w = 0 := by
    intro w mu hw hne
    have h1 : v ⬝ᵥ sc.L1.mulVec w = sc.L1.mulVec v ⬝ᵥ w := by
      rw [dotProduct_mulVec, ← mulVec_transpose, (symmPSD_L1 sc).1]
    rw [hw, hlv, dotProduct_smul, smul_dotProduct, smul_eq_mul, smul_eq_mul] at h1
    have : (lam - mu) * (v ⬝ᵥ w) = 0 := by linarith
    exact (mul_eq_zero.1 this).resolve_left (sub_ne_zero.2 hne)
  have hs : ∀ k < 2 * (sc.E + 1),
      ∑ i : Fin sc.E, v i * (s i * Real.sin (Real.pi * k / (sc.E + 1) * ((i : ℕ) + 1))) = 0 := by
    intro k hk
    by_cases c0 : ∀ i : ℕ, Real.sin (Real.pi * k / (sc.E + 1) * (i + 1)) = 0
    · simp [c0]
    · refine hsym _ _ (C182_frequencies h k) ?_
      have k0 : k ≠ 0 := by rintro rfl; simp at c0
      have kE : k ≠ sc.E + 1 := by
        rintro rfl
        apply c0
        intro i
        have : Real.pi * ((sc.E + 1 : ℕ) : ℝ) / (sc.E + 1) * (i + 1) = ((i + 1 : ℕ) : ℝ) * Real.pi := by
          push_cast; field_simp
        rw [this, Real.sin_nat_mul_pi]
      rcases Nat.lt_or_ge k (sc.E + 1) with h1 | h1
      · exact hcon k (by omega) (by omega)
      · have := hcon (2 * (sc.E + 1) - k) (by omega) (by omega)
        have e : Real.pi * ((2 * (sc.E + 1) - k : ℕ) : ℝ) / (sc.E + 1) =
            2 * Real.pi - Real.pi * k / (sc.E + 1) := by
          rw [Nat.cast_sub (by omega)]
          push_cast
          field_simp
        rwa [e, Real.cos_two_pi_sub] at this
  have hw : ∀ m : ℕ, 0 < m → m < 2 * (sc.E + 1) →
      ∑ k ∈ Finset.range (2 * (sc.E + 1)), Real.cos (Real.pi * k / (sc.E + 1) * m) = 0 := by
    intro m h1 h2
    rw [← wave_sum h1 h2]
    refine Finset.sum_congr rfl fun k _ => ?_
    congr 2
    push_cast
    rw [mul_assoc, mul_div_mul_left _ _ two_ne_zero]
  have hdiff : ∀ i j : Fin sc.E, ∑ k ∈ Finset.range (2 * (sc.E + 1)),
      Real.cos (Real.pi * k / (sc.E + 1) * ((i : ℕ) + 1) - Real.pi * k / (sc.E + 1) * ((j : ℕ) + 1)) =
      if i = j then 2 * ((sc.E : ℝ) + 1) else 0 := by
    intro i j
    rcases lt_trichotomy (i : ℕ) (j : ℕ) with hij | hij | hij
    · rw [if_neg (fun e => by rw [e] at hij; omega), ← hw (j - i) (by omega) (by omega)]
      refine Finset.sum_congr rfl fun k _ => ?_
      rw [← Real.cos_neg, Nat.cast_sub hij.le]
      congr 1
      ring
    · rw [if_pos (Fin.ext hij), hij]
      simp
    · rw [if_neg (fun e => by rw [e] at hij; omega), ← hw (i - j) (by omega) (by omega)]
      refine Finset.sum_congr rfl fun k _ => ?_
      rw [Nat.cast_sub hij.le]
      congr 1
      ring
  have hsumm : ∀ i j : Fin sc.E, ∑ k ∈ Finset.range (2 * (sc.E + 1)),
      Real.cos (Real.pi * k / (sc.E + 1) * ((i : ℕ) + 1) + Real.pi * k / (sc.E + 1) * ((j : ℕ) + 1)) = 0 := by
    intro i j
    rw [← hw (i + j + 2) (by omega) (by omega)]
    refine Finset.sum_congr rfl fun k _ => ?_
    congr 1
    push_cast
    ring
  apply hv
  ext j
  have h0 : ∑ k ∈ Finset.range (2 * (sc.E + 1)),
      (∑ i : Fin sc.E, v i * (s i * Real.sin (Real.pi * k / (sc.E + 1) * ((i : ℕ) + 1)))) *
      Real.sin (Real.pi * k / (sc.E + 1) * ((j : ℕ) + 1)) = 0 := by
    refine Finset.sum_eq_zero fun k hk => ?_
    rw [hs k (Finset.mem_range.1 hk), zero_mul]
  have h1 : ∑ k ∈ Finset.range (2 * (sc.E + 1)),
      (∑ i : Fin sc.E, v i * (s i * Real.sin (Real.pi * k / (sc.E + 1) * ((i : ℕ) + 1)))) *
      Real.sin (Real.pi * k / (sc.E + 1) * ((j : ℕ) + 1)) =
      ∑ i : Fin sc.E, v i * s i / 2 * ((if i = j then 2 * ((sc.E : ℝ) + 1) else 0) - 0) := by
    have : ∀ i : Fin sc.E, ((if i = j then 2 * ((sc.E : ℝ) + 1) else 0) - 0) =
      ∑ k ∈ Finset.range (2 * (sc.E + 1)),
      (Real.cos (Real.pi * k / (sc.E + 1) * ((i : ℕ) + 1) - Real.pi * k / (sc.E + 1) * ((j : ℕ) + 1)) -
      Real.cos (Real.pi * k / (sc.E + 1) * ((i : ℕ) + 1) + Real.pi * k / (sc.E + 1) * ((j : ℕ) + 1))) := by
      intro i
      rw [Finset.sum_sub_distrib, hdiff, hsumm]
    rw [Finset.sum_congr rfl fun i _ => congrArg (fun z => v i * s i / 2 * z) (this i)]
    simp only [Finset.mul_sum]
    rw [Finset.sum_comm]
    refine Finset.sum_congr rfl fun k _ => ?_
    rw [Finset.sum_mul]
    refine Finset.sum_congr rfl fun i _ => ?_
    rw [Real.cos_sub, Real.cos_add]
    ring
  rw [h1] at h0
  simp only [sub_zero, mul_ite, mul_zero, Finset.sum_ite_eq', Finset.mem_univ, if_true] at h0
  have h2 : v j * s j = 0 := by
    have : v j * s j * ((sc.E : ℝ) + 1) = 0 := by linarith
    exact (mul_eq_zero.1 this).resolve_right hEr.ne'
  have h3 := sign_sq h j
  have : v j = (v j * s j) * s j := by rw [mul_assoc, h3, mul_one]
  rw [this, h2, zero_mul]
  rfl

/-! ## The default tolerance -/

/-- C182: with at most 98 edges no frequency is mistaken for zero. -/
theorem C182_gap (h : sc.IsChain s) (hn : sc.E ≤ 98) : NoSmallEigenvalue sc.L1 (1 / 1000) := by
  intro lam v hv hl hc
  obtain ⟨k, hk0, hk, rfl⟩ := C182_spectrum h ⟨v, hv, hl⟩
  have hEr : (0 : ℝ) < sc.E + 1 := by positivity
  have hp := Real.pi_pos
  have hk1 : (1 : ℝ) ≤ k := by exact_mod_cast hk0
  have hk2 : (k : ℝ) ≤ sc.E := by exact_mod_cast hk
  have hE98 : (sc.E : ℝ) ≤ 98 := by exact_mod_cast hn
  set x := Real.pi * k / (sc.E + 1) with hx
  set y := Real.pi / 99 with hy
  have hxy : y ≤ x := by
    rw [hx, hy, div_le_div_iff₀ (by norm_num) hEr]
    nlinarith
  have hx2 : x ≤ Real.pi := by
    rw [hx, div_le_iff₀ hEr]
    nlinarith
  have hy0 : 0 < y := by rw [hy]; positivity
  have hcos : Real.cos x ≤ Real.cos y := Real.cos_le_cos_of_nonneg_of_le_pi hy0.le hx2 hxy
  have p1 := Real.pi_gt_d2
  have p2 := Real.pi_lt_d2
  have hy1 : 0.0317 < y := by rw [hy]; linarith
  have hy2 : y < 0.032 := by rw [hy]; linarith
  have hb := Real.cos_bound (x := y) (by rw [abs_of_pos hy0]; linarith)
  rw [abs_of_pos hy0] at hb
  have hb' := (abs_le.1 hb).2
  have h4 : y ^ 4 ≤ 0.0000011 := by
    have : y ^ 2 ≤ 0.032 ^ 2 := by nlinarith
    have h5 : y ^ 4 = y ^ 2 * y ^ 2 := by ring
    rw [h5]
    nlinarith [sq_nonneg y]
  have h2 : 0.0317 ^ 2 < y ^ 2 := by nlinarith
  have := hc.2
  norm_num at h2 h4 hb' this
  linarith

/-- C182: with at most 98 edges `get_component_eigenpair("harmonic")` returns no eigenvector. -/
theorem C182_default (h : sc.IsChain s) (hn : sc.E ≤ 98) :
    ∃ eh, sc.getComponentEigenpair lib "harmonic" = .ok eh ∧ eh.num = 0 := by
  obtain ⟨eh, he, ho, hf⟩ := C31_harmonic_space_partial (lib := lib) h.wellFormed (C182_gap h hn) h.nonempty
  refine ⟨eh, he, ?_⟩
  by_contra h0
  let j : Fin eh.num := ⟨0, by omega⟩
  have h1 : eh.vecs.mulVec (Pi.single j 1) = fun k => eh.vecs k j := by
    rw [mulVec_single_one]; rfl
  have h2 := C182_harmonic_space h _ ((hf _).2 ⟨_, h1⟩).1
  have h3 := congrFun (congrFun ho j) j
  have h4 : (eh.vecs.transpose * eh.vecs) j j = (fun k => eh.vecs k j) ⬝ᵥ (fun k => eh.vecs k j) := rfl
  rw [h4, h2, Matrix.one_apply_eq, zero_dotProduct] at h3
  exact zero_ne_one h3

/-- C182: with 99 or more edges it returns at least one, and all of them have divergence. -/
theorem C182_tolerance (h : sc.IsChain s) (hn : 99 ≤ sc.E) :
    ∃ eh, sc.getComponentEigenpair lib "harmonic" = .ok eh ∧ 1 ≤ eh.num ∧
      ∀ j, sc.getDivergence (fun k => eh.vecs k j) ≠ 0 := by
  have hE := h.nonempty
  have hEr : (99 : ℝ) ≤ sc.E := by exact_mod_cast hn
  have iH := lib.isEig (symmPSD_L1 sc)
  set x := Real.pi * (1 : ℕ) / (sc.E + 1) with hx
  have p2 := Real.pi_lt_d4
  have hp := Real.pi_pos
  have hx0 : 0 < x := by rw [hx]; push_cast; positivity
  have hx1 : x ≤ 3.1416 / 100 := by
    rw [hx]
    push_cast
    rw [div_le_div_iff₀ (by linarith) (by norm_num)]
    nlinarith
  have hpi : x < Real.pi := by have := Real.pi_gt_d2; norm_num at hx1; linarith
  have hl1 : 2 - 2 * Real.cos x ≤ 1 / 1000 := by
    have h1 := Real.one_sub_sq_div_two_le_cos (x := x)
    have h2 : x ^ 2 ≤ (3.1416 / 100) ^ 2 := by nlinarith
    norm_num at h2
    linarith
  have hw0 : (fun i : Fin sc.E => s i * Real.sin (x * ((i : ℕ) + 1))) ≠ 0 := by
    intro h0
    have h1 := congrFun h0 ⟨0, hE⟩
    have h2 := sign_sq h ⟨0, hE⟩
    simp only [Nat.cast_zero, zero_add, mul_one, Pi.zero_apply] at h1
    rcases mul_eq_zero.1 h1 with h3 | h3
    · rw [h3] at h2; simp at h2
    · exact (Real.sin_pos_of_pos_of_lt_pi hx0 hpi).ne' h3
  obtain ⟨i1, e1⟩ := iH.mem_of_eigen hw0 (C182_frequencies h 1)
  have e1 : (lib.eigh sc.E sc.L1).1 i1 = 2 - 2 * Real.cos x := e1
  obtain ⟨eh, ec, eg, he⟩ := EigParts.exists lib sc (1 / 1000) hE
  have hh : getHarmonicEigenpair lib (.ndarray sc.L1) (1 / 1000) = .ok eh := he.harm
  rw [getHarmonicEigenpair, getEigendecomposition_dense lib hE] at hh
  have heq := Except.ok.inj hh
  refine ⟨eh, he.harm, ?_, fun j hd => ?_⟩
  · rw [← heq, sel_num]
    refine Nat.succ_le_of_lt (Fintype.card_pos_iff.2 ⟨⟨i1, ?_⟩⟩)
    show (if |(lib.eigh sc.E sc.L1).1 i1| < machineEps then 0 else (lib.eigh sc.E sc.L1).1 i1) ≤ 1 / 1000
    split
    · norm_num
    · rw [e1]; exact hl1
  · have ho : eh.vecs.transpose * eh.vecs = 1 := by
      rw [← heq]
      exact sel_orth (A := (lib.eigh sc.E sc.L1).2 * diagonal _ * (lib.eigh sc.E sc.L1).2.transpose)
        ⟨iH.orth, by rw [Matrix.mul_assoc, iH.orth, Matrix.mul_one]⟩
    have h2 := C182_harmonic_space h _ hd
    have h3 := congrFun (congrFun ho j) j
    have h4 : (eh.vecs.transpose * eh.vecs) j j = (fun k => eh.vecs k j) ⬝ᵥ (fun k => eh.vecs k j) := rfl
    rw [h4, h2, Matrix.one_apply_eq, zero_dotProduct] at h3
    exact zero_ne_one h3

/-- chains of every length exist -/
theorem chain_exists (n : ℕ) (hn : 0 < n) : ∃ (sc : SC ℝ) (s : Fin sc.E → ℝ), sc.IsChain s ∧ sc.E = n := by
  obtain ⟨sc, hw, h1, h2, h3⟩ := path_wellFormed n
  have hE : sc.E = n := by simp [SC.E, h2, pathEdges]
  refine ⟨sc, fun _ => 1, ⟨hw, ?_, h3, by omega, fun i => Or.inl ⟨?_, rfl⟩⟩, hE⟩
  · rw [h1, h2]; simp [pathNodes, pathEdges]
  · simp only [Fin.getElem_fin, h2, pathEdges, List.getElem_map, List.getElem_range]
    simp

/-- A chain of 99 edges, on which the default tolerance fails. -/
example : ∃ (sc : SC ℝ) (s : Fin sc.E → ℝ), sc.IsChain s ∧ 99 ≤ sc.E := by
  obtain ⟨sc, s, h, e⟩ := chain_exists 99 (by norm_num)
  exact ⟨sc, s, h, e.ge⟩

end Pytspl
