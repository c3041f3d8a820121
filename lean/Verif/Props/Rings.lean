import Verif.Props.EveryTolerance
import Verif.Props.Operators
import Mathlib.Analysis.SpecialFunctions.Trigonometric.Bounds
import Mathlib.Analysis.Real.Pi.Bounds
import Mathlib.Analysis.SpecialFunctions.Complex.Log
import Mathlib.Algebra.Ring.GeomSum

/-!
# C181: rings

A ring of `n` edges has one harmonic flow, the circulation around it.  Its components and its frequencies are
explicit.  With at most 198 edges the default tolerance finds the harmonic flow; from 199 edges on the smallest
frequency is below it.
-/

namespace Pytspl

open Matrix

variable {lib : NumLib} {sc : SC ℝ}

/-- the `i`-th edge joins the nodes `i` and `i + 1`, the last one the nodes `n - 1` and `0`; the sign says whether
it is stored in this direction -/
structure SC.IsRing (sc : SC ℝ) (s : Fin sc.E → ℝ) : Prop where
  wellFormed : sc.WellFormed
  size : sc.nodes.length = sc.edges.length
  hollow : sc.triangles = []
  nonempty : 0 < sc.E
  joins : ∀ i : Fin sc.E,
    (sc.edges[i] = (((i : ℕ) : Int), ((((i : ℕ) + 1) % sc.E : ℕ) : Int)) ∧ s i = 1) ∨
    (sc.edges[i] = (((((i : ℕ) + 1) % sc.E : ℕ) : Int), ((i : ℕ) : Int)) ∧ s i = -1)

variable {s : Fin sc.E → ℝ}

private theorem sign_sq (h : sc.IsRing s) (i : Fin sc.E) : s i * s i = 1 := by
  rcases h.joins i with ⟨-, e⟩ | ⟨-, e⟩ <;> rw [e] <;> norm_num

/-- potential differences along the ring -/
private theorem ring_diff (h : sc.IsRing s) (φ : ℕ → ℝ) (i : Fin sc.E) :
    s i * sc.B1.transpose.mulVec (fun v : Fin sc.N => φ v) i = φ (((i : ℕ) + 1) % sc.E) - φ i := by
  have hv : ∀ k : ℕ, k < sc.E → valueAt (fun v : Fin sc.N => φ v) ((k : ℕ) : Int) = φ k := by
    intro k hk
    have hN : sc.N = sc.E := h.size
    unfold valueAt
    rw [dif_pos ⟨by omega, by rw [hN]; omega⟩]
    simp
  have h1 := hv i i.isLt
  have h2 := hv (((i : ℕ) + 1) % sc.E) (Nat.mod_lt _ h.nonempty)
  rw [b1_transpose_apply h.wellFormed.built h.wellFormed.inRange h.wellFormed.noLoops]
  rcases h.joins i with ⟨e, es⟩ | ⟨e, es⟩
  · rw [e, es, h1, h2, one_mul]
  · rw [e, es, h1, h2]; ring

private theorem cyclic {n : ℕ} (hn : 0 < n) (ψ : ℕ → ℝ) :
    ∑ i ∈ Finset.range n, ψ ((i + 1) % n) = ∑ i ∈ Finset.range n, ψ i := by
  obtain ⟨m, rfl⟩ : ∃ m, n = m + 1 := ⟨n - 1, by omega⟩
  rw [Finset.sum_range_succ, Nat.mod_self, Finset.sum_range_succ' (fun i => ψ i)]
  congr 1
  refine Finset.sum_congr rfl fun i hi => ?_
  rw [Nat.mod_eq_of_lt (by have := Finset.mem_range.1 hi; omega)]

/-- the divergence of the flow `a` along the ring -/
private theorem ring_div (h : sc.IsRing s) (a : ℕ → ℝ) (ha : ∀ k, a (k + sc.E) = a k) :
    sc.getDivergence (fun i => s i * a i) = fun v : Fin sc.N => a (v + sc.E - 1) - a v := by
  have hE := h.nonempty
  have key : ∀ φ : ℕ → ℝ, (fun v : Fin sc.N => φ v) ⬝ᵥ sc.getDivergence (fun i => s i * a i) =
      (fun v : Fin sc.N => φ v) ⬝ᵥ fun v : Fin sc.N => a (v + sc.E - 1) - a v := by
    intro φ
    have e1 : (fun v : Fin sc.N => φ v) ⬝ᵥ sc.getDivergence (fun i => s i * a i) =
        ∑ i : Fin sc.E, a i * (φ (((i : ℕ) + 1) % sc.E) - φ i) := by
      rw [SC.getDivergence, dotProduct_mulVec, ← mulVec_transpose]
      refine Finset.sum_congr rfl fun i _ => ?_
      rw [← ring_diff h φ i]
      ring
    have e2 : (fun v : Fin sc.N => φ v) ⬝ᵥ (fun v : Fin sc.N => a (v + sc.E - 1) - a v) =
        ∑ v ∈ Finset.range sc.E, φ v * (a (v + sc.E - 1) - a v) := by
      have hN : sc.N = sc.E := h.size
      rw [← hN]
      exact Fin.sum_univ_eq_sum_range (fun v => φ v * (a (v + sc.N - 1) - a v)) sc.N
    rw [e1, e2, Fin.sum_univ_eq_sum_range (fun i => a i * (φ ((i + 1) % sc.E) - φ i)) sc.E]
    simp only [mul_sub, Finset.sum_sub_distrib]
    rw [← cyclic hE fun v => φ v * a (v + sc.E - 1)]
    congr 1
    · refine Finset.sum_congr rfl fun i hi => ?_
      have hi := Finset.mem_range.1 hi
      rcases Nat.lt_or_ge (i + 1) sc.E with h1 | h1
      · rw [Nat.mod_eq_of_lt h1, show i + 1 + sc.E - 1 = i + sc.E by omega, ha]; ring
      · have : i + 1 = sc.E := by omega
        rw [this, Nat.mod_self, show 0 + sc.E - 1 = i by omega]; ring
    · exact Finset.sum_congr rfl fun i _ => mul_comm _ _
  have hd : sc.getDivergence (fun i => s i * a i) - (fun v : Fin sc.N => a (v + sc.E - 1) - a v) = 0 := by
    rw [← dotProduct_self_eq_zero, dotProduct_sub]
    set d := sc.getDivergence (fun i => s i * a i) - fun v : Fin sc.N => a (v + sc.E - 1) - a v
    have := key fun k => if hk : k < sc.N then d ⟨k, hk⟩ else 0
    simp only [Fin.is_lt, dif_pos, Fin.eta] at this
    rw [this, sub_self]
  exact sub_eq_zero.1 hd

private theorem no_curl (h : sc.IsRing s) (f : Fin sc.E → ℝ) : sc.getCurl f = 0 := by
  ext t
  have := t.isLt
  simp only [SC.T, h.hollow, List.length_nil] at this
  omega

private theorem ring_harmonic (h : sc.IsRing s) (c : ℝ) : sc.getDivergence (c • s) = 0 := by
  have := ring_div h (fun _ => c) (fun _ => rfl)
  have e : (fun i => s i * c) = c • s := by ext i; rw [Pi.smul_apply, smul_eq_mul, mul_comm]
  rw [e] at this
  rw [this]
  ext v
  simp

/-- the mean of the flow around the ring -/
noncomputable def circulation (s f : Fin sc.E → ℝ) : ℝ := (∑ i, s i * f i) / sc.E

/-- C181: on a ring the harmonic component of a flow is its mean circulation, sent around the ring; the rest is
the gradient component, and the curl component is zero. -/
theorem C181_components (h : sc.IsRing s) (f : Fin sc.E → ℝ) :
    HodgeParts lib sc f (f - circulation s f • s) 0 (circulation s f • s) := by
  have hE := h.nonempty
  have hEr : (0 : ℝ) < sc.E := by exact_mod_cast hE
  refine C23_unique h.wellFormed f _ _ _ (by rw [add_zero, sub_add_cancel]) ?_ ⟨0, by rw [mulVec_zero]⟩
    (ring_harmonic h _) (no_curl h _)
  set c := circulation s f with hc
  let g : ℕ → ℝ := fun k => if hk : k < sc.E then s ⟨k, hk⟩ * f ⟨k, hk⟩ - c else 0
  have hg : ∀ i : Fin sc.E, g i = s i * f i - c := fun i => dif_pos i.isLt
  have hsum : ∑ k ∈ Finset.range sc.E, g k = 0 := by
    rw [← Fin.sum_univ_eq_sum_range, Finset.sum_congr rfl fun i _ => hg i, Finset.sum_sub_distrib, Finset.sum_const,
      Finset.card_univ, Fintype.card_fin, nsmul_eq_mul, hc, circulation, mul_div_cancel₀ _ hEr.ne', sub_self]
  refine ⟨fun v : Fin sc.N => ∑ k ∈ Finset.range v, g k, ?_⟩
  ext i
  have h1 := ring_diff h (fun v => ∑ k ∈ Finset.range v, g k) i
  have h2 : (∑ k ∈ Finset.range (((i : ℕ) + 1) % sc.E), g k) - ∑ k ∈ Finset.range i, g k = g i := by
    rcases Nat.lt_or_ge ((i : ℕ) + 1) sc.E with hi | hi
    · rw [Nat.mod_eq_of_lt hi, Finset.sum_range_succ, add_sub_cancel_left]
    · have hi' : (i : ℕ) + 1 = sc.E := by have := i.isLt; omega
      rw [hi', Nat.mod_self, Finset.sum_range_zero, zero_sub]
      rw [← hi', Finset.sum_range_succ] at hsum
      linarith
  rw [h2, hg] at h1
  have h3 := sign_sq h i
  have h4 : sc.B1.transpose.mulVec (fun v : Fin sc.N => ∑ k ∈ Finset.range v, g k) i =
      s i * (s i * sc.B1.transpose.mulVec (fun v : Fin sc.N => ∑ k ∈ Finset.range v, g k) i) := by
    rw [← mul_assoc, h3, one_mul]
  rw [h4, h1, Pi.sub_apply, Pi.smul_apply, smul_eq_mul]
  linear_combination -(f i) * h3

/-- C181: the only flows without divergence are the multiples of the circulation. -/
theorem C181_harmonic_space (h : sc.IsRing s) (f : Fin sc.E → ℝ) :
    sc.getDivergence f = 0 ↔ ∃ c : ℝ, f = c • s := by
  obtain ⟨lib⟩ := NumLib.exists
  constructor
  · intro hd
    have h1 : HodgeParts lib sc f 0 0 f := C23_unique h.wellFormed f 0 0 f (by simp) ⟨0, by simp⟩ ⟨0, by simp⟩ hd
      (no_curl h f)
    have h2 := C181_components (lib := lib) h f
    exact ⟨_, Except.ok.inj (h1.harm.symm.trans h2.harm)⟩
  · rintro ⟨c, rfl⟩
    exact ring_harmonic h c

/-! ## Frequencies -/

private theorem ring_laplacian (h : sc.IsRing s) (a : ℕ → ℝ) (ha : ∀ k, a (k + sc.E) = a k) {lam : ℝ}
    (hl : ∀ k, 2 * a k - a (k + 1) - a (k + sc.E - 1) = lam * a k) :
    sc.L1.mulVec (fun i => s i * a i) = lam • fun i => s i * a i := by
  have hE := h.nonempty
  have hu : sc.L1u.mulVec (fun i => s i * a i) = 0 := by
    have := no_curl h fun i => s i * a i
    rw [SC.getCurl] at this
    rw [SC.L1u, ← mulVec_mulVec, this, mulVec_zero]
  have hd := ring_div h a ha
  rw [SC.L1, add_mulVec, hu, add_zero, SC.L1l, ← mulVec_mulVec]
  rw [SC.getDivergence] at hd
  rw [hd]
  ext i
  have h1 := ring_diff h (fun v => a (v + sc.E - 1) - a v) i
  have h3 := sign_sq h i
  have h2 : (a (((i : ℕ) + 1) % sc.E + sc.E - 1) - a (((i : ℕ) + 1) % sc.E)) = a i - a (i + 1) := by
    have := i.isLt
    rcases Nat.lt_or_ge ((i : ℕ) + 1) sc.E with hi | hi
    · rw [Nat.mod_eq_of_lt hi, show (i : ℕ) + 1 + sc.E - 1 = i + sc.E by omega, ha]
    · have hi' : (i : ℕ) + 1 = sc.E := by omega
      rw [hi', Nat.mod_self, show 0 + sc.E - 1 = (i : ℕ) by omega, ← ha 0, Nat.zero_add]
  rw [h2] at h1
  have h4 := hl i
  rw [Pi.smul_apply, smul_eq_mul]
  linear_combination (-(sc.B1.transpose.mulVec (fun v : Fin sc.N => a (v + sc.E - 1) - a v) i)) * h3 + s i * h1 +
    s i * h4

/-- C181: for every whole number `k` the waves with `k` periods around the ring have the frequency
`2 - 2 cos (2πk/n)`. -/
theorem C181_frequencies (h : sc.IsRing s) (k : ℕ) :
    sc.L1.mulVec (fun i => s i * Real.cos (2 * Real.pi * k / sc.E * i)) =
      (2 - 2 * Real.cos (2 * Real.pi * k / sc.E)) • (fun i => s i * Real.cos (2 * Real.pi * k / sc.E * i)) ∧
    sc.L1.mulVec (fun i => s i * Real.sin (2 * Real.pi * k / sc.E * i)) =
      (2 - 2 * Real.cos (2 * Real.pi * k / sc.E)) • (fun i => s i * Real.sin (2 * Real.pi * k / sc.E * i)) := by
  have hE := h.nonempty
  have hEr : (sc.E : ℝ) ≠ 0 := by exact_mod_cast hE.ne'
  set θ := 2 * Real.pi * k / sc.E with hθ
  have hn : θ * sc.E = k * (2 * Real.pi) := by rw [hθ]; field_simp
  have e1 : ∀ j : ℕ, θ * ((j + sc.E : ℕ) : ℝ) = θ * j + k * (2 * Real.pi) := fun j => by
    push_cast; rw [mul_add, hn]
  have e2 : ∀ j : ℕ, θ * ((j + sc.E - 1 : ℕ) : ℝ) = (θ * j - θ) + k * (2 * Real.pi) := fun j => by
    rw [Nat.cast_sub (by omega)]
    push_cast
    linear_combination hn
  have e3 : ∀ j : ℕ, θ * ((j + 1 : ℕ) : ℝ) = θ * j + θ := fun j => by push_cast; ring
  constructor
  · refine ring_laplacian h (fun j => Real.cos (θ * j)) (fun j => ?_) fun j => ?_
    · simp only [e1, Real.cos_add_nat_mul_two_pi]
    · simp only [e2, e3, Real.cos_add_nat_mul_two_pi]
      rw [Real.cos_add, Real.cos_sub]; ring
  · refine ring_laplacian h (fun j => Real.sin (θ * j)) (fun j => ?_) fun j => ?_
    · simp only [e1, Real.sin_add_nat_mul_two_pi]
    · simp only [e2, e3, Real.sin_add_nat_mul_two_pi]
      rw [Real.sin_add, Real.sin_sub]; ring

/-- the waves are orthogonal -/
theorem wave_sum {n m : ℕ} (hm : 0 < m) (hmn : m < n) :
    ∑ k ∈ Finset.range n, Real.cos (2 * Real.pi * k / n * m) = 0 := by
  have hn : (n : ℂ) ≠ 0 := by exact_mod_cast (show n ≠ 0 by omega)
  have hnr : (n : ℝ) ≠ 0 := by exact_mod_cast (show n ≠ 0 by omega)
  let x : ℂ := Complex.exp (m * (2 * Real.pi * Complex.I) / n)
  have hx1 : x ≠ 1 := by
    intro h1
    obtain ⟨z, hz⟩ := Complex.exp_eq_one_iff.1 h1
    have hne : (2 * (Real.pi : ℂ) * Complex.I) ≠ 0 := Complex.two_pi_I_ne_zero
    have h2 : (m : ℂ) = z * n := by
      rw [div_eq_iff hn] at hz
      have : (m : ℂ) * (2 * Real.pi * Complex.I) = (z * n) * (2 * Real.pi * Complex.I) := by rw [hz]; ring
      exact mul_right_cancel₀ hne this
    have h3 : (m : ℤ) = z * n := by exact_mod_cast h2
    have h4 : (n : ℤ) ∣ m := ⟨z, by rw [h3]; ring⟩
    have := Int.le_of_dvd (by omega) h4
    omega
  have hxn : x ^ n = 1 := by
    rw [← Complex.exp_nat_mul, Complex.exp_eq_one_iff]
    exact ⟨m, by push_cast; field_simp⟩
  have hs : ∑ k ∈ Finset.range n, x ^ k = 0 := by
    have := geom_sum_mul x n
    rw [hxn, sub_self] at this
    exact (mul_eq_zero.1 this).resolve_right (sub_ne_zero.2 hx1)
  have hre : ∀ k : ℕ, (x ^ k).re = Real.cos (2 * Real.pi * k / n * m) := by
    intro k
    rw [← Complex.exp_nat_mul]
    have : (k : ℂ) * (m * (2 * Real.pi * Complex.I) / n) =
        ((2 * Real.pi * k / n * m : ℝ) : ℂ) * Complex.I := by push_cast; ring
    rw [this, Complex.exp_ofReal_mul_I_re]
  have := congrArg Complex.re hs
  rw [Complex.re_sum, Finset.sum_congr rfl fun k _ => hre k] at this
  simpa using this

/-- C181: there are no other frequencies. -/
theorem C181_spectrum (h : sc.IsRing s) {lam : ℝ} (hl : IsEigenvalue sc.L1 lam) :
    ∃ k < sc.E, lam = 2 - 2 * Real.cos (2 * Real.pi * k / sc.E) := by
  have hE := h.nonempty
  have hEr : (sc.E : ℝ) ≠ 0 := by exact_mod_cast hE.ne'
  obtain ⟨v, hv, hlv⟩ := hl
  by_contra hcon
  push Not at hcon
  have hsym : ∀ (w : Fin sc.E → ℝ) (mu : ℝ), sc.L1.mulVec w = mu • w → lam ≠ mu → v ⬝ᵥ w = 0 := by
    intro w mu hw hne
    have h1 : v ⬝ᵥ sc.L1.mulVec w = sc.L1.mulVec v ⬝ᵥ w := by
      rw [dotProduct_mulVec, ← mulVec_transpose, (symmPSD_L1 sc).1]
    rw [hw, hlv, dotProduct_smul, smul_dotProduct, smul_eq_mul, smul_eq_mul] at h1
    have : (lam - mu) * (v ⬝ᵥ w) = 0 := by linarith
    exact (mul_eq_zero.1 this).resolve_left (sub_ne_zero.2 hne)
  have hc : ∀ k < sc.E, ∑ i : Fin sc.E, v i * (s i * Real.cos (2 * Real.pi * k / sc.E * i)) = 0 := fun k hk =>
    hsym _ _ (C181_frequencies h k).1 (hcon k hk)
  have hs : ∀ k < sc.E, ∑ i : Fin sc.E, v i * (s i * Real.sin (2 * Real.pi * k / sc.E * i)) = 0 := fun k hk =>
    hsym _ _ (C181_frequencies h k).2 (hcon k hk)
  have hortho : ∀ i j : Fin sc.E, ∑ k ∈ Finset.range sc.E,
      Real.cos (2 * Real.pi * k / sc.E * i - 2 * Real.pi * k / sc.E * j) = if i = j then (sc.E : ℝ) else 0 := by
    intro i j
    rcases lt_trichotomy (i : ℕ) (j : ℕ) with hij | hij | hij
    · rw [if_neg (fun e => by rw [e] at hij; omega), ← wave_sum (n := sc.E) (m := j - i) (by omega) (by omega)]
      refine Finset.sum_congr rfl fun k _ => ?_
      rw [← Real.cos_neg, Nat.cast_sub hij.le]
      congr 1
      ring
    · rw [if_pos (Fin.ext hij), hij]
      simp
    · rw [if_neg (fun e => by rw [e] at hij; omega), ← wave_sum (n := sc.E) (m := i - j) (by omega) (by omega)]
      refine Finset.sum_congr rfl fun k _ => ?_
      rw [Nat.cast_sub hij.le]
      congr 1
      ring
  apply hv
  ext j
  have h0 : ∑ k ∈ Finset.range sc.E, ((∑ i : Fin sc.E, v i * (s i * Real.cos (2 * Real.pi * k / sc.E * i))) *
      Real.cos (2 * Real.pi * k / sc.E * j) + (∑ i : Fin sc.E, v i * (s i * Real.sin (2 * Real.pi * k / sc.E * i))) *
      Real.sin (2 * Real.pi * k / sc.E * j)) = 0 := by
    refine Finset.sum_eq_zero fun k hk => ?_
    rw [hc k (Finset.mem_range.1 hk), hs k (Finset.mem_range.1 hk), zero_mul, zero_mul, add_zero]
  have h1 : ∑ k ∈ Finset.range sc.E, ((∑ i : Fin sc.E, v i * (s i * Real.cos (2 * Real.pi * k / sc.E * i))) *
      Real.cos (2 * Real.pi * k / sc.E * j) + (∑ i : Fin sc.E, v i * (s i * Real.sin (2 * Real.pi * k / sc.E * i))) *
      Real.sin (2 * Real.pi * k / sc.E * j)) = ∑ i : Fin sc.E, v i * s i * (if i = j then (sc.E : ℝ) else 0) := by
    simp only [← hortho, Finset.mul_sum]
    rw [Finset.sum_comm]
    refine Finset.sum_congr rfl fun k _ => ?_
    rw [Finset.sum_mul, Finset.sum_mul, ← Finset.sum_add_distrib]
    refine Finset.sum_congr rfl fun i _ => ?_
    rw [Real.cos_sub]
    ring
  rw [h1] at h0
  simp only [mul_ite, mul_zero, Finset.sum_ite_eq', Finset.mem_univ, if_true] at h0
  have h2 := (mul_eq_zero.1 h0).resolve_right hEr
  have h3 := sign_sq h j
  have : v j = (v j * s j) * s j := by rw [mul_assoc, h3, mul_one]
  rw [this, h2, zero_mul]
  rfl

/-! ## The default tolerance -/

private theorem two_edges (h : sc.IsRing s) : 2 ≤ sc.E := by
  have hE := h.nonempty
  by_contra h1
  have h1 : sc.E = 1 := by omega
  have hl := h.wellFormed.noLoops sc.edges[(⟨0, hE⟩ : Fin sc.E)] (List.getElem_mem _)
  rcases h.joins ⟨0, hE⟩ with ⟨e, -⟩ | ⟨e, -⟩ <;>
  · rw [e] at hl
    apply hl
    simp [h1]

/-- C181: with at most 198 edges no frequency is mistaken for zero. -/
theorem C181_gap (h : sc.IsRing s) (hn : sc.E ≤ 198) : NoSmallEigenvalue sc.L1 (1 / 1000) := by
  intro lam v hv hl hc
  obtain ⟨k, hk, rfl⟩ := C181_spectrum h ⟨v, hv, hl⟩
  have hE2 := two_edges h
  have hEr : (0 : ℝ) < sc.E := by exact_mod_cast h.nonempty
  have hk0 : k ≠ 0 := by
    rintro rfl
    have := hc.1
    simp at this
  have hp := Real.pi_pos
  have hk1 : (1 : ℝ) ≤ k := by exact_mod_cast Nat.one_le_iff_ne_zero.2 hk0
  have hk2 : (k : ℝ) + 1 ≤ sc.E := by exact_mod_cast hk
  have hE198 : (sc.E : ℝ) ≤ 198 := by exact_mod_cast hn
  set x := 2 * Real.pi * k / sc.E with hx
  set y := 2 * Real.pi / 198 with hy
  have hxy : y ≤ x := by
    rw [hx, hy, div_le_div_iff₀ (by norm_num) hEr]
    nlinarith
  have hxy' : y ≤ 2 * Real.pi - x := by
    have e : 2 * Real.pi - x = 2 * Real.pi * (sc.E - k) / sc.E := by rw [hx]; field_simp
    rw [e, hy, div_le_div_iff₀ (by norm_num) hEr]
    nlinarith
  have hy0 : 0 < y := by rw [hy]; positivity
  have hcos : Real.cos x ≤ Real.cos y := by
    rcases le_total x Real.pi with h1 | h1
    · exact Real.cos_le_cos_of_nonneg_of_le_pi hy0.le h1 hxy
    · rw [← Real.cos_two_pi_sub x]
      exact Real.cos_le_cos_of_nonneg_of_le_pi hy0.le (by linarith) hxy'
  have p1 := Real.pi_gt_d2
  have p2 := Real.pi_lt_d2
  have hy1 : 0.0317 < y := by rw [hy]; linarith
  have hy2 : y < 0.032 := by rw [hy]; linarith
  have hb := Real.cos_bound (x := y) (by rw [abs_of_pos hy0]; linarith)
  rw [abs_of_pos hy0] at hb
  have hb' := (abs_le.1 hb).2
  have h4 : y ^ 4 ≤ 0.0000011 := by
    have : y ^ 2 ≤ 0.032 ^ 2 := by nlinarith
    have h5 : y ^ 4 = y ^ 2 * y ^ 2 := by ring
    rw [h5]
    nlinarith [sq_nonneg y]
  have h2 : 0.0317 ^ 2 < y ^ 2 := by nlinarith
  have := hc.2
  norm_num at h2 h4 hb' this
  linarith

/-- C181: with at most 198 edges `get_component_eigenpair("harmonic")` with the default tolerance returns one
eigenvector, a multiple of the circulation. -/
theorem C181_default (h : sc.IsRing s) (hn : sc.E ≤ 198) :
    ∃ eh, sc.getComponentEigenpair lib "harmonic" = .ok eh ∧ eh.num = 1 ∧
      ∀ j, ∃ c : ℝ, c ≠ 0 ∧ (fun k => eh.vecs k j) = c • s := by
  obtain ⟨eh, he, ho, hf⟩ := C31_harmonic_space_partial (lib := lib) h.wellFormed (C181_gap h hn) h.nonempty
  have hE := h.nonempty
  have hs0 : s ≠ 0 := by
    intro h0
    have := sign_sq h ⟨0, hE⟩
    rw [h0] at this
    simp at this
  have d : ∀ i j : Fin eh.num, (fun k => eh.vecs k i) ⬝ᵥ (fun k => eh.vecs k j) = if i = j then 1 else 0 := by
    intro i j
    have := congrFun (congrFun ho i) j
    rw [Matrix.one_apply] at this
    exact this
  have hc : ∀ j, ∃ c : ℝ, c ≠ 0 ∧ (fun k => eh.vecs k j) = c • s := by
    intro j
    have h1 : eh.vecs.mulVec (Pi.single j 1) = fun k => eh.vecs k j := by
      rw [mulVec_single_one]; rfl
    obtain ⟨c, hc⟩ := (C181_harmonic_space h _).1 ((hf _).2 ⟨_, h1⟩).1
    refine ⟨c, ?_, hc⟩
    rintro rfl
    have := d j j
    rw [hc, zero_smul, zero_dotProduct, if_pos rfl] at this
    exact zero_ne_one this
  refine ⟨eh, he, le_antisymm ?_ ?_, hc⟩
  · by_contra h2
    have h2 : 2 ≤ eh.num := by omega
    obtain ⟨a, ha, e1⟩ := hc ⟨0, by omega⟩
    obtain ⟨b, hb, e2⟩ := hc ⟨1, by omega⟩
    have d3 := d ⟨0, by omega⟩ ⟨1, by omega⟩
    rw [if_neg (by simp), e1, e2, smul_dotProduct, dotProduct_smul, smul_eq_mul, smul_eq_mul] at d3
    have hss : s ⬝ᵥ s ≠ 0 := fun e => hs0 (dotProduct_self_eq_zero.1 e)
    exact mul_ne_zero ha (mul_ne_zero hb hss) d3
  · by_contra h2
    have h2 : eh.num = 0 := by omega
    obtain ⟨a, ha⟩ := (hf s).1 ⟨by simpa using ring_harmonic h 1, no_curl h s⟩
    apply hs0
    rw [← ha]
    ext k
    show ∑ j : Fin eh.num, eh.vecs k j * a j = 0
    exact Finset.sum_eq_zero fun j _ => absurd j.isLt (by omega)

/-- C181: with 199 or more edges it is: `get_component_eigenpair("harmonic")` with the default tolerance returns
several eigenvectors although the ring has one harmonic flow, and one of them has divergence. -/
theorem C181_tolerance (h : sc.IsRing s) (hn : 199 ≤ sc.E) :
    ∃ eh, sc.getComponentEigenpair lib "harmonic" = .ok eh ∧ 2 ≤ eh.num ∧
      ∃ j, sc.getDivergence (fun k => eh.vecs k j) ≠ 0 := by
  have hE := h.nonempty
  have hEr : (199 : ℝ) ≤ sc.E := by exact_mod_cast hn
  have iH := lib.isEig (symmPSD_L1 sc)
  set x := 2 * Real.pi * (1 : ℕ) / sc.E with hx
  have p2 := Real.pi_lt_d4
  have hp := Real.pi_pos
  have hx0 : 0 < x := by rw [hx]; push_cast; positivity
  have hx1 : x ≤ 2 * 3.1416 / 199 := by
    rw [hx]
    push_cast
    rw [div_le_div_iff₀ (by linarith) (by norm_num)]
    nlinarith
  have hpi : x < Real.pi := by have := Real.pi_gt_d2; norm_num at hx1; linarith
  have hl0 : 0 < 2 - 2 * Real.cos x := by
    have := Real.cos_lt_cos_of_nonneg_of_le_pi le_rfl hpi.le hx0
    rw [Real.cos_zero] at this
    linarith
  have hl1 : 2 - 2 * Real.cos x ≤ 1 / 1000 := by
    have h1 := Real.one_sub_sq_div_two_le_cos (x := x)
    have h2 : x ^ 2 ≤ (2 * 3.1416 / 199) ^ 2 := by nlinarith
    norm_num at h2
    linarith
  have hs0 : s ≠ 0 := by
    intro h0
    have := sign_sq h ⟨0, hE⟩
    rw [h0] at this
    simp at this
  have hL0 : sc.L1.mulVec s = (0 : ℝ) • s := by
    rw [zero_smul]
    exact (C12_hodge_kernel sc s).2 ⟨by simpa using ring_harmonic h 1, no_curl h s⟩
  have hw0 : (fun i : Fin sc.E => s i * Real.cos (x * i)) ≠ 0 := by
    intro h0
    have h1 := congrFun h0 ⟨0, hE⟩
    have h2 := sign_sq h ⟨0, hE⟩
    simp only [Nat.cast_zero, mul_zero, Real.cos_zero, mul_one, Pi.zero_apply] at h1
    rw [h1] at h2
    simp at h2
  obtain ⟨i0, e0⟩ := iH.mem_of_eigen hs0 hL0
  obtain ⟨i1, e1⟩ := iH.mem_of_eigen hw0 (C181_frequencies h 1).1
  have e1 : (lib.eigh sc.E sc.L1).1 i1 = 2 - 2 * Real.cos x := e1
  obtain ⟨eh, ec, eg, he⟩ := EigParts.exists lib sc (1 / 1000) hE
  have hh : getHarmonicEigenpair lib (.ndarray sc.L1) (1 / 1000) = .ok eh := he.harm
  rw [getHarmonicEigenpair, getEigendecomposition_dense lib hE] at hh
  have heq := Except.ok.inj hh
  have hnum : 2 ≤ eh.num := by
    rw [← heq, sel_num]
    have hmem : ∀ i, (lib.eigh _ sc.L1).1 i ≤ 1 / 1000 →
        (if |(lib.eigh sc.E sc.L1).1 i| < machineEps then 0 else (lib.eigh sc.E sc.L1).1 i) ≤ 1 / 1000 := by
      intro i hi
      split
      · norm_num
      · exact hi
    have hne : i0 ≠ i1 := by
      rintro rfl
      rw [e0] at e1
      linarith
    refine Nat.succ_le_of_lt (Fintype.one_lt_card_iff.2 ⟨⟨i0, hmem i0 (by rw [e0]; norm_num)⟩,
      ⟨i1, hmem i1 (by rw [e1]; exact hl1)⟩, fun e => hne (congrArg Subtype.val e)⟩)
  refine ⟨eh, he.harm, hnum, ?_⟩
  have ho : eh.vecs.transpose * eh.vecs = 1 := by
    rw [← heq]
    exact sel_orth (A := (lib.eigh sc.E sc.L1).2 * diagonal _ * (lib.eigh sc.E sc.L1).2.transpose)
      ⟨iH.orth, by rw [Matrix.mul_assoc, iH.orth, Matrix.mul_one]⟩
  by_contra hcon
  push Not at hcon
  have j0 : Fin eh.num := ⟨0, by omega⟩
  obtain ⟨a, ha⟩ := (C181_harmonic_space h _).1 (hcon ⟨0, by omega⟩)
  obtain ⟨b, hb⟩ := (C181_harmonic_space h _).1 (hcon ⟨1, by omega⟩)
  have d : ∀ i j : Fin eh.num, (fun k => eh.vecs k i) ⬝ᵥ (fun k => eh.vecs k j) = if i = j then 1 else 0 := by
    intro i j
    have := congrFun (congrFun ho i) j
    rw [Matrix.one_apply] at this
    exact this
  have d1 := d ⟨0, by omega⟩ ⟨0, by omega⟩
  have d2 := d ⟨1, by omega⟩ ⟨1, by omega⟩
  have d3 := d ⟨0, by omega⟩ ⟨1, by omega⟩
  rw [if_pos rfl, ha, smul_dotProduct, dotProduct_smul, smul_eq_mul, smul_eq_mul] at d1
  rw [if_pos rfl, hb, smul_dotProduct, dotProduct_smul, smul_eq_mul, smul_eq_mul] at d2
  rw [if_neg (by simp), ha, hb, smul_dotProduct, dotProduct_smul, smul_eq_mul, smul_eq_mul] at d3
  have : (a * (a * (s ⬝ᵥ s))) * (b * (b * (s ⬝ᵥ s))) = (a * (b * (s ⬝ᵥ s))) ^ 2 := by ring
  rw [d1, d2, d3] at this
  norm_num at this

/-! ## Rings exist -/

/-- edges of the ring `0 - 1 - ... - (n-1) - 0`, the last one stored from the smaller to the larger node -/
def ringEdges (n : ℕ) : List Edge :=
  (List.range n).map fun i : ℕ => if i + 1 < n then ((i : Int), (i : Int) + 1) else (0, (i : Int))

theorem ring_exists (n : ℕ) (hn : 2 ≤ n) : ∃ (sc : SC ℝ) (s : Fin sc.E → ℝ), sc.IsRing s ∧ sc.E = n := by
  obtain ⟨sc, h, hw⟩ := SC.exists_wellFormed ℝ ((List.range n).map fun i : ℕ => (i : Int)) (ringEdges n) [] [] [] (by
      intro e he
      simp only [ringEdges, List.mem_map, List.mem_range] at he
      obtain ⟨i, hi, rfl⟩ := he
      simp only [List.length_map, List.length_range]
      split <;> simp only <;> omega) (by
      intro e he
      simp only [ringEdges, List.mem_map, List.mem_range] at he
      obtain ⟨i, hi, rfl⟩ := he
      split <;> simp only <;> omega) (by
      intro t ht
      simp at ht)
  obtain ⟨h1, h2, h3, -, -, -⟩ := SC.init_ok h
  have hE : sc.E = n := by simp [SC.E, h2, ringEdges]
  refine ⟨sc, fun i => if (i : ℕ) + 1 < n then 1 else -1, ⟨hw, ?_, h3, by omega, fun i => ?_⟩, hE⟩
  · rw [h1, h2]; simp [ringEdges]
  · have hi : (i : ℕ) < n := by have := i.isLt; omega
    have e : sc.edges[i] = if (i : ℕ) + 1 < n then (((i : ℕ) : Int), ((i : ℕ) : Int) + 1) else (0, ((i : ℕ) : Int)) := by
      simp only [Fin.getElem_fin, h2, ringEdges, List.getElem_map, List.getElem_range]
    have hm : ((i : ℕ) + 1) % sc.E = ((i : ℕ) + 1) % n := congrArg (fun m => ((i : ℕ) + 1) % m) hE
    rw [e, hm]
    by_cases hc : (i : ℕ) + 1 < n
    · left
      rw [if_pos hc, if_pos hc, Nat.mod_eq_of_lt hc]
      simp
    · right
      have : (i : ℕ) + 1 = n := by omega
      rw [if_neg hc, if_neg hc, this, Nat.mod_self]
      simp

/-- A ring of 199 edges, on which the default tolerance fails. -/
example : ∃ (sc : SC ℝ) (s : Fin sc.E → ℝ), sc.IsRing s ∧ 199 ≤ sc.E := by
  obtain ⟨sc, s, h, e⟩ := ring_exists 199 (by norm_num)
  exact ⟨sc, s, h, e.ge⟩

end Pytspl
