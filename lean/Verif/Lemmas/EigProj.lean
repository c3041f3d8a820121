import Verif.Lemmas.Spectral
import Verif.Lemmas.EigSelect
import Verif.Lemmas.PolyFit
import Verif.Props.Hodge
import Verif.Props.Operators

/-!
# Filters that act as 0 or 1 on an eigenbasis
-/

namespace Pytspl

open Matrix Polynomial

variable {n m : ℕ} {lib : NumLib} {sc : SC ℝ}

/-- `H` is 0 on the kernel of `P` and 1 on the other eigenvectors -/
theorem IsEig.proj_factor {P U H : Matrix (Fin n) (Fin n) ℝ} {w : Fin n → ℝ} (h : IsEig P U w)
    (hH : H * U = U * diagonal fun i => if w i = 0 then 0 else 1) :
    P * H = P ∧ ∃ G, H = P * G := by
  have hH' : H = U * diagonal (fun i => if w i = 0 then (0 : ℝ) else 1) * U.transpose := by
    rw [← hH, Matrix.mul_assoc, h.orth', Matrix.mul_one]
  constructor
  · rw [hH', ← Matrix.mul_assoc, ← Matrix.mul_assoc, h.eig, Matrix.mul_assoc U, diagonal_mul_diagonal]
    conv_rhs => rw [h.recon]
    congr 3
    funext i
    split_ifs with h0 <;> simp [h0]
  · refine ⟨U * diagonal (fun i => (w i)⁻¹) * U.transpose, ?_⟩
    rw [hH', ← Matrix.mul_assoc, ← Matrix.mul_assoc, h.eig, Matrix.mul_assoc U (diagonal w),
      diagonal_mul_diagonal]
    congr 3
    funext i
    split_ifs with h0
    · simp [h0]
    · rw [mul_inv_cancel₀ h0]

theorem mulVec_transpose_eq_zero {A : Matrix (Fin n) (Fin m) ℝ} {x : Fin n → ℝ}
    (h : (A * A.transpose).mulVec x = 0) : A.transpose.mulVec x = 0 := by
  apply dotProduct_self_eq_zero.mp
  rw [← mulVec_mulVec] at h
  have := dot_mulVec_transpose A x (A.transpose.mulVec x)
  rw [h, dotProduct_zero] at this
  exact this.symm

theorem IsEig.isProj {A : Matrix (Fin n) (Fin m) ℝ} {U H : Matrix (Fin n) (Fin n) ℝ} {w : Fin n → ℝ}
    (h : IsEig (A * A.transpose) U w)
    (hH : H * U = U * diagonal fun i => if w i = 0 then 0 else 1) (f : Fin n → ℝ) :
    IsProj A f (H.mulVec f) := by
  obtain ⟨h1, G, h2⟩ := h.proj_factor hH
  constructor
  · exact ⟨A.transpose.mulVec (G.mulVec f), by rw [mulVec_mulVec, mulVec_mulVec, h2, Matrix.mul_assoc]⟩
  · have : (A * A.transpose).mulVec (H.mulVec f - f) = 0 := by
      rw [mulVec_sub, mulVec_mulVec, h1, sub_self]
    have := mulVec_transpose_eq_zero this
    rwa [mulVec_sub, sub_eq_zero] at this

/-- a filter that keeps exactly the kernel of the Hodge Laplacian returns the harmonic component -/
theorem harmonic_of_eig (hw : sc.WellFormed) {U H : Matrix (Fin sc.E) (Fin sc.E) ℝ} {w : Fin sc.E → ℝ}
    (h : IsEig sc.L1 U w) (hH : H * U = U * diagonal fun i => if w i = 0 then 1 else 0)
    {f hf : Fin sc.E → ℝ} (hh : sc.getComponentFlow lib f "harmonic" false = .ok hf) :
    H.mulVec f = hf := by
  have hH' : (1 - H) * U = U * diagonal fun i => if w i = 0 then 0 else 1 := by
    rw [sub_mul, hH, one_mul]
    ext i j
    simp only [Matrix.sub_apply, mul_diagonal]
    split_ifs <;> simp
  obtain ⟨h1, G, h2⟩ := h.proj_factor hH'
  have hk : sc.L1.mulVec (H.mulVec f) = 0 := by
    rw [mulVec_mulVec]
    have : sc.L1 * H = 0 := by
      rw [mul_sub, mul_one] at h1
      exact sub_eq_self.1 h1
    rw [this, zero_mulVec]
  obtain ⟨d0, c0⟩ := (C12_hodge_kernel sc _).1 hk
  unfold SC.getDivergence at d0
  unfold SC.getCurl at c0
  have hf1 : f = sc.B1.transpose.mulVec (sc.B1.mulVec (G.mulVec f)) +
      sc.B2.mulVec (sc.B2.transpose.mulVec (G.mulVec f)) + H.mulVec f := by
    have : (1 - H).mulVec f = sc.L1.mulVec (G.mulVec f) := by rw [h2, mulVec_mulVec]
    rw [sub_mulVec, one_mulVec, SC.L1, add_mulVec, SC.L1l, SC.L1u, ← mulVec_mulVec,
      ← mulVec_mulVec] at this
    rw [← this]; abel
  set g := sc.B1.transpose.mulVec (sc.B1.mulVec (G.mulVec f)) with hg
  set c := sc.B2.mulVec (sc.B2.transpose.mulVec (G.mulVec f)) with hc
  have p1 : IsProj sc.B1.transpose f g := by
    refine ⟨⟨_, hg.symm⟩, ?_⟩
    rw [transpose_transpose]
    conv_rhs => rw [hf1]
    rw [mulVec_add, mulVec_add, d0, hc, mulVec_mulVec _ sc.B1 sc.B2, hw.b1_mul_b2, zero_mulVec]
    simp
  have p2 : IsProj sc.B2 f c := by
    refine ⟨⟨_, hc.symm⟩, ?_⟩
    conv_rhs => rw [hf1]
    rw [mulVec_add, mulVec_add, c0, hg, mulVec_mulVec _ sc.B2.transpose sc.B1.transpose,
      ← transpose_mul, hw.b1_mul_b2, transpose_zero, zero_mulVec]
    simp
  have := (HodgeParts.of_proj lib p1 p2).harm
  rw [hh] at this
  rw [Except.ok.inj this]
  conv_rhs => rw [hf1]
  abel

theorem gradient_eq_of_proj {f g v : Fin sc.E → ℝ} (hg : sc.getComponentFlow lib f "gradient" false = .ok g)
    (h : IsProj sc.B1.transpose f v) : v = g := by
  obtain ⟨g', c', h', hp⟩ := HodgeParts.exists lib sc f
  have h1 := hp.grad
  rw [hg] at h1
  rw [Except.ok.inj h1]
  exact h.unique hp.proj.1

theorem curl_eq_of_proj {f g v : Fin sc.E → ℝ} (hg : sc.getComponentFlow lib f "curl" false = .ok g)
    (h : IsProj sc.B2 f v) : v = g := by
  obtain ⟨g', c', h', hp⟩ := HodgeParts.exists lib sc f
  have h1 := hp.curl
  rw [hg] at h1
  rw [Except.ok.inj h1]
  exact h.unique hp.proj.2.1

theorem gradient_of_eig {U H : Matrix (Fin sc.E) (Fin sc.E) ℝ} {w : Fin sc.E → ℝ}
    (h : IsEig sc.L1l U w) (hH : H * U = U * diagonal fun i => if w i = 0 then 0 else 1)
    {f g : Fin sc.E → ℝ} (hg : sc.getComponentFlow lib f "gradient" false = .ok g) :
    H.mulVec f = g := by
  refine gradient_eq_of_proj hg ?_
  have h' : IsEig (sc.B1.transpose * sc.B1.transpose.transpose) U w := by
    rw [transpose_transpose]; exact h
  exact h'.isProj hH f

theorem curl_of_eig {U H : Matrix (Fin sc.E) (Fin sc.E) ℝ} {w : Fin sc.E → ℝ}
    (h : IsEig sc.L1u U w) (hH : H * U = U * diagonal fun i => if w i = 0 then 0 else 1)
    {f g : Fin sc.E → ℝ} (hg : sc.getComponentFlow lib f "curl" false = .ok g) :
    H.mulVec f = g :=
  curl_eq_of_proj hg (IsEig.isProj (A := sc.B2) h hH f)

/-- an eigenvector of the Hodge Laplacian for a non-zero eigenvalue which the other part does not have -/
theorem other_part_zero {A B : Matrix (Fin n) (Fin n) ℝ} (hBA : B * A = 0) {lam : ℝ} {v : Fin n → ℝ}
    (h : (A + B).mulVec v = lam • v) (hB : ¬ IsEigenvalue B lam) : B.mulVec v = 0 := by
  by_contra hne
  refine hB ⟨B.mulVec v, hne, ?_⟩
  have h1 : B.mulVec ((A + B).mulVec v) = B.mulVec (B.mulVec v) := by
    rw [mulVec_mulVec, Matrix.mul_add, hBA, zero_add, mulVec_mulVec]
  rw [← h1, h, mulVec_smul]

theorem IsEig.of_cols {A U : Matrix (Fin n) (Fin n) ℝ} {w : Fin n → ℝ} (ho : U.transpose * U = 1)
    (h : ∀ i, A.mulVec (fun k => U k i) = w i • fun k => U k i) : IsEig A U w := by
  refine ⟨ho, ?_⟩
  ext k i
  have := congrFun (h i) k
  rw [mul_diagonal, mul_comm]
  exact this

/-- a polynomial of the matrix acts on the eigenvectors through its values -/
theorem aeval_eig (A : Matrix (Fin n) (Fin n) ℝ) (p : ℝ[X]) {lam : ℝ} {v : Fin n → ℝ}
    (h : A.mulVec v = lam • v) : (aeval A p).mulVec v = p.eval lam • v := by
  induction p using Polynomial.induction_on with
  | C a => rw [aeval_C, Algebra.algebraMap_eq_smul_one, smul_mulVec, one_mulVec, eval_C]
  | add p q hp hq => rw [map_add, add_mulVec, hp, hq, eval_add, add_smul]
  | monomial k a ih =>
    rw [pow_succ, ← mul_assoc, map_mul, aeval_X, ← mulVec_mulVec, h, mulVec_smul, ih, smul_smul]
    congr 1
    rw [eval_mul_X, mul_comm]

end Pytspl
