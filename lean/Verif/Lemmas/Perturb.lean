import Verif.Lemmas.EigSelect
import Verif.Lemmas.LeastSquares
import Verif.Lemmas.NumLibExists
import Verif.Spec.Inexact

/-!
# Eigenvectors of a slightly wrong matrix
-/

namespace Pytspl

open Matrix

variable {n : ℕ} {A U V : Matrix (Fin n) (Fin n) ℝ} {w lam : Fin n → ℝ} {δ tol : ℝ}

theorem orth_dot (h : U.transpose * U = 1) (a : Fin n → ℝ) : U.mulVec a ⬝ᵥ U.mulVec a = a ⬝ᵥ a := by
  rw [dot_mulVec_transpose, mulVec_mulVec, h, one_mulVec]

theorem orth_dot' (h : U.transpose * U = 1) (a b : Fin n → ℝ) :
    U.transpose.mulVec a ⬝ᵥ U.transpose.mulVec b = a ⬝ᵥ b := by
  rw [dot_mulVec_transpose, transpose_transpose, mulVec_mulVec, mul_eq_one_comm.mp h, one_mulVec]

theorem dot_le_two (a b : Fin n → ℝ) : (a + b) ⬝ᵥ (a + b) ≤ 2 * (a ⬝ᵥ a) + 2 * (b ⬝ᵥ b) := by
  have := dot_self_nonneg (a - b)
  rw [sub_eq_add_neg, dot_add_sq, dotProduct_neg, neg_dotProduct_neg] at this
  rw [dot_add_sq]
  linarith

/-- range and kernel of a symmetric matrix: every vector splits -/
theorem symm_split (hA : A.transpose = A) (f : Fin n → ℝ) : ∃ x z, f = A.mulVec x + z ∧ A.mulVec z = 0 := by
  obtain ⟨lib⟩ := NumLib.exists
  obtain ⟨-, h2⟩ := lib.isProj A f
  rw [hA] at h2
  refine ⟨_, f - A.mulVec (lib.lstsq n n A f), (add_sub_cancel _ _).symm, ?_⟩
  rw [mulVec_sub, h2, sub_self]

theorem symm_orth (hA : A.transpose = A) {x z : Fin n → ℝ} (hz : A.mulVec z = 0) : z ⬝ᵥ A.mulVec x = 0 := by
  rw [dot_mulVec_transpose, hA, hz, zero_dotProduct]

/-- coordinates of a vector in the range -/
private theorem coord_range (h : IsEig A V lam) (hA : A.transpose = A) (x : Fin n → ℝ) (i : Fin n) :
    V.transpose.mulVec (A.mulVec x) i = lam i * V.transpose.mulVec x i := by
  change (fun k => V k i) ⬝ᵥ A.mulVec x = lam i * ((fun k => V k i) ⬝ᵥ x)
  rw [dot_mulVec_transpose, hA, h.col_eig, smul_dotProduct, smul_eq_mul]

/-- on the range, `A - t` is bounded below if the spectrum has a gap -/
theorem gap_below (hA : SymmPSD A) {γ t : ℝ} (ht : t ≤ γ) (hg : NoSmallEigenvalue A γ) (x : Fin n → ℝ) :
    (γ - t) ^ 2 * (A.mulVec x ⬝ᵥ A.mulVec x) ≤
      (A.mulVec (A.mulVec x) - t • A.mulVec x) ⬝ᵥ (A.mulVec (A.mulVec x) - t • A.mulVec x) ∧
    (A.mulVec x ≠ 0 → (γ - t) ^ 2 * (A.mulVec x ⬝ᵥ A.mulVec x) <
      (A.mulVec (A.mulVec x) - t • A.mulVec x) ⬝ᵥ (A.mulVec (A.mulVec x) - t • A.mulVec x)) := by
  obtain ⟨lib⟩ := NumLib.exists
  have h := lib.isEig hA
  set V := (lib.eigh n A).2
  set lam := (lib.eigh n A).1
  set a := V.transpose.mulVec (A.mulVec x) with ha
  have e1 : A.mulVec x ⬝ᵥ A.mulVec x = ∑ i, a i * a i := by
    rw [← orth_dot' h.orth]; rfl
  have e2 : (A.mulVec (A.mulVec x) - t • A.mulVec x) ⬝ᵥ (A.mulVec (A.mulVec x) - t • A.mulVec x) =
      ∑ i, ((lam i - t) * a i) * ((lam i - t) * a i) := by
    rw [← orth_dot' h.orth]
    refine Finset.sum_congr rfl fun i _ => ?_
    rw [mulVec_sub, mulVec_smul, Pi.sub_apply, Pi.smul_apply, coord_range h hA.1, ← ha, smul_eq_mul]
    ring
  have term : ∀ i, (γ - t) ^ 2 * (a i * a i) ≤ ((lam i - t) * a i) * ((lam i - t) * a i) ∧
      (a i ≠ 0 → (γ - t) ^ 2 * (a i * a i) < ((lam i - t) * a i) * ((lam i - t) * a i)) := by
    intro i
    rcases h.gap hA hg i with h0 | h0
    · have : a i = 0 := by rw [ha, coord_range h hA.1]; rw [h0, zero_mul]
      rw [this]; simp
    · have h1 : (γ - t) ^ 2 < (lam i - t) ^ 2 := by
        apply pow_lt_pow_left₀ _ (by linarith) (by norm_num)
        change γ < lam i at h0
        linarith
      have h2 : ((lam i - t) * a i) * ((lam i - t) * a i) = (lam i - t) ^ 2 * (a i * a i) := by ring
      rw [h2]
      exact ⟨mul_le_mul_of_nonneg_right h1.le (mul_self_nonneg _), fun hne =>
        mul_lt_mul_of_pos_right h1 (mul_self_pos.mpr hne)⟩
  rw [e1, e2, Finset.mul_sum]
  refine ⟨Finset.sum_le_sum fun i _ => (term i).1, fun hne => ?_⟩
  obtain ⟨i, hi⟩ : ∃ i, a i ≠ 0 := by
    by_contra hall
    push Not at hall
    apply hne
    have : A.mulVec x = V.mulVec a := by rw [ha, mulVec_mulVec, h.orth', one_mulVec]
    rw [this, show a = 0 from funext hall, mulVec_zero]
  exact Finset.sum_lt_sum (fun i _ => (term i).1) ⟨i, Finset.mem_univ _, (term i).2 hi⟩

variable (hA : SymmPSD A) (ha : Reconstructs δ A U w)
include ha

private theorem apply_recon (a : Fin n → ℝ) :
    A.mulVec (U.mulVec a) = U.mulVec (fun i => w i * a i) +
      (A - U * diagonal w * U.transpose).mulVec (U.mulVec a) := by
  have h1 : (U * diagonal w * U.transpose).mulVec (U.mulVec a) = U.mulVec (fun i => w i * a i) := by
    rw [mulVec_mulVec, Matrix.mul_assoc, ha.orth, Matrix.mul_one, ← mulVec_mulVec]
    congr 1
    funext i
    rw [mulVec_diagonal]
  rw [sub_mulVec, h1]
  abel

/-- a vector of the kernel has only small coordinates in the directions of large computed eigenvalues -/
private theorem kernel_high {z : Fin n → ℝ} (hz : A.mulVec z = 0) {low : Fin n → Prop} [DecidablePred low]
    (ht : 0 ≤ tol) (hlow : ∀ i, ¬ low i → tol ≤ w i) :
    tol ^ 2 * ∑ i, (if low i then 0 else U.transpose.mulVec z i ^ 2) ≤ δ ^ 2 * (z ⬝ᵥ z) := by
  set c := U.transpose.mulVec z with hc
  have hzc : z = U.mulVec c := by rw [hc, mulVec_mulVec, mul_eq_one_comm.mp ha.orth, one_mulVec]
  have h1 := apply_recon ha c
  rw [← hzc, hz] at h1
  have h2 : (A - U * diagonal w * U.transpose).mulVec z = -U.mulVec (fun i => w i * c i) :=
    (neg_eq_of_add_eq_zero_right h1.symm).symm
  have h3 := ha.error z
  rw [h2, neg_dotProduct_neg, orth_dot ha.orth] at h3
  refine le_trans ?_ h3
  rw [Finset.mul_sum]
  refine Finset.sum_le_sum fun i _ => ?_
  by_cases hi : low i
  · rw [if_pos hi, mul_zero]; exact mul_self_nonneg _
  · rw [if_neg hi]
    have : tol ^ 2 ≤ w i ^ 2 := pow_le_pow_left₀ ht (hlow i hi) 2
    nlinarith [sq_nonneg (c i), mul_le_mul_of_nonneg_right this (sq_nonneg (c i))]

/-- the columns are eigenvectors up to the error -/
theorem col_recon (i : Fin n) : (fun k => U k i) ⬝ᵥ (fun k => U k i) = 1 ∧
    A.mulVec (fun k => U k i) = w i • (fun k => U k i) +
      (A - U * diagonal w * U.transpose).mulVec (fun k => U k i) := by
  set u : Fin n → ℝ := fun k => U k i with hu
  have huu : u ⬝ᵥ u = 1 := by
    have := congrFun (congrFun ha.orth i) i
    rw [Matrix.one_apply_eq] at this
    rw [← this]; rfl
  have hUe : U.mulVec (Pi.single i 1) = u := by
    funext k
    rw [mulVec_single_one]; rfl
  have h1 := apply_recon ha (Pi.single i 1)
  rw [hUe] at h1
  have h2 : (fun j => w j * (Pi.single i (1 : ℝ) : Fin n → ℝ) j) = w i • (Pi.single i (1 : ℝ) : Fin n → ℝ) := by
    funext j
    by_cases hj : j = i
    · subst hj; simp
    · simp [hj]
  rw [h2, mulVec_smul, hUe] at h1
  exact ⟨huu, h1⟩

/-- so their quadratic form is the computed eigenvalue up to the error -/
theorem col_quad (hd : 0 ≤ δ) (i : Fin n) :
    |(fun k => U k i) ⬝ᵥ A.mulVec (fun k => U k i) - w i| ≤ δ := by
  obtain ⟨h1, h2⟩ := col_recon ha i
  rw [h2, dotProduct_add, dotProduct_smul, h1, smul_eq_mul, mul_one, add_sub_cancel_left]
  apply abs_le_of_sq_le_sq _ hd
  have h3 := ha.error fun k => U k i
  rw [h1, mul_one] at h3
  refine le_trans (Finset.sum_mul_sq_le_sq_mul_sq _ _ _) ?_
  have e1 : ∑ k, U k i ^ 2 = 1 := by
    rw [← h1]; exact Finset.sum_congr rfl fun k _ => sq _
  have e2 : ∀ v : Fin n → ℝ, ∑ k, v k ^ 2 = v ⬝ᵥ v := fun v => Finset.sum_congr rfl fun k _ => sq _
  rw [e1, e2, one_mul]
  exact h3

include hA

/-- computed eigenvalues below the tolerance are as small as the error of the solver -/
theorem small_of_low (hd : 0 ≤ δ) (hg : NoSmallEigenvalue A (tol + δ)) (i : Fin n) (hi : w i ≤ tol) :
    w i ^ 2 ≤ δ ^ 2 := by
  by_contra hlt
  push Not at hlt
  set u : Fin n → ℝ := fun k => U k i with hu
  obtain ⟨huu, hAu⟩ := col_recon ha i
  rw [← hu] at huu hAu
  obtain ⟨x, p, hsp, hp⟩ := symm_split hA.1 u
  have hk := ha.error u
  have hR : (A - U * diagonal w * U.transpose).mulVec u =
      (A.mulVec (A.mulVec x) - w i • A.mulVec x) + (-(w i)) • p := by
    have : (A - U * diagonal w * U.transpose).mulVec u = A.mulVec u - w i • u := by rw [hAu]; abel
    rw [this, hsp, mulVec_add, hp, smul_add, neg_smul]
    abel
  have hcross : (A.mulVec (A.mulVec x) - w i • A.mulVec x) ⬝ᵥ ((-(w i)) • p) = 0 := by
    rw [dotProduct_smul, dotProduct_comm, dotProduct_sub, dotProduct_smul, symm_orth hA.1 hp, symm_orth hA.1 hp]
    simp
  rw [hR, dot_add_sq, hcross, smul_dotProduct, dotProduct_smul, smul_eq_mul, smul_eq_mul, huu] at hk
  have hnorm : A.mulVec x ⬝ᵥ A.mulVec x + p ⬝ᵥ p = 1 := by
    rw [← huu, hsp, dot_add_sq, dotProduct_comm (A.mulVec x) p, symm_orth hA.1 hp]
    ring
  have hb := gap_below hA (t := w i) (by linarith) hg x
  by_cases hx : A.mulVec x = 0
  · rw [hx, dotProduct_zero, zero_add] at hnorm
    rw [hx, hnorm, mulVec_zero] at hk
    simp at hk
    nlinarith
  · have h1 := hb.2 hx
    have h2 : δ ^ 2 * (A.mulVec x ⬝ᵥ A.mulVec x) ≤ (tol + δ - w i) ^ 2 * (A.mulVec x ⬝ᵥ A.mulVec x) :=
      mul_le_mul_of_nonneg_right (pow_le_pow_left₀ hd (by linarith) 2) (dot_self_nonneg _)
    have h3 : δ ^ 2 * (p ⬝ᵥ p) ≤ w i ^ 2 * (p ⬝ᵥ p) := mul_le_mul_of_nonneg_right hlt.le (dot_self_nonneg _)
    nlinarith

variable (hd : 0 ≤ δ) (hdt : δ < tol) (hg : NoSmallEigenvalue A (tol + δ))
  (low : Fin n → Prop) [DecidablePred low] (hlow : ∀ i, low i → w i ≤ tol) (hhigh : ∀ i, ¬ low i → tol ≤ w i)
include hd hg hlow

/-- a vector in the directions of small computed eigenvalues is nearly in the kernel -/
theorem low_apply (a : Fin n → ℝ) (hl : ∀ i, ¬ low i → a i = 0) :
    A.mulVec (U.mulVec a) ⬝ᵥ A.mulVec (U.mulVec a) ≤ 4 * δ ^ 2 * (a ⬝ᵥ a) := by
  rw [apply_recon ha]
  refine le_trans (dot_le_two _ _) ?_
  have h1 := ha.error (U.mulVec a)
  rw [orth_dot ha.orth a] at h1
  rw [orth_dot ha.orth]
  have h2 : (fun i => w i * a i) ⬝ᵥ (fun i => w i * a i) ≤ δ ^ 2 * (a ⬝ᵥ a) := by
    change ∑ i, _ * _ ≤ δ ^ 2 * ∑ i, _ * _
    rw [Finset.mul_sum]
    refine Finset.sum_le_sum fun i _ => ?_
    by_cases hi : low i
    · have := small_of_low hA ha hd hg i (hlow i hi)
      nlinarith [mul_le_mul_of_nonneg_right this (mul_self_nonneg (a i))]
    · rw [hl i hi]; simp
  linarith

/-- `gap` part of `low_apply`: the range part is small -/
theorem low_range (a : Fin n → ℝ) (hl : ∀ i, ¬ low i → a i = 0) (htp : 0 ≤ tol) (x z : Fin n → ℝ)
    (hs : U.mulVec a = A.mulVec x + z) (hz : A.mulVec z = 0) :
    (tol + δ) ^ 2 * (A.mulVec x ⬝ᵥ A.mulVec x) ≤ 4 * δ ^ 2 * (a ⬝ᵥ a) := by
  have h1 := low_apply hA ha hd hg low hlow a hl
  rw [hs, mulVec_add, hz, add_zero] at h1
  have h2 := (gap_below hA (t := 0) (by linarith) hg x).1
  rw [zero_smul, sub_zero, sub_zero] at h2
  exact h2.trans h1

include hdt hhigh

/-- projecting on the directions of small computed eigenvalues is nearly projecting on the kernel -/
theorem low_proj (f : Fin n → ℝ) (x z : Fin n → ℝ) (hf : f = A.mulVec x + z) (hz : A.mulVec z = 0)
    (q : Fin n → ℝ) (hq : q = U.mulVec fun i => if low i then U.transpose.mulVec f i else 0) :
    tol ^ 2 * ((q - z) ⬝ᵥ (q - z)) ≤ 4 * δ ^ 2 * (f ⬝ᵥ f) := by
  have htp : 0 < tol := lt_of_le_of_lt hd hdt
  set c := U.transpose.mulVec f with hc
  have hfc : f = U.mulVec c := by rw [hc, mulVec_mulVec, mul_eq_one_comm.mp ha.orth, one_mulVec]
  set cl : Fin n → ℝ := fun i => if low i then c i else 0 with hcl
  set ch : Fin n → ℝ := fun i => if low i then 0 else c i with hch
  have hsum : c = cl + ch := by
    funext i
    by_cases hi : low i <;> simp [hcl, hch, hi]
  have hcc : c ⬝ᵥ c = cl ⬝ᵥ cl + ch ⬝ᵥ ch := by
    have : cl ⬝ᵥ ch = 0 := Finset.sum_eq_zero fun i _ => by by_cases hi : low i <;> simp [hcl, hch, hi]
    rw [hsum, dot_add_sq, this]; ring
  obtain ⟨x1, z1, hs1, hz1⟩ := symm_split hA.1 (U.mulVec cl)
  obtain ⟨x2, z2, hs2, hz2⟩ := symm_split hA.1 (U.mulVec ch)
  have hzz : z = z1 + z2 := by
    have e : A.mulVec (x - x1 - x2) = z1 + z2 - z := by
      have : A.mulVec x + z = (A.mulVec x1 + z1) + (A.mulVec x2 + z2) := by
        rw [← hf, ← hs1, ← hs2, ← mulVec_add, ← hsum, ← hfc]
      have h' : A.mulVec x = (A.mulVec x1 + z1) + (A.mulVec x2 + z2) - z := eq_sub_of_add_eq this
      rw [mulVec_sub, mulVec_sub, h']
      abel
    have hk : A.mulVec (z1 + z2 - z) = 0 := by rw [mulVec_sub, mulVec_add, hz1, hz2, hz]; simp
    have h0 : (z1 + z2 - z) ⬝ᵥ (z1 + z2 - z) = 0 := by
      conv_lhs => rw [← e]
      rw [e, ← symm_orth hA.1 hk (x := x - x1 - x2), e]
    have := dotProduct_self_eq_zero.mp h0
    exact (sub_eq_zero.mp this).symm
  have hdiff : q - z = A.mulVec x1 + -z2 := by
    have : q = U.mulVec cl := hq
    rw [this, hs1, hzz]; abel
  have hn : (q - z) ⬝ᵥ (q - z) = A.mulVec x1 ⬝ᵥ A.mulVec x1 + z2 ⬝ᵥ z2 := by
    rw [hdiff, dot_add_sq, dotProduct_neg, dotProduct_comm _ z2, symm_orth hA.1 hz2, neg_dotProduct_neg]
    ring
  have k1 := low_range hA ha hd hg low hlow cl (fun i hi => by simp [hcl, hi]) htp.le x1 z1 hs1 hz1
  have k1' : tol ^ 2 * (A.mulVec x1 ⬝ᵥ A.mulVec x1) ≤ 4 * δ ^ 2 * (cl ⬝ᵥ cl) := by
    refine le_trans (mul_le_mul_of_nonneg_right ?_ (dot_self_nonneg _)) k1
    exact pow_le_pow_left₀ htp.le (by linarith) 2
  have k2 := kernel_high ha hz2 htp.le hhigh
  have e2 : z2 ⬝ᵥ z2 = ∑ i, (if low i then 0 else U.transpose.mulVec z2 i) * ch i := by
    have h1 : z2 ⬝ᵥ z2 = z2 ⬝ᵥ U.mulVec ch := by
      rw [hs2, dotProduct_add, symm_orth hA.1 hz2, zero_add]
    rw [h1, dot_mulVec_transpose]
    refine Finset.sum_congr rfl fun i _ => ?_
    by_cases hi : low i <;> simp [hch, hi]
  have cs : (z2 ⬝ᵥ z2) ^ 2 ≤ (∑ i, (if low i then 0 else U.transpose.mulVec z2 i ^ 2)) * (ch ⬝ᵥ ch) := by
    rw [e2]
    refine (Finset.sum_mul_sq_le_sq_mul_sq _ _ _).trans (le_of_eq ?_)
    congr 1
    · exact Finset.sum_congr rfl fun i _ => by by_cases hi : low i <;> simp [hi]
    · exact Finset.sum_congr rfl fun i _ => by ring
  have k2' : tol ^ 2 * (z2 ⬝ᵥ z2) ≤ δ ^ 2 * (ch ⬝ᵥ ch) := by
    set S := ∑ i, (if low i then 0 else U.transpose.mulVec z2 i ^ 2)
    have hch0 := dot_self_nonneg ch
    rcases (dot_self_nonneg z2).eq_or_lt with h0 | h0
    · rw [← h0, mul_zero]; positivity
    · have h3 : tol ^ 2 * (z2 ⬝ᵥ z2) ^ 2 ≤ δ ^ 2 * (z2 ⬝ᵥ z2) * (ch ⬝ᵥ ch) := by
        have := mul_le_mul_of_nonneg_left cs (sq_nonneg tol)
        have h4 := mul_le_mul_of_nonneg_right k2 hch0
        linarith
      have h5 : (z2 ⬝ᵥ z2) * (tol ^ 2 * (z2 ⬝ᵥ z2)) ≤ (z2 ⬝ᵥ z2) * (δ ^ 2 * (ch ⬝ᵥ ch)) := by nlinarith
      exact le_of_mul_le_mul_left h5 h0
  have hff : f ⬝ᵥ f = cl ⬝ᵥ cl + ch ⬝ᵥ ch := by
    rw [← hcc]
    conv_lhs => rw [hfc]
    rw [orth_dot ha.orth]
  rw [hn, hff]
  have := mul_nonneg (sq_nonneg δ) (dot_self_nonneg ch)
  linarith

/-- the number of small computed eigenvalues is the dimension of the kernel -/
theorem low_count : Fintype.card {i // low i} = n - A.rank ∧ Fintype.card {i // ¬ low i} = A.rank := by
  have htp : 0 < tol := lt_of_le_of_lt hd hdt
  -- kernel → low coordinates
  let F : (Fin n → ℝ) →ₗ[ℝ] ({i // low i} → ℝ) :=
    (LinearMap.pi fun i => LinearMap.proj i.1) ∘ₗ U.transpose.mulVecLin
  let G : (Fin n → ℝ) →ₗ[ℝ] ({i // ¬ low i} → ℝ) :=
    (LinearMap.pi fun i => LinearMap.proj i.1) ∘ₗ U.transpose.mulVecLin
  have hF : Function.Injective (F.domRestrict (LinearMap.ker A.mulVecLin)) := by
    rw [← LinearMap.ker_eq_bot, LinearMap.ker_eq_bot']
    rintro ⟨z, hz⟩ h0
    have hz' : A.mulVec z = 0 := hz
    have hc : ∀ i, low i → U.transpose.mulVec z i = 0 := fun i hi => congrFun h0 ⟨i, hi⟩
    have k := kernel_high ha hz' htp.le hhigh
    have e : ∑ i, (if low i then 0 else U.transpose.mulVec z i ^ 2) = z ⬝ᵥ z := by
      rw [← orth_dot' ha.orth z z]
      refine Finset.sum_congr rfl fun i _ => ?_
      by_cases hi : low i
      · simp [hi, hc i hi]
      · simp [hi]; ring
    rw [e] at k
    have hlt : δ ^ 2 < tol ^ 2 := pow_lt_pow_left₀ hdt hd (by norm_num)
    have : z ⬝ᵥ z = 0 := by
      have := dot_self_nonneg z
      nlinarith
    exact Subtype.ext (dotProduct_self_eq_zero.mp this)
  have hG : Function.Injective (G.domRestrict (LinearMap.range A.mulVecLin)) := by
    rw [← LinearMap.ker_eq_bot, LinearMap.ker_eq_bot']
    rintro ⟨r, x, hx⟩ h0
    have hx' : A.mulVec x = r := hx
    have hc : ∀ i, ¬ low i → U.transpose.mulVec r i = 0 := fun i hi => congrFun h0 ⟨i, hi⟩
    have hr : U.mulVec (U.transpose.mulVec r) = r := by
      rw [mulVec_mulVec, mul_eq_one_comm.mp ha.orth, one_mulVec]
    have k := low_range hA ha hd hg low hlow (U.transpose.mulVec r) hc htp.le x 0 (by rw [hr, hx', add_zero])
      (mulVec_zero _)
    rw [orth_dot' ha.orth, hx'] at k
    have hlt : 4 * δ ^ 2 < (tol + δ) ^ 2 := by nlinarith
    have : r ⬝ᵥ r = 0 := by
      have := dot_self_nonneg r
      nlinarith
    exact Subtype.ext (dotProduct_self_eq_zero.mp this)
  have c1 := LinearMap.finrank_le_finrank_of_injective hF
  have c2 := LinearMap.finrank_le_finrank_of_injective hG
  rw [Module.finrank_fintype_fun_eq_card] at c1 c2
  have c3 := LinearMap.finrank_range_add_finrank_ker A.mulVecLin
  rw [Module.finrank_fin_fun] at c3
  have c4 : A.rank = Module.finrank ℝ (LinearMap.range A.mulVecLin) := rfl
  have c5 := Fintype.card_subtype_compl low
  have c6 := Fintype.card_subtype_le low
  rw [Fintype.card_fin] at c5 c6
  omega

end Pytspl
