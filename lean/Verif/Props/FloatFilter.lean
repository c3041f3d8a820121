import Verif.Props.FloatArith
import Verif.Model.FloatFilter
import Mathlib.RingTheory.Polynomial.Chebyshev

/-!
# C148, C149: rounding errors of the polynomial filters
-/

namespace Pytspl

open Matrix

variable {R : Rounding} {n L : ℕ}

/-- `x` is `s` up to `p` roundings, `S` bounds the magnitudes -/
private def Near (p : ℕ) (x s S : ℝ) : Prop := |x - s| ≤ gam p * S ∧ |s| ≤ S

private theorem Near.nonneg {p : ℕ} {x s S : ℝ} (h : Near p x s S) : 0 ≤ S := (abs_nonneg _).trans h.2

private theorem Near.refl (s : ℝ) : Near 0 s s |s| := ⟨by simp [gam], le_rfl⟩

private theorem Near.abs {p : ℕ} {x s S : ℝ} (h : Near p x s S) : |x| ≤ (1 + gam p) * S := by
  have := abs_add_le (x - s) s
  rw [sub_add_cancel] at this
  linarith [h.1, h.2]

private theorem Near.mono {p q : ℕ} {x s S T : ℝ} (h : Near p x s S) (hp : p ≤ q) (hS : S ≤ T) : Near q x s T :=
  ⟨h.1.trans (mul_le_mul (gam_mono hp) hS h.nonneg (gam_nonneg _)), h.2.trans hS⟩

private theorem gam_add (p q : ℕ) : 1 + gam (p + q) = (1 + gam p) * (1 + gam q) := by
  unfold gam
  rw [pow_add]
  ring

private theorem Near.rnd {p : ℕ} {x s S : ℝ} (h : Near p x s S) : Near (p + 1) (R.rnd x) s S := by
  refine ⟨?_, h.2⟩
  have h1 := R.rel x
  have h2 := h.abs
  have h3 := abs_sub_le (R.rnd x) x s
  have e : gam (p + 1) = (1 / 2 ^ 53) * (1 + gam p) + gam p := by
    have := gam_add p 1
    have e1 : gam 1 = 1 / 2 ^ 53 := by simp [gam, roundoff]
    rw [e1] at this
    linarith
  have h4 : (1 : ℝ) / 2 ^ 53 * |x| ≤ 1 / 2 ^ 53 * ((1 + gam p) * S) := mul_le_mul_of_nonneg_left h2 (by positivity)
  have h5 := h.1
  rw [e]
  linarith

private theorem Near.add {p : ℕ} {x s S y t T : ℝ} (h : Near p x s S) (h' : Near p y t T) :
    Near p (x + y) (s + t) (S + T) := by
  refine ⟨?_, (abs_add_le _ _).trans (add_le_add h.2 h'.2)⟩
  rw [add_sub_add_comm, mul_add]
  exact (abs_add_le _ _).trans (add_le_add h.1 h'.1)

private theorem Near.mul {p q : ℕ} {x s S y t T : ℝ} (h : Near p x s S) (h' : Near q y t T) :
    Near (p + q) (x * y) (s * t) (S * T) := by
  refine ⟨?_, by rw [abs_mul]; exact mul_le_mul h.2 h'.2 (abs_nonneg _) h.nonneg⟩
  have e : x * y - s * t = (x - s) * y + s * (y - t) := by ring
  rw [e]
  refine (abs_add_le _ _).trans ?_
  rw [abs_mul, abs_mul]
  have h1 : |x - s| * |y| ≤ gam p * S * ((1 + gam q) * T) :=
    mul_le_mul h.1 h'.abs (abs_nonneg _) (mul_nonneg (gam_nonneg _) h.nonneg)
  have h2 : |s| * |y - t| ≤ S * (gam q * T) := mul_le_mul h.2 h'.1 (abs_nonneg _) h.nonneg
  have e2 : gam (p + q) = gam p * (1 + gam q) + gam q := by
    have := gam_add p q
    linarith
  rw [e2]
  linarith

private theorem Near.sum {p : ℕ} {m : ℕ} {x s S : Fin m → ℝ} (h : ∀ j, Near p (x j) (s j) (S j)) :
    Near p (∑ j, x j) (∑ j, s j) (∑ j, S j) := by
  constructor
  · rw [← Finset.sum_sub_distrib, Finset.mul_sum]
    exact (Finset.abs_sum_le_sum_abs _ _).trans (Finset.sum_le_sum fun j _ => (h j).1)
  · exact (Finset.abs_sum_le_sum_abs _ _).trans (Finset.sum_le_sum fun j _ => (h j).2)

/-- a product of a row and a column that both carry errors -/
private theorem FlDot.near {m p q : ℕ} {a s S z t T : Fin m → ℝ} {y : ℝ} (h : FlDot R a z y)
    (ha : ∀ j, Near p (a j) (s j) (S j)) (hz : ∀ j, Near q (z j) (t j) (T j)) :
    Near (p + q + m) y (∑ j, s j * t j) (∑ j, S j * T j) := by
  have hs : Near (p + q) (∑ j, a j * z j) (∑ j, s j * t j) (∑ j, S j * T j) := Near.sum fun j => (ha j).mul (hz j)
  refine ⟨?_, hs.2⟩
  have h1 := h.error.2
  have hk : support a ≤ m := by
    classical
    unfold support
    have := Finset.card_le_univ (Finset.univ.filter fun j => a j ≠ 0)
    simpa using this
  have h2 : ∑ j, |a j * z j| ≤ (1 + gam (p + q)) * ∑ j, S j * T j := by
    rw [Finset.mul_sum]
    exact Finset.sum_le_sum fun j _ => ((ha j).mul (hz j)).abs
  have h3 : |y - ∑ j, a j * z j| ≤ gam m * ((1 + gam (p + q)) * ∑ j, S j * T j) :=
    h1.trans (mul_le_mul (gam_mono hk) h2 (Finset.sum_nonneg fun j _ => abs_nonneg _) (gam_nonneg _))
  have e : gam (p + q + m) = gam m * (1 + gam (p + q)) + gam (p + q) := by
    have := gam_add (p + q) m
    linarith
  have h4 := abs_sub_le y (∑ j, a j * z j) (∑ j, s j * t j)
  have h5 := hs.1
  rw [e]
  linarith

/-- entries replaced by their magnitudes -/
def absMat (P : Matrix (Fin n) (Fin n) ℝ) : Matrix (Fin n) (Fin n) ℝ := Matrix.of fun i j => |P i j|

private theorem pow_near {P M : Matrix (Fin n) (Fin n) ℝ} {k : ℕ} (h : FlPow R P k M) (i j : Fin n) :
    Near (n * (k - 1)) (M i j) ((P ^ k) i j) ((absMat P ^ k) i j) := by
  induction h generalizing i j with
  | zero =>
    rw [pow_zero, pow_zero]
    by_cases hij : i = j
    · subst hij
      simp [Near, gam]
    · simp [Near, hij]
  | one =>
    rw [pow_one, pow_one]
    exact (Near.refl (P i j)).mono (by omega) le_rfl
  | @mul a b A B C ha hb _ _ hC ih1 ih2 =>
    have := FlDot.near (hC i j) (fun l => ih1 i l) (fun l => ih2 l j)
    rw [pow_add, pow_add]
    refine this.mono ?_ le_rfl
    have e : a + b - 1 = (a - 1) + (b - 1) + 1 := by omega
    rw [e]
    apply le_of_eq
    ring

private theorem build_near {P H : Matrix (Fin n) (Fin n) ℝ} {h : Fin L → ℝ} (hH : FlBuild R P h H) (i j : Fin n) :
    Near ((n + 1) * L + 1) (H i j) (∑ k : Fin L, h k * (P ^ (k : ℕ)) i j) (∑ k : Fin L, |h k| * (absMat P ^ (k : ℕ)) i j) := by
  obtain ⟨M, S, hM, h0, hs, rfl⟩ := hH
  have key : ∀ m : ℕ, m ≤ L → Near ((n + 1) * m + 1) (S m i j)
      (∑ k : Fin L, if (k : ℕ) < m then h k * (P ^ (k : ℕ)) i j else 0)
      (∑ k : Fin L, if (k : ℕ) < m then |h k| * (absMat P ^ (k : ℕ)) i j else 0) := by
    intro m
    induction m with
    | zero =>
      intro _
      rw [h0]
      simpa using (Near.refl 0).mono (Nat.zero_le 1) (le_of_eq abs_zero)
    | succ m ih =>
      intro hm
      have hS := ih (by omega)
      have hT := ((Near.refl (h ⟨m, hm⟩)).mul (pow_near (hM ⟨m, hm⟩) i j)).rnd (R := R)
      have split : ∀ g : Fin L → ℝ, (∑ k : Fin L, if (k : ℕ) < m + 1 then g k else 0) =
          (∑ k : Fin L, if (k : ℕ) < m then g k else 0) + g ⟨m, hm⟩ := by
        intro g
        have : ∀ k : Fin L, (if (k : ℕ) < m + 1 then g k else 0) =
            (if (k : ℕ) < m then g k else 0) + if k = ⟨m, hm⟩ then g k else 0 := by
          intro k
          by_cases h1 : (k : ℕ) < m
          · have h2 : k ≠ ⟨m, hm⟩ := fun h => by rw [h] at h1; exact lt_irrefl _ h1
            rw [if_pos h1, if_pos (by omega), if_neg h2, add_zero]
          · by_cases h2 : k = ⟨m, hm⟩
            · have h3 : (k : ℕ) = m := by rw [h2]
              rw [if_neg h1, if_pos (by omega), if_pos h2, zero_add]
            · have h3 : (k : ℕ) ≠ m := fun h => h2 (Fin.ext h)
              rw [if_neg h1, if_neg (by omega), if_neg h2, add_zero]
        simp only [this, Finset.sum_add_distrib, Finset.sum_ite_eq', Finset.mem_univ, if_true]
      rw [split, split, show S (m + 1) i j = _ from hs ⟨m, hm⟩ i j]
      have h1 : (n + 1) * m + 1 ≤ (n + 1) * (m + 1) := by nlinarith
      have h2 : 0 + n * (m - 1) + 1 ≤ (n + 1) * (m + 1) := by
        have : n * (m - 1) ≤ n * m := Nat.mul_le_mul_left n (by omega)
        nlinarith
      exact ((hS.mono h1 le_rfl).add (hT.mono h2 le_rfl)).rnd
  have := key L le_rfl
  simpa using this

/-- C148: whatever coefficients the least-squares solver returns, the estimate of the polynomial filters computed in
doubles is on every edge within `(1 + 2^-53)^((E+1)(L+1)) - 1` times the filter of the magnitudes of the exact estimate
`sum_k h_k P^k f`, for a filter of size `L` and `E` edges and whatever way powers are grouped and sums are ordered. -/
theorem C148_estimate (P : Matrix (Fin n) (Fin n) ℝ) (h : Fin L → ℝ) (f y : Fin n → ℝ) (hy : FlEstimate R P h f y)
    (i : Fin n) :
    |y i - ∑ k : Fin L, h k * (P ^ (k : ℕ)).mulVec f i| ≤
      ((1 + 1 / 2 ^ 53) ^ ((n + 1) * (L + 1)) - 1) *
        ∑ k : Fin L, |h k| * (absMat P ^ (k : ℕ)).mulVec (fun j => |f j|) i := by
  obtain ⟨H, hH, hy⟩ := hy
  have h1 := FlDot.near (hy i) (fun j => build_near hH i j) (fun j => Near.refl (f j))
  have swap : ∀ (c : Fin L → ℝ) (Q : ℕ → Matrix (Fin n) (Fin n) ℝ) (g : Fin n → ℝ),
      ∑ j, (∑ k : Fin L, c k * Q k i j) * g j = ∑ k : Fin L, c k * (Q k).mulVec g i := by
    intro c Q g
    simp only [Finset.sum_mul]
    rw [Finset.sum_comm]
    refine Finset.sum_congr rfl fun k _ => ?_
    rw [Matrix.mulVec, dotProduct, Finset.mul_sum]
    exact Finset.sum_congr rfl fun j _ => by ring
  rw [swap h (fun k => P ^ k) f, swap (fun k => |h k|) (fun k => absMat P ^ k) fun j => |f j|] at h1
  have h2 := h1.1
  rwa [show (n + 1) * L + 1 + 0 + n = (n + 1) * (L + 1) by ring] at h2

/-- C148 on a complex: the filters of size `L` designed from the lower, upper or full Laplacian, which the library also
computes in doubles. -/
theorem C148_complex (sc : SC ℝ) (hb : sc.Built) (hE : sc.edges.length ≤ 2 ^ 53)
    (hNT : sc.nodes.length + sc.triangles.length ≤ 2 ^ 53) (h : Fin L → ℝ) (f y : Fin sc.edges.length → ℝ)
    (P M : Matrix (Fin sc.edges.length) (Fin sc.edges.length) ℝ)
    (hP : sc.FlL1l R M ∧ P = sc.L1l ∨ sc.FlL1u R M ∧ P = sc.L1u ∨ sc.FlL1 R M ∧ P = sc.L1)
    (hy : FlEstimate R M h f y) (i : Fin sc.edges.length) :
    |y i - ((buildFilter P h).mulVec f) i| ≤ ((1 + 1 / 2 ^ 53) ^ ((sc.edges.length + 1) * (L + 1)) - 1) *
        ∑ k : Fin L, |h k| * (absMat P ^ (k : ℕ)).mulVec (fun j => |f j|) i := by
  obtain ⟨-, hl, hu, -, hf⟩ := C111_laplacians_exact R sc hb hE hNT
  have hM : M = P := by
    rcases hP with ⟨h1, rfl⟩ | ⟨h1, rfl⟩ | ⟨h1, rfl⟩
    · exact hl M h1
    · exact hu M h1
    · exact hf M h1
  subst hM
  have e : ((buildFilter M h).mulVec f) i = ∑ k : Fin L, h k * (M ^ (k : ℕ)).mulVec f i := by
    have key : ∀ (l : List (Fin L)) (A : Matrix (Fin sc.edges.length) (Fin sc.edges.length) ℝ),
        ((l.foldl (fun H i => H + h i • M ^ (i : ℕ)) A).mulVec f) i =
          A.mulVec f i + (l.map fun k => h k * (M ^ (k : ℕ)).mulVec f i).sum := by
      intro l
      induction l with
      | nil => intro A; simp
      | cons a l ih =>
        intro A
        rw [List.foldl_cons, ih, Matrix.add_mulVec, Matrix.smul_mulVec, List.map_cons, List.sum_cons]
        simp only [Pi.add_apply, Pi.smul_apply, smul_eq_mul]
        ring
    unfold buildFilter
    rw [key, Matrix.zero_mulVec, Pi.zero_apply, zero_add, ← List.sum_ofFn, List.ofFn_eq_map]
  rw [e]
  exact C148_estimate M h f y hy i

/-- Computed powers exist, by multiplying one factor at a time. -/
theorem FlPow.exists (R : Rounding) (P : Matrix (Fin n) (Fin n) ℝ) : ∀ k : ℕ, ∃ M, FlPow R P k M
  | 0 => ⟨1, .zero⟩
  | 1 => ⟨P, .one⟩
  | k + 2 => by
    obtain ⟨M, hM⟩ := FlPow.exists R P (k + 1)
    obtain ⟨C, hC⟩ := FlMul.exists R M P
    exact ⟨C, .mul (a := k + 1) (b := 1) (Nat.succ_pos _) one_pos hM .one hC⟩

/-- Computed estimates exist. -/
theorem FlEstimate.exists (R : Rounding) (P : Matrix (Fin n) (Fin n) ℝ) (h : Fin L → ℝ) (f : Fin n → ℝ) :
    ∃ y, FlEstimate R P h f y := by
  choose M hM using fun i : Fin L => FlPow.exists R P i
  let S : ℕ → Matrix (Fin n) (Fin n) ℝ := fun m => m.rec 0 fun i A =>
    if hi : i < L then Matrix.of fun a b => R.rnd (A a b + R.rnd (h ⟨i, hi⟩ * M ⟨i, hi⟩ a b)) else A
  have hS : ∀ (i : Fin L) (a b : Fin n), S (i + 1) a b = R.rnd (S i a b + R.rnd (h i * M i a b)) := by
    intro i a b
    show (if hi : (i : ℕ) < L then Matrix.of fun a b => R.rnd (S i a b + R.rnd (h ⟨i, hi⟩ * M ⟨i, hi⟩ a b)) else S i) a b = _
    rw [dif_pos i.2]
    rfl
  obtain ⟨y, hy⟩ := FlMulVec.exists R (S L) f
  exact ⟨y, S L, ⟨M, S, hM, rfl, hS, rfl⟩, hy⟩

/-- Non-vacuity of C148: a filter of size 3 with coefficients that are no doubles' sums, on a complex with a triangle. -/
example : ∃ sc : SC ℝ, sc.Built ∧ 0 < sc.triangles.length ∧ sc.edges.length ≤ 2 ^ 53 ∧
    sc.nodes.length + sc.triangles.length ≤ 2 ^ 53 ∧
    ∃ M y, sc.FlL1 double M ∧ FlEstimate double M ![double.rnd (1 / 3), -2, double.rnd (1 / 10)] (fun j => (j : ℝ) + 1) y := by
  obtain ⟨sc, hw, -, hn, he, ht⟩ := sample_wellFormed ℝ
  refine ⟨sc, hw.built, by simp [ht, sampleTriangles], by simp [he, sampleEdges],
    by simp [hn, ht, sampleNodes, sampleTriangles], ?_⟩
  obtain ⟨A, hA⟩ := FlMul.exists double sc.B1.transpose sc.B1
  obtain ⟨B, hB⟩ := FlMul.exists double sc.B2 sc.B2.transpose
  obtain ⟨y, hy⟩ := FlEstimate.exists double (Matrix.of fun i k => double.rnd (A i k + B i k))
    ![double.rnd (1 / 3), -2, double.rnd (1 / 10)] (fun j => (j : ℝ) + 1)
  exact ⟨_, y, ⟨A, B, hA, hB, fun _ _ => rfl⟩, hy⟩

/-! ## C149 -/

private theorem slot_eq (P : Matrix (Fin n) (Fin n) ℝ) (alpha : ℝ) (k : ℕ) :
    Cheb.slot P alpha k = Polynomial.aeval ((1 / alpha) • (P - alpha • (1 : Matrix (Fin n) (Fin n) ℝ)))
      (Polynomial.Chebyshev.T ℝ k) := by
  induction k using Nat.strong_induction_on with
  | _ k ih =>
    match k with
    | 0 => simp [Cheb.slot]
    | 1 => simp [Cheb.slot]
    | k + 2 =>
      rw [Cheb.slot, ih (k + 1) (by omega), ih k (by omega)]
      have : ((k + 2 : ℕ) : ℤ) = (k : ℤ) + 2 := by push_cast; rfl
      rw [this, Polynomial.Chebyshev.T_add_two, map_sub, map_mul, map_mul, Polynomial.aeval_X]
      congr 1
      rw [show ((k + 1 : ℕ) : ℤ) = (k : ℤ) + 1 by push_cast; rfl, map_ofNat,
        show (2 / alpha : ℝ) = 2 * (1 / alpha) by ring, mul_smul, two_smul, two_mul]

/-- the recurrence of the Chebyshev polynomials with all signs positive, at the magnitudes of `(P - alpha I) / alpha` -/
noncomputable def chebMag (P : Matrix (Fin n) (Fin n) ℝ) (alpha : ℝ) : ℕ → Matrix (Fin n) (Fin n) ℝ
  | 0 => 1
  | 1 => (1 / |alpha|) • (absMat P + |alpha| • (1 : Matrix (Fin n) (Fin n) ℝ))
  | k + 2 => ((2 / |alpha|) • (absMat P + |alpha| • (1 : Matrix (Fin n) (Fin n) ℝ))) * chebMag P alpha (k + 1)
      + chebMag P alpha k

private theorem one_near (i j : Fin n) :
    Near 0 ((1 : Matrix (Fin n) (Fin n) ℝ) i j) ((1 : Matrix (Fin n) (Fin n) ℝ) i j) ((1 : Matrix (Fin n) (Fin n) ℝ) i j) := by
  by_cases hij : i = j
  · subst hij
    simp [Near, gam]
  · simp [Near, hij]

private theorem Near.neg {p : ℕ} {x s S : ℝ} (h : Near p x s S) : Near p (-x) (-s) S :=
  ⟨by rw [← neg_sub', abs_neg]; exact h.1, by rw [abs_neg]; exact h.2⟩

private theorem Near.sub {p : ℕ} {x s S y t T : ℝ} (h : Near p x s S) (h' : Near p y t T) :
    Near p (x - y) (s - t) (S + T) := by
  rw [sub_eq_add_neg, sub_eq_add_neg]
  exact h.add h'.neg

private theorem shifted_near (P : Matrix (Fin n) (Fin n) ℝ) (alpha : ℝ) (i j : Fin n) :
    Near 2 (FlShifted R P alpha i j) ((P - alpha • (1 : Matrix (Fin n) (Fin n) ℝ)) i j)
      ((absMat P + |alpha| • (1 : Matrix (Fin n) (Fin n) ℝ)) i j) := by
  have h1 := ((Near.refl alpha).mul (one_near i j)).rnd (R := R)
  exact (((Near.refl (P i j)).mono (Nat.zero_le 1) le_rfl).sub h1).rnd

private theorem scaled_near (P : Matrix (Fin n) (Fin n) ℝ) (alpha c : ℝ) (hc : 0 ≤ c) (i j : Fin n) :
    Near 4 (R.rnd (R.rnd (c / alpha) * FlShifted R P alpha i j))
      (((c / alpha) • (P - alpha • (1 : Matrix (Fin n) (Fin n) ℝ))) i j)
      (((c / |alpha|) • (absMat P + |alpha| • (1 : Matrix (Fin n) (Fin n) ℝ))) i j) := by
  have h1 := (Near.refl (c / alpha)).rnd (R := R)
  rw [abs_div, abs_of_nonneg hc] at h1
  exact (h1.mul (shifted_near P alpha i j)).rnd

private theorem slots_near {P : Matrix (Fin n) (Fin n) ℝ} {alpha : ℝ} {H : ℕ → Matrix (Fin n) (Fin n) ℝ}
    (hH : FlSlots R P alpha H) (k : ℕ) :
    ∀ i j, Near ((n + 5) * k) (H k i j) (Cheb.slot P alpha k i j) (chebMag P alpha k i j) := by
  obtain ⟨h0, h1, h2⟩ := hH
  induction k using Nat.strong_induction_on with
  | _ k ih =>
    intro i j
    match k with
    | 0 =>
      rw [h0]
      exact one_near i j
    | 1 =>
      rw [h1]
      exact (scaled_near P alpha 1 zero_le_one i j).mono (by omega) le_rfl
    | k + 2 =>
      obtain ⟨C, hC, hk⟩ := h2 k
      rw [hk]
      have a := FlDot.near (hC i j) (fun l => scaled_near (R := R) P alpha 2 zero_le_two i l) (fun l => ih (k + 1) (by omega) l j)
      have b := ih k (by omega) i j
      have m1 : 4 + (n + 5) * (k + 1) + n ≤ 4 + (n + 5) * (k + 1) + n := le_rfl
      have m2 : (n + 5) * k ≤ 4 + (n + 5) * (k + 1) + n := by nlinarith
      refine ((a.mono m1 le_rfl).sub (b.mono m2 le_rfl)).rnd.mono ?_ le_rfl
      apply le_of_eq
      ring

/-- C149: the estimate of the Chebyshev filter computed in doubles, with the coefficients `c` of the series and the
half-width `alpha` the library uses, is on every edge within `(1 + 2^-53)^((E+6)(L+1)) - 1` times the filter of the magnitudes
of the exact estimate `sum_k c_k T_k((P - alpha I)/alpha) f`. -/
theorem C149_estimate (P : Matrix (Fin n) (Fin n) ℝ) (c : Fin L → ℝ) (alpha : ℝ) (f y : Fin n → ℝ)
    (hy : FlChebEstimate R P c alpha f y) (i : Fin n) :
    |y i - ∑ k : Fin L, c k * (Polynomial.aeval ((1 / alpha) • (P - alpha • (1 : Matrix (Fin n) (Fin n) ℝ)))
        (Polynomial.Chebyshev.T ℝ (k : ℕ))).mulVec f i| ≤
      ((1 + 1 / 2 ^ 53) ^ ((n + 6) * (L + 1)) - 1) *
        ∑ k : Fin L, |c k| * (chebMag P alpha k).mulVec (fun j => |f j|) i := by
  obtain ⟨G, ⟨H, hH, hG⟩, hy⟩ := hy
  have g : ∀ j, Near ((n + 6) * L) (G i j) (∑ k : Fin L, c k * Cheb.slot P alpha k i j)
      (∑ k : Fin L, |c k| * chebMag P alpha k i j) := by
    intro j
    have hk : ∀ k : Fin L, Near ((n + 5) * L) (H k i j) (Cheb.slot P alpha k i j) (chebMag P alpha k i j) := fun k =>
      (slots_near hH k i j).mono (Nat.mul_le_mul_left _ k.2.le) le_rfl
    refine (FlDot.near (hG i j) (fun k => Near.refl (c k)) hk).mono (le_of_eq ?_) le_rfl
    ring
  have h1 := FlDot.near (hy i) g (fun j => Near.refl (f j))
  have swap : ∀ (c : Fin L → ℝ) (Q : ℕ → Matrix (Fin n) (Fin n) ℝ) (g : Fin n → ℝ),
      ∑ j, (∑ k : Fin L, c k * Q k i j) * g j = ∑ k : Fin L, c k * (Q k).mulVec g i := by
    intro c Q g
    simp only [Finset.sum_mul]
    rw [Finset.sum_comm]
    refine Finset.sum_congr rfl fun k _ => ?_
    rw [Matrix.mulVec, dotProduct, Finset.mul_sum]
    exact Finset.sum_congr rfl fun j _ => by ring
  rw [swap c (fun k => Cheb.slot P alpha k) f, swap (fun k => |c k|) (fun k => chebMag P alpha k) fun j => |f j|] at h1
  simp only [slot_eq] at h1
  exact (h1.mono (show (n + 6) * L + 0 + n ≤ (n + 6) * (L + 1) by nlinarith) le_rfl).1

/-- Computed Chebyshev estimates exist. -/
theorem FlChebEstimate.exists (R : Rounding) (P : Matrix (Fin n) (Fin n) ℝ) (c : Fin L → ℝ) (alpha : ℝ) (f : Fin n → ℝ) :
    ∃ y, FlChebEstimate R P c alpha f y := by
  choose prod hprod using fun B : Matrix (Fin n) (Fin n) ℝ =>
    FlMul.exists R (Matrix.of fun i j => R.rnd (R.rnd (2 / alpha) * FlShifted R P alpha i j)) B
  let pair : ℕ → Matrix (Fin n) (Fin n) ℝ × Matrix (Fin n) (Fin n) ℝ := fun k =>
    k.rec (1, Matrix.of fun i j => R.rnd (R.rnd (1 / alpha) * FlShifted R P alpha i j))
      fun _ q => (q.2, Matrix.of fun i j => R.rnd (prod q.2 i j - q.1 i j))
  have hH : FlSlots R P alpha fun k => (pair k).1 :=
    ⟨rfl, fun _ _ => rfl, fun k => ⟨prod (pair (k + 1)).1, hprod _, fun _ _ => rfl⟩⟩
  choose G hG using fun i j : Fin n => FlDot.exists R c fun k : Fin L => (pair k).1 i j
  obtain ⟨y, hy⟩ := FlMulVec.exists R (Matrix.of G) f
  exact ⟨y, Matrix.of G, ⟨_, hH, hG⟩, hy⟩

/-- Non-vacuity of C149: three coefficients and the half-width 3/2 of the lower Laplacian of a triangle. -/
example : ∃ y, FlChebEstimate double !![2, 1, -1; 1, 2, 1; -1, 1, 2] ![double.rnd (1 / 3), -2, double.rnd (1 / 10)] (3 / 2)
    (fun j : Fin 3 => (j : ℝ) + 1) y := FlChebEstimate.exists _ _ _ _ _

end Pytspl
