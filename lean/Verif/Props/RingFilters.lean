import Verif.Props.ExactFilters
import Verif.Props.FilterHistory
import Verif.Props.Rings

/-!
# C184: filters on rings

A ring of `n` edges has `n / 2 + 1` different frequencies.  That many coefficients make the type-two extraction exact,
fewer do not.
-/

namespace Pytspl

open Matrix Polynomial

variable {lib : NumLib} {sc : SC ℝ} {s : Fin sc.E → ℝ}

private theorem lower_eq (h : sc.IsRing s) : sc.L1 = sc.L1l := by
  have hu : sc.L1u = 0 := by
    ext i j
    unfold SC.L1u
    rw [Matrix.mul_apply]
    apply Finset.sum_eq_zero
    intro k _
    exact absurd k.2 (by simp [h.hollow])
  rw [SC.L1, hu, add_zero]

/-- the frequencies of a ring, each listed once -/
private theorem half_spectrum (h : sc.IsRing s) {lam : ℝ} (hl : IsEigenvalue sc.L1 lam) :
    ∃ k ≤ sc.E / 2, lam = 2 - 2 * Real.cos (2 * Real.pi * k / sc.E) := by
  obtain ⟨k, hk, rfl⟩ := C181_spectrum h hl
  have hEr : (sc.E : ℝ) ≠ 0 := by exact_mod_cast h.nonempty.ne'
  rcases le_or_gt k (sc.E / 2) with h1 | h1
  · exact ⟨k, h1, rfl⟩
  · refine ⟨sc.E - k, by omega, ?_⟩
    have e : 2 * Real.pi * ((sc.E - k : ℕ) : ℝ) / sc.E = 2 * Real.pi - 2 * Real.pi * k / sc.E := by
      rw [Nat.cast_sub hk.le]
      field_simp
    rw [e, Real.cos_two_pi_sub]

/-- C184: on a ring of at most 4000 edges the type-two design with the default tolerance and at least `n / 2 + 1`
coefficients extracts the gradient component exactly: the flow without its mean circulation. -/
theorem C184_enough (h : sc.IsRing s) (hn : sc.E ≤ 4000) (st : FilterSt sc.E) (f : Fin sc.E → ℝ) (L : Int)
    (hL : ((sc.E / 2 + 1 : ℕ) : Int) ≤ L) :
    ∃ st', LSFilter.typeTwo lib sc st f "gradient" L = (.ok (), st') ∧
      RecordsExactly st'.history (f - circulation s f • s) := by
  have hE := h.nonempty
  have hEr : (0 : ℝ) < sc.E := by exact_mod_cast hE
  have hE4 : (sc.E : ℝ) ≤ 4000 := by exact_mod_cast hn
  have hp := Real.pi_pos
  refine C53_gradient st f _ (C181_components (lib := lib) h f).grad (1 / 10 ^ 6)
    (by unfold machineEps; norm_num) ?_ ?_ L ?_
  · rw [← lower_eq h]
    have := (C181_frequencies h 0).1
    refine ⟨_, ?_, by simpa using this⟩
    intro h0
    have h1 := congrFun h0 ⟨0, hE⟩
    simp only [Pi.zero_apply] at h1
    rcases h.joins ⟨0, hE⟩ with ⟨-, e⟩ | ⟨-, e⟩ <;> rw [e] at h1 <;> norm_num at h1
  · rw [← lower_eq h]
    rintro lam hl ⟨h1, h2⟩
    obtain ⟨k, hk, rfl⟩ := half_spectrum h hl
    have hk0 : k ≠ 0 := by rintro rfl; simp at h1
    have hk1 : (1 : ℝ) ≤ k := by exact_mod_cast Nat.one_le_iff_ne_zero.2 hk0
    have hk2 : 2 * (k : ℝ) ≤ sc.E := by
      have : 2 * k ≤ sc.E := by omega
      exact_mod_cast this
    set z : ℝ := k / sc.E with hz
    have hz0 : 1 / 4000 ≤ z := by
      rw [hz, div_le_div_iff₀ (by norm_num) hEr]
      nlinarith
    have hz1 : z ≤ 1 / 2 := by
      rw [hz, div_le_iff₀ hEr]
      linarith
    have e1 : 2 * Real.pi * k / sc.E = 2 * (Real.pi * z) := by rw [hz]; ring
    have hj := Real.mul_le_sin (x := Real.pi * z) (by nlinarith) (by nlinarith)
    have e2 : 2 / Real.pi * (Real.pi * z) = 2 * z := by field_simp
    rw [e2] at hj
    rw [e1, Real.cos_two_mul, Real.cos_sq'] at h2
    have h3 : (1 / 2000 : ℝ) ^ 2 ≤ Real.sin (Real.pi * z) ^ 2 :=
      pow_le_pow_left₀ (by norm_num) (le_trans (by linarith) hj) 2
    norm_num at h2 h3
    linarith
  · rw [← lower_eq h]
    have hsub : sc.L1.charpoly.roots.toFinset ⊆
        (Finset.range (sc.E / 2 + 1)).image fun k : ℕ => 2 - 2 * Real.cos (2 * Real.pi * k / sc.E) := by
      intro lam hm
      have he := lib.isEig (symmPSD_L1 sc)
      rw [he.roots_eq, Multiset.mem_toFinset, Multiset.mem_map] at hm
      obtain ⟨i, -, rfl⟩ := hm
      obtain ⟨k, hk, e⟩ := half_spectrum h ⟨_, he.col_ne_zero i, he.col_eig i⟩
      exact Finset.mem_image.2 ⟨k, Finset.mem_range.2 (by omega), e.symm⟩
    have := (Finset.card_le_card hsub).trans Finset.card_image_le
    rw [Finset.card_range] at this
    omega

private theorem aeval_symm {n : ℕ} {A : Matrix (Fin n) (Fin n) ℝ} (hA : A.transpose = A) (p : ℝ[X]) :
    (aeval A p).transpose = aeval A p := by
  induction p using Polynomial.induction_on with
  | C a => rw [aeval_C, Algebra.algebraMap_eq_smul_one, transpose_smul, transpose_one]
  | add p q hp hq => rw [map_add, transpose_add, hp, hq]
  | monomial k a _ =>
    rw [map_mul, aeval_C, map_pow, aeval_X, Algebra.algebraMap_eq_smul_one, smul_mul_assoc, one_mul, transpose_smul,
      transpose_pow, hA]

/-- C184: with fewer coefficients the type-two design, whatever its tolerance, does not extract the gradient component
of the flow that is 1 on one edge and 0 elsewhere. -/
theorem C184_needed (h : sc.IsRing s) (e : Fin sc.E) (st st' : FilterSt sc.E) (L : Int) (tol : ℝ)
    (hL : L ≤ ((sc.E / 2 : ℕ) : Int))
    (hr : LSFilter.typeTwo lib sc st (Pi.single e 1) "gradient" L tol = (.ok (), st')) :
    sc.getComponentFlow lib (Pi.single e 1) "gradient" false = .ok (Pi.single e 1 - circulation s (Pi.single e 1) • s) ∧
    st'.history.get? "f_estimated" ≠ some (.vec (Pi.single e 1 - circulation s (Pi.single e 1) • s)) := by
  have hE := h.nonempty
  have hEr : (0 : ℝ) < sc.E := by exact_mod_cast hE
  have hp := Real.pi_pos
  refine ⟨(C181_components (lib := lib) h _).grad, fun hest => ?_⟩
  obtain ⟨P, t, w, pts, hP, -, -, -, -, -, h0, p, hdeg, -, hf, -⟩ := C51_type_two st st' _ _ L tol hr
  have hP : P = sc.L1 := by
    rcases hP with ⟨-, e⟩ | ⟨e, -⟩
    · rw [e, lower_eq h]
    · exact absurd e (by decide)
  subst hP
  rw [hest] at hf
  have hf := HVal.vec.inj (Option.some.inj hf)
  set q := p (L.toNat - 1) with hq
  have hqd : q.natDegree ≤ L.toNat - 1 := (hdeg _ (by omega)).1
  set f : Fin sc.E → ℝ := Pi.single e 1 with hfd
  have hsym := (symmPSD_L1 sc).1
  have hss : ∀ i, s i * s i = 1 := fun i => by
    rcases h.joins i with ⟨-, e⟩ | ⟨-, e⟩ <;> rw [e] <;> norm_num
  -- the wave with its crest on the edge
  let wave : ℕ → Fin sc.E → ℝ := fun k i =>
    s i * Real.cos (2 * Real.pi * k / sc.E * i - 2 * Real.pi * k / sc.E * e)
  have hw : ∀ k, sc.L1.mulVec (wave k) = (2 - 2 * Real.cos (2 * Real.pi * k / sc.E)) • wave k := by
    intro k
    obtain ⟨h1, h2⟩ := C181_frequencies h k
    have e1 : wave k = Real.cos (2 * Real.pi * k / sc.E * e) • (fun i : Fin sc.E =>
        s i * Real.cos (2 * Real.pi * k / sc.E * i)) + Real.sin (2 * Real.pi * k / sc.E * e) • fun i : Fin sc.E =>
        s i * Real.sin (2 * Real.pi * k / sc.E * i) := by
      ext i
      simp only [wave, Pi.add_apply, Pi.smul_apply, smul_eq_mul]
      rw [Real.cos_sub]
      ring
    rw [e1, mulVec_add, mulVec_smul, mulVec_smul, h1, h2, smul_add, smul_comm, smul_comm (Real.sin _)]
  have hwf : ∀ k, wave k ⬝ᵥ f = s e := by
    intro k
    rw [hfd, dotProduct_single]
    simp [wave]
  have hdot : ∀ k : ℕ, q.eval (2 - 2 * Real.cos (2 * Real.pi * k / sc.E)) * s e =
      s e - circulation s f * (wave k ⬝ᵥ s) := by
    intro k
    have h1 : wave k ⬝ᵥ (aeval sc.L1 q).mulVec f = q.eval (2 - 2 * Real.cos (2 * Real.pi * k / sc.E)) * s e := by
      rw [dotProduct_mulVec, ← mulVec_transpose, aeval_symm hsym, aeval_eig _ _ (hw k), smul_dotProduct, hwf, smul_eq_mul]
    rw [← h1, ← hf, dotProduct_sub, dotProduct_smul, hwf, smul_eq_mul]
  have hse : s e ≠ 0 := fun h1 => by have := hss e; rw [h1] at this; simp at this
  have hcirc : circulation s f = s e / sc.E := by
    rw [circulation]
    congr 1
    have : s ⬝ᵥ f = s e := by rw [hfd, dotProduct_single, mul_one]
    exact this
  have hsn : s ⬝ᵥ s = sc.E := by
    have : s ⬝ᵥ s = ∑ i, s i * s i := rfl
    rw [this, Finset.sum_congr rfl fun i _ => hss i]
    simp
  have w0 : wave 0 = s := by ext i; simp [wave]
  have q0 : q.eval 0 = 0 := by
    have := hdot 0
    rw [w0, hsn, hcirc, div_mul_cancel₀ _ hEr.ne', sub_self] at this
    simpa [hse] using this
  have hanti : ∀ k : ℕ, k ≤ sc.E / 2 → 0 ≤ 2 * Real.pi * k / sc.E ∧ 2 * Real.pi * k / sc.E ≤ Real.pi := by
    intro k hk
    have hk2 : 2 * (k : ℝ) ≤ sc.E := by
      have : 2 * k ≤ sc.E := by omega
      exact_mod_cast this
    refine ⟨by positivity, ?_⟩
    rw [div_le_iff₀ hEr]
    nlinarith
  have hinj : ∀ j k : ℕ, j < k → k ≤ sc.E / 2 →
      2 - 2 * Real.cos (2 * Real.pi * j / sc.E) < 2 - 2 * Real.cos (2 * Real.pi * k / sc.E) := by
    intro j k hjk hk
    have hjk' : (j : ℝ) < k := by exact_mod_cast hjk
    have := Real.cos_lt_cos_of_nonneg_of_le_pi (hanti j (by omega)).1 (hanti k hk).2 (by
      rw [div_lt_div_iff_of_pos_right hEr]
      nlinarith)
    linarith
  have hs0 : sc.L1.mulVec s = 0 := by
    have := hw 0
    rw [w0] at this
    simpa using this
  have q1 : ∀ k : ℕ, 0 < k → k ≤ sc.E / 2 → q.eval (2 - 2 * Real.cos (2 * Real.pi * k / sc.E)) = 1 := by
    intro k hk hk2
    have hpos := hinj 0 k hk hk2
    simp only [Nat.cast_zero, mul_zero, zero_div, Real.cos_zero, mul_one, sub_self] at hpos
    have hort : wave k ⬝ᵥ s = 0 := by
      have h1 : sc.L1.mulVec (wave k) ⬝ᵥ s = 0 := by
        rw [← hsym, mulVec_transpose, ← dotProduct_mulVec, hs0, dotProduct_zero]
      rw [hw, smul_dotProduct, smul_eq_mul] at h1
      exact (mul_eq_zero.1 h1).resolve_left hpos.ne'
    have := hdot k
    rw [hort, mul_zero, sub_zero] at this
    exact mul_right_cancel₀ hse (by rw [this, one_mul])
  -- a polynomial of this degree does not take the value 1 so often
  have hne : q - 1 ≠ 0 := by
    intro h1
    have := congrArg (Polynomial.eval 0) h1
    rw [eval_sub, q0, eval_one, eval_zero] at this
    norm_num at this
  let S := (Finset.Icc 1 (sc.E / 2)).image fun k : ℕ => 2 - 2 * Real.cos (2 * Real.pi * k / sc.E)
  have hScard : S.card = sc.E / 2 := by
    rw [Finset.card_image_of_injOn, Nat.card_Icc, Nat.add_sub_cancel]
    intro a ha b hb hab
    have ha := Finset.mem_Icc.1 ha
    have hb := Finset.mem_Icc.1 hb
    rcases lt_trichotomy a b with h1 | h1 | h1
    · exact absurd hab (hinj a b h1 hb.2).ne
    · exact h1
    · exact absurd hab (hinj b a h1 ha.2).ne'
  have hsub : S.val ⊆ (q - 1).roots := by
    intro x hx
    obtain ⟨k, hk, rfl⟩ := Finset.mem_image.1 (show x ∈ S from hx)
    have hk := Finset.mem_Icc.1 hk
    rw [mem_roots hne, IsRoot, eval_sub, q1 k hk.1 hk.2, eval_one, sub_self]
  have h1 := (Multiset.card_le_card (Finset.val_le_iff_val_subset.2 hsub)).trans (card_roots' (q - 1))
  have h2 : (q - 1).natDegree ≤ L.toNat - 1 := (natDegree_sub_le _ _).trans (by simp [hqd])
  have h3 : Multiset.card S.val = sc.E / 2 := hScard
  omega

/-- such calls succeed -/
example (h : sc.IsRing s) (e : Fin sc.E) (st : FilterSt sc.E) : ∃ st',
    LSFilter.typeTwo lib sc st (Pi.single e 1) "gradient" 1 (1 / 10 ^ 6) = (.ok (), st') := by
  obtain ⟨a, ha⟩ := typeTwo_total lib sc h.nonempty (Pi.single e 1) "gradient" (by simp) 1 (by norm_num) (1 / 10 ^ 6)
  exact ⟨_, by rw [LSFilter.typeTwo, ha]; rfl⟩

/-- On every ring of at most 4000 edges some number of coefficients is enough, and rings have flows to extract. -/
example : ∃ (sc : SC ℝ) (s : Fin sc.E → ℝ), sc.IsRing s ∧ sc.E = 10 ∧
    ∀ (lib : NumLib) (st : FilterSt sc.E) (f : Fin sc.E → ℝ),
      ∃ st', LSFilter.typeTwo lib sc st f "gradient" 6 = (.ok (), st') ∧
        RecordsExactly st'.history (f - circulation s f • s) := by
  obtain ⟨sc, s, h, e⟩ := ring_exists 10 (by norm_num)
  exact ⟨sc, s, h, e, fun lib st f => C184_enough h (by omega) st f 6 (by rw [e]; norm_num)⟩

end Pytspl
