import Verif.Props.Progress
import Verif.Props.FilterError

/-!
# C163: the printed response error of the Chebyshev filter
-/

namespace Pytspl

open Matrix

variable {lib : NumLib} {series : ChebSeries} {sc : SC ℝ} {E : ℕ}

/-! ## Specification -/

/-- square root of the sum of the squares of the entries -/
noncomputable def frobenius (A : Matrix (Fin E) (Fin E) ℝ) : ℝ := Real.sqrt (∑ i, ∑ j, A i j ^ 2)

/-! ## Every stored filter is diagonal in the eigenbasis of the chosen Laplacian -/

private def Diag (U M : Matrix (Fin E) (Fin E) ℝ) : Prop := ∃ d : Fin E → ℝ, M * U = U * diagonal d

section closure
variable {U M N P : Matrix (Fin E) (Fin E) ℝ}

private theorem Diag.zero : Diag U 0 := ⟨0, by simp⟩

private theorem Diag.one : Diag U 1 := ⟨1, by simp⟩

private theorem Diag.smul (h : Diag U M) (c : ℝ) : Diag U (c • M) := by
  obtain ⟨d, h⟩ := h
  refine ⟨c • d, ?_⟩
  rw [smul_mul_assoc, h, ← mul_smul_comm, diagonal_smul]

private theorem Diag.sub (h : Diag U M) (h' : Diag U N) : Diag U (M - N) := by
  obtain ⟨d, h⟩ := h
  obtain ⟨d', h'⟩ := h'
  exact ⟨fun i => d i - d' i, by rw [sub_mul, h, h', ← diagonal_sub, Matrix.mul_sub]⟩

private theorem Diag.add (h : Diag U M) (h' : Diag U N) : Diag U (M + N) := by
  obtain ⟨d, h⟩ := h
  obtain ⟨d', h'⟩ := h'
  exact ⟨fun i => d i + d' i, by rw [add_mul, h, h', ← diagonal_add, Matrix.mul_add]⟩

private theorem Diag.mul (h : Diag U M) (h' : Diag U N) : Diag U (M * N) := by
  obtain ⟨d, h⟩ := h
  obtain ⟨d', h'⟩ := h'
  exact ⟨fun i => d i * d' i, by
    rw [Matrix.mul_assoc, h', ← Matrix.mul_assoc, h, Matrix.mul_assoc, diagonal_mul_diagonal]⟩

private theorem Diag.sum {l : List (Matrix (Fin E) (Fin E) ℝ)} (h : ∀ X ∈ l, Diag U X) : Diag U l.sum := by
  induction l with
  | nil => exact .zero
  | cons X l ih =>
    rw [List.sum_cons]
    exact (h X (by simp)).add (ih fun Y hY => h Y (by simp [hY]))

private theorem slot_diag (hP : Diag U P) (alpha : ℝ) (k : ℕ) : Diag U (Cheb.slot P alpha k) := by
  have h1 : ∀ c : ℝ, Diag U (c • (P - alpha • (1 : Matrix (Fin E) (Fin E) ℝ))) :=
    fun c => (hP.sub (Diag.one.smul _)).smul _
  induction k using Nat.strong_induction_on with
  | _ k ih =>
    match k, ih with
    | 0, _ => exact .one
    | 1, _ => exact h1 _
    | k + 2, ih =>
      rw [Cheb.slot]
      exact ((h1 _).mul (ih (k + 1) (by omega))).sub (ih k (by omega))

private theorem approximate_diag (hP : Diag U P) {c : List ℝ} {alpha : ℝ} {order : ℕ}
    (h : Cheb.approximate P c alpha order = .ok M) : Diag U M := by
  have key : ∀ (n : ℕ) (a : ℕ → ℝ) (s : ℕ → Matrix (Fin E) (Fin E) ℝ), (∀ k, Diag U (s k)) →
      Diag U ((List.range n).map fun k => a k • s k).sum := by
    intro n a s hs
    apply Diag.sum
    intro X hX
    obtain ⟨k, -, rfl⟩ := List.mem_map.1 hX
    exact (hs k).smul _
  have hslot : ∀ k, Diag U (if k < (c.take order).length then Cheb.slot P alpha k else 0) := by
    intro k
    split_ifs
    · exact slot_diag hP alpha k
    · exact .zero
  unfold Cheb.approximate at h
  simp only at h
  split_ifs at h with h1 h2 h3 h4
  · rw [← Except.ok.inj h]; exact key order _ _ hslot
  · rw [← Except.ok.inj h]; exact key order (fun _ => _) _ hslot
  · rw [← Except.ok.inj h]; exact key _ _ (fun _ => _) fun k => slot_diag hP alpha 0
  · rw [← Except.ok.inj h]; exact key _ _ (fun _ => _) fun k => .zero
end closure

private theorem frequencyApprox_diag {U P : Matrix (Fin sc.E) (Fin sc.E) ℝ} (hP : Diag U P) {pChoice : String}
    (h1 : sc.getPMatrix pChoice = .ok P) {coeffs : List ℝ} {alpha : ℝ} {L : ℕ}
    {H : List (Matrix (Fin sc.E) (Fin sc.E) ℝ)} (h : Cheb.frequencyApprox sc pChoice coeffs alpha L = .ok H) :
    ∀ M ∈ H, Diag U M := by
  have inv : ∀ (l : List ℕ) (H0 H : List (Matrix (Fin sc.E) (Fin sc.E) ℝ)), (∀ X ∈ H0, Diag U X) →
      l.foldlM (fun H k => do
        let M ← Cheb.approximate P coeffs alpha (k + 1)
        pure (Cheb.assignFrom H k M)) H0 = .ok H → ∀ X ∈ H, Diag U X := by
    intro l
    induction l with
    | nil =>
      intro H0 H h0 hH
      rw [← Except.ok.inj hH]; exact h0
    | cons k l ih =>
      intro H0 H h0 hH
      rw [List.foldlM_cons] at hH
      cases hM : Cheb.approximate P coeffs alpha (k + 1) with
      | error e => rw [hM] at hH; cases hH
      | ok M =>
        rw [hM] at hH
        refine ih _ H ?_ hH
        intro X hX
        unfold Cheb.assignFrom at hX
        obtain ⟨i, hi, rfl⟩ := List.mem_mapIdx.1 hX
        split_ifs
        all_goals first
          | exact approximate_diag hP hM
          | exact h0 _ (List.getElem_mem hi)
  unfold Cheb.frequencyApprox at h
  rw [h1] at h
  exact inv (List.range L) _ H (by
    intro X hX
    rw [List.eq_of_mem_replicate hX]
    exact .zero) h

/-! ## C163 -/

private theorem frob_diag {U A : Matrix (Fin E) (Fin E) ℝ} (hU : U.transpose * U = 1) {x : Fin E → ℝ}
    (h : A * U = U * diagonal x) : frobenius A = norm2 x := by
  have hU' : U * U.transpose = 1 := mul_eq_one_comm.mp hU
  have e1 : ∀ B : Matrix (Fin E) (Fin E) ℝ, ∑ i, ∑ j, B i j ^ 2 = (B.transpose * B).trace := by
    intro B
    rw [trace, Finset.sum_comm]
    refine Finset.sum_congr rfl fun j _ => ?_
    rw [diag_apply, mul_apply]
    exact Finset.sum_congr rfl fun i _ => by rw [transpose_apply, sq]
  have e2 : A = U * diagonal x * U.transpose := by
    rw [← h, Matrix.mul_assoc, hU', Matrix.mul_one]
  have e3 : A.transpose * A = U * (diagonal fun i => x i * x i) * U.transpose := by
    rw [e2, transpose_mul, transpose_mul, transpose_transpose, diagonal_transpose]
    calc U * (diagonal x * U.transpose) * (U * diagonal x * U.transpose)
        = U * diagonal x * (U.transpose * U) * diagonal x * U.transpose := by simp only [Matrix.mul_assoc]
      _ = U * (diagonal fun i => x i * x i) * U.transpose := by
        rw [hU, Matrix.mul_one, Matrix.mul_assoc U, diagonal_mul_diagonal]
  unfold frobenius norm2
  rw [e1, e3, trace_mul_comm, ← Matrix.mul_assoc, hU, Matrix.one_mul, trace_diagonal]
  rfl

private theorem ideal_inv {mask : List ℝ} {HI : Matrix (Fin sc.E) (Fin sc.E) ℝ} (hE : 0 < sc.E)
    (h : Cheb.getIdealFrequency lib sc mask = .ok HI) :
    HI = (lib.eigh sc.E sc.L1).2 * diagonal (fun i : Fin sc.E => mask[(i : ℕ)]?.getD 0) *
      (lib.eigh sc.E sc.L1).2.transpose := by
  unfold Cheb.getIdealFrequency at h
  have hP : sc.getPMatrix "L1" = .ok sc.L1 := by simp [SC.getPMatrix]
  simp only [hP, bind, Except.bind, getEigendecomposition_dense lib hE] at h
  split_ifs at h
  exact (Except.ok.inj h).symm

/-- C163: with the Hodge Laplacian, or with the lower Laplacian of a complex without triangles, the response error printed
for a filter is its distance from the ideal filter relative to the size of the ideal filter, in the Frobenius norm and to
four decimals.  What is missing: with the lower or the upper Laplacian of a complex with triangles the printed number is
something else (`C163_counterexample`). -/
theorem C163_response_error_partial {st st' : FilterSt sc.E} (hst : st.Valid) {f : Fin sc.E → ℝ}
    {pChoice component : String} {L : ℕ} {n : Option ℕ} {cutOff steep : ℝ}
    (hp : pChoice = "L1" ∨ pChoice = "L1L" ∧ sc.triangles = [])
    (h : Cheb.apply lib series sc st f pChoice component L n cutOff steep = (.ok (), st')) :
    ∃ H mask HIdeal, st'.history.get? "filter" = some (.mats H) ∧
      sc.getComponentCoefficients lib component = .ok mask ∧ Cheb.getIdealFrequency lib sc mask = .ok HIdeal ∧
      ∀ (k : ℕ) (line : ChebLine), (Cheb.applyLines lib series sc f pChoice component L n cutOff steep)[k]? = some line →
        ∃ M, H[k]? = some M ∧ line.responseError = round4 (fdiv (frobenius (M - HIdeal)) (frobenius HIdeal)) := by
  obtain ⟨H, errs, ferrs, g1, -, -, -, g2⟩ := C157_chebyshev_partial lib _ hst h
  obtain ⟨P, fTrue, mask, lam, coeffs, HI, H', hE, h1, -, h3, -, -, h6, h7, -, hs⟩ := chebApply_inv h
  have hH' : st'.history.get? "filter" = some (.mats H') := by
    rw [hs, FilterSt.history, setHistory_cur, (setHistory_get st hst _).1]
  obtain rfl : H = H' := by
    rw [g1] at hH'
    have := Option.some.inj hH'
    injection this
  have hPL : P = sc.L1 := by
    rcases hp with rfl | ⟨rfl, hT⟩
    · exact (Except.ok.inj (h1.symm.trans (by simp [SC.getPMatrix])))
    · have e : P = sc.L1l := (Except.ok.inj (h1.symm.trans (by simp [SC.getPMatrix])))
      have h0 : sc.L1u = 0 := by
        have hz : sc.triangles.length = 0 := by rw [hT]; rfl
        ext i j
        rw [SC.L1u, mul_apply, Matrix.zero_apply]
        refine Finset.sum_eq_zero fun t _ => ?_
        exact absurd t.2 (by omega)
      rw [e, SC.L1, h0, add_zero]
  subst hPL
  have hI := lib.isEig (symmPSD_L1 sc)
  have hHI := ideal_inv hE h6
  refine ⟨H, mask, HI, g1, h3, h6, fun k line hk => ?_⟩
  obtain ⟨-, -, -, P', M, mask', p1, p2, p3, p4⟩ := g2 k line hk
  obtain rfl : sc.L1 = P' := Except.ok.inj (h1.symm.trans p1)
  obtain rfl : mask = mask' := Except.ok.inj (h3.symm.trans p3)
  refine ⟨M, p2, ?_⟩
  rw [p4]
  obtain ⟨d, hd⟩ := frequencyApprox_diag ⟨_, hI.eig⟩ h1 h7 M (List.mem_of_getElem? p2)
  set U := (lib.eigh sc.E sc.L1).2 with hU
  set m : Fin sc.E → ℝ := fun i => mask[(i : ℕ)]?.getD 0 with hm
  have e1 : (fun i => (U.transpose * M * U) i i) = d := by
    funext i
    rw [Matrix.mul_assoc, hd, ← Matrix.mul_assoc, hI.orth, Matrix.one_mul, diagonal_apply_eq]
  have e2 : HI * U = U * diagonal m := by
    rw [hHI, Matrix.mul_assoc, hI.orth, Matrix.mul_one]
  have e3 : (M - HI) * U = U * diagonal (d - m) := by
    rw [sub_mul, hd, e2, ← Matrix.mul_sub, diagonal_sub]
    rfl
  rw [e1, frob_diag hI.orth e2, frob_diag hI.orth e3]
  rfl

/-! ### With the upper Laplacian -/

private theorem k4_upper_three : IsEigenvalue k4Tri.L1u 3 := by
  have := isEigenvalue_int (k4B2 * k4B2.transpose) ![1, -1, 0, 1, 0, 0] 3 0 (by decide) (by decide +kernel)
  rw [k4Tri, SC.ofInt_L1u]; exact_mod_cast this

private theorem k4_hodge_four : IsEigenvalue k4Tri.L1 4 := by
  have := isEigenvalue_int (k4B1.transpose * k4B1 + k4B2 * k4B2.transpose) ![-1, -1, -1, 0, 0, 0] 4 0 (by decide)
    (by decide +kernel)
  rw [k4Tri, SC.ofInt_L1]; exact_mod_cast this

private theorem k4_rank : k4Tri.B2.rank = 1 := by
  have h : ((k4B2.map (Int.cast : ℤ → ℝ)) : Matrix (Fin 6) (Fin 1) ℝ).rank = 1 := by
    rw [← rank_transpose_mul_self, rank_of_det_ne_zero, Fintype.card_fin]
    rw [det_unique, mul_apply]
    simp [Fin.sum_univ_succ, k4B2]
    norm_num
  exact h

private theorem sum_getD (l : List ℝ) : l.sum = ∑ i : Fin l.length, l[(i : ℕ)]?.getD 0 := by
  conv_lhs => rw [← List.ofFn_getElem (xs := l)]
  rw [List.sum_ofFn]
  exact Finset.sum_congr rfl fun i _ => by simp

/-- C163 is false: on the complete graph on four nodes with one filled triangle, with the upper Laplacian and the curl
component, the printed response error and the recorded filter error always add up to at least 1.  So a filter close to the
ideal one is printed with a response error close to 1 or above. -/
theorem C163_counterexample {st st' : FilterSt k4Tri.E} (hst : st.Valid) {f : Fin k4Tri.E → ℝ} {L : ℕ} {n : Option ℕ}
    {cutOff steep : ℝ} (h : Cheb.apply lib series k4Tri st f "L1U" "curl" L n cutOff steep = (.ok (), st')) :
    ∃ ferrs, st'.history.get? "filter_error" = some (.errs ferrs) ∧
      ∀ (k : ℕ) (line : ChebLine), (Cheb.applyLines lib series k4Tri f "L1U" "curl" L n cutOff steep)[k]? = some line →
        ∃ x e, line.responseError = round4 (some x) ∧ ferrs[k]? = some (some e) ∧ 1 ≤ x + e := by
  obtain ⟨H, errs, ferrs, g1, -, g3, -, g2⟩ := C157_chebyshev_partial lib _ hst h
  obtain ⟨H', ferrs', mask, HI, f1, f2, f3, f4, -, -, f5⟩ := C90_filter_error hst h
  obtain rfl : H = H' := by
    rw [g1] at f1
    have := Option.some.inj f1
    injection this
  obtain rfl : ferrs = ferrs' := by
    rw [g3] at f2
    have := Option.some.inj f2
    injection this
  have hE : 0 < k4Tri.E := by decide
  have hU := getEigendecomposition_dense lib hE k4Tri.L1 machineEps
  rw [snap_eq lib (symmPSD_L1 k4Tri) machineEps_le k4Tri_gap] at hU
  obtain ⟨mh, mc, mg, -, m2, -, -, l2, -, hm, -, hsum, -⟩ := C49_masks k4Tri_wellFormed k4Tri_gap _ _ hU
  obtain rfl : mask = mc := Except.ok.inj (f3.symm.trans m2)
  have hA := lib.isEig (symmPSD_L1 k4Tri)
  have hB := lib.isEig (symmPSD_L1u k4Tri)
  have hmonoA := (lib.eigh_spec _ _ (symmPSD_L1 k4Tri).1).1
  have hmonoB := (lib.eigh_spec _ _ (symmPSD_L1u k4Tri).1).1
  set wA := (lib.eigh k4Tri.E k4Tri.L1).1 with hwA
  set wB := (lib.eigh k4Tri.E k4Tri.L1u).1 with hwB
  set V := (lib.eigh k4Tri.E k4Tri.L1u).2 with hV
  let i5 : Fin k4Tri.E := (5 : Fin 6)
  have hlast : ∀ i : Fin k4Tri.E, i ≤ i5 := fun i => Fin.le_last (n := 5) i
  set u : Fin k4Tri.E → ℝ := fun k => V k i5 with hu
  -- the last eigenvector of the upper Laplacian is a curl flow
  have hw3 : wB i5 = 3 := by
    obtain ⟨v, hv, he⟩ := k4_upper_three
    obtain ⟨i, hi⟩ := hB.mem_of_eigen hv he
    have hle := hmonoB (hlast i)
    rcases k4Tri_upper ⟨_, hB.col_ne_zero i5, hB.col_eig i5⟩ with h0 | h0
    · rw [hi, h0] at hle; norm_num at hle
    · exact h0
  have hcol := hB.col_eig i5
  rw [hw3] at hcol
  have hproj : IsProj k4Tri.B2 u u := by
    apply IsProj.self
    refine ⟨(1 / 3 : ℝ) • k4Tri.B2.transpose.mulVec u, ?_⟩
    rw [mulVec_smul, mulVec_mulVec]
    have : (k4Tri.B2 * k4Tri.B2.transpose).mulVec u = (3 : ℝ) • u := hcol
    rw [this, smul_smul]
    norm_num
  have hHI : HI.mulVec u = u := by
    obtain ⟨Hh, Hc, Hg, hI, -⟩ := C65_harmonic lib k4Tri_wellFormed hE k4Tri_gap
    obtain ⟨m', c1, c2⟩ := hI.curl
    obtain rfl : mask = m' := Except.ok.inj (f3.symm.trans c1)
    obtain rfl : HI = Hc := Except.ok.inj (f4.symm.trans c2)
    have := (C65_gradient_curl lib k4Tri_wellFormed hE k4Tri_gap k4Tri_noShared _ _ _ hI u).1
    exact (curl_eq_of_proj this hproj).symm
  -- the mask has 0 in the last place
  have hm5 : mask[(i5 : ℕ)]? = some 0 := by
    rcases hm i5 with ⟨-, b, -⟩ | ⟨-, -, -, hpos, he⟩ | ⟨-, b, -⟩
    · exact b
    · exfalso
      obtain ⟨v, hv, hev⟩ := k4_hodge_four
      obtain ⟨i, hi⟩ := hA.mem_of_eigen hv hev
      have hle := hmonoA (hlast i)
      rw [hi] at hle
      rcases k4Tri_upper he with h0 | h0
      · linarith
      · linarith
    · exact b
  -- and norm 1
  have hnorm : norm2 (fun i : Fin k4Tri.E => mask[(i : ℕ)]?.getD 0) = 1 := by
    rw [norm2, Real.sqrt_eq_one]
    have hs : ∑ i : Fin k4Tri.E, mask[(i : ℕ)]?.getD 0 = 1 := by
      have h1 := hsum
      rw [k4_rank, sum_getD, Nat.cast_one] at h1
      rw [← h1]
      have : ∀ n (hn : n = mask.length), ∑ i : Fin n, mask[(i : ℕ)]?.getD 0 =
          ∑ i : Fin mask.length, mask[(i : ℕ)]?.getD 0 := by
        intro n hn; subst hn; rfl
      exact this _ l2.symm
    rw [← hs]
    refine Finset.sum_congr rfl fun i _ => ?_
    rcases hm i with ⟨-, b, -⟩ | ⟨-, b, -⟩ | ⟨-, b, -⟩ <;> simp [b]
  refine ⟨ferrs, g3, fun k line hk => ?_⟩
  obtain ⟨-, -, -, P, M, mask', p1, p2, p3, p4⟩ := g2 k line hk
  obtain rfl : k4Tri.L1u = P := Except.ok.inj ((show k4Tri.getPMatrix "L1U" = .ok k4Tri.L1u by
    simp [SC.getPMatrix]).symm.trans p1)
  obtain rfl : mask = mask' := Except.ok.inj (f3.symm.trans p3)
  obtain ⟨e, e1, e2, -⟩ := f5 k M p2
  refine ⟨norm2 ((fun i => (V.transpose * M * V) i i) - fun i : Fin k4Tri.E => mask[(i : ℕ)]?.getD 0), e, ?_, e1, ?_⟩
  · rw [p4, calculateErrorNRMSE, hnorm, fdiv, if_neg one_ne_zero, div_one]
  · have hun : norm2 u = 1 := by
      rw [norm2, Real.sqrt_eq_one]
      have := hB.col_dot i5 i5
      simpa using this
    have hr : (V.transpose * M * V) i5 i5 = u ⬝ᵥ M.mulVec u := by
      rw [Matrix.mul_assoc, mul_apply]
      rfl
    have h1 : |(V.transpose * M * V) i5 i5| ≤
        norm2 ((fun i => (V.transpose * M * V) i i) - fun i : Fin k4Tri.E => mask[(i : ℕ)]?.getD 0) := by
      rw [norm2]
      apply Real.abs_le_sqrt
      have h2 := Finset.single_le_sum (f := fun i : Fin k4Tri.E =>
        ((fun i => (V.transpose * M * V) i i) - fun i : Fin k4Tri.E => mask[(i : ℕ)]?.getD 0) i *
        ((fun i => (V.transpose * M * V) i i) - fun i : Fin k4Tri.E => mask[(i : ℕ)]?.getD 0) i)
        (fun i _ => mul_self_nonneg _) (Finset.mem_univ i5)
      refine le_trans (le_of_eq ?_) h2
      simp only [Pi.sub_apply]
      rw [hm5]
      simp [sq]
    have h2 := e2 u
    rw [hun, mul_one, hHI] at h2
    have h3 := dot_le_norm2 u (u - M.mulVec u)
    have h4 : norm2 (u - M.mulVec u) = norm2 (M.mulVec u - u) := by
      rw [← neg_sub, norm2, neg_dotProduct_neg, norm2]
    have h5 : u ⬝ᵥ u = 1 := by
      rw [← norm2_sq, hun]; norm_num
    rw [dotProduct_sub, h5, hun, one_mul, h4] at h3
    have h6 := le_abs_self ((V.transpose * M * V) i5 i5)
    rw [hr] at h6 h1
    linarith

/-! ### A call with an exact filter -/

private theorem lambdaMax_six {P : Matrix (Fin 6) (Fin 6) ℝ} {d : Fin 6 → ℝ} (hd : d = ![1, -1, 0, 1, 0, 0])
    (h1 : P.mulVec (fun _ => 1) = d) (h2 : P.mulVec d = (3 : ℝ) • d) : ∃ lam, lambdaMax P = some lam ∧ 0 < lam := by
  have hpow : ∀ k : ℕ, (P ^ (k + 1)).mulVec (fun _ => 1) = ((3 : ℝ) ^ k) • d := by
    intro k
    induction k with
    | zero => simpa using h1
    | succ k ih =>
      rw [pow_succ', ← mulVec_mulVec, ih, mulVec_smul, h2, smul_smul]
      congr 1
  obtain ⟨t, ht, htp⟩ : ∃ t : ℝ, t = 3 ^ 49 ∧ 0 < t := ⟨_, rfl, by positivity⟩
  have hx : (P ^ 50).mulVec (fun _ => 1) = t • d := ht ▸ hpow 49
  have hdd : d ⬝ᵥ d = 3 := by
    simp [hd, dotProduct, Fin.sum_univ_succ]
    norm_num
  have hne : (P ^ 50).mulVec (fun _ => 1) ≠ 0 := by
    rw [hx]
    intro h0
    have := congrFun h0 0
    simp [hd] at this
    exact htp.ne' this
  have hv := (C50_power_iteration P 50 (by norm_num)).2 hne
  have hs : Real.sqrt ((t • d) ⬝ᵥ (t • d)) = t * Real.sqrt 3 := by
    rw [smul_dotProduct, dotProduct_smul, hdd, smul_eq_mul, smul_eq_mul, ← mul_assoc, Real.sqrt_mul (by positivity),
      Real.sqrt_mul_self htp.le]
  have h3 : 0 < Real.sqrt 3 := by positivity
  obtain ⟨r, hr⟩ : ∃ r : ℝ, r = 1 / Real.sqrt 3 := ⟨_, rfl⟩
  obtain ⟨v, hvv⟩ : ∃ v : Fin 6 → ℝ, v = r • d + machineEps • fun _ => (1 : ℝ) := ⟨_, rfl⟩
  have hv' : powerIteration P = some v := by
    rw [hv, hx, hs, hvv]
    congr 1
    funext i
    simp only [Pi.add_apply, Pi.smul_apply, smul_eq_mul, mul_one, hr]
    field_simp
  have he := machineEps_pos
  have her : machineEps < r := by
    have h4 : Real.sqrt 3 < 2 := by
      rw [Real.sqrt_lt' (by norm_num)]; norm_num
    have h5 : (1 : ℝ) / 2 < r := by
      rw [hr]; exact one_div_lt_one_div_of_lt h3 h4
    have h6 : machineEps ≤ 1 / 2 := by unfold machineEps; norm_num
    linarith
  have hPv : P.mulVec v = (3 * r + machineEps) • d := by
    rw [hvv, mulVec_add, mulVec_smul, mulVec_smul, h1, h2, smul_smul, ← add_smul, mul_comm]
  clear hv hx hs hne hpow h1 h2 hdd ht hr h3
  have hvi : v = ![r + machineEps, -r + machineEps, machineEps, r + machineEps, machineEps, machineEps] := by
    rw [hvv, hd]
    funext i
    fin_cases i <;> simp
  generalize machineEps = e at *
  refine ⟨(∑ i, ((3 * r + e) • d) i / v i) / 6, ?_, ?_⟩
  · rw [lambdaMax, hv']
    simp only [Option.bind_eq_bind, Option.bind_some]
    rw [if_neg, hPv]
    · norm_num
    · rintro (⟨i, hi⟩ | h0)
      · rw [hvi] at hi
        fin_cases i <;> simp at hi <;> linarith
      · omega
  · have hp : 0 < 3 * r + e := by linarith
    have hm : 0 < (3 * r + e) * 1 / (r + e) := by
      rw [mul_one]
      apply div_pos hp; linarith
    have hm' : 0 < (3 * r + e) * (-1) / (-r + e) := by
      apply div_pos_of_neg_of_neg <;> linarith
    apply div_pos _ (by norm_num)
    rw [hvi, hd]
    have : ∑ i, ((3 * r + e) • (![1, -1, 0, 1, 0, 0] : Fin 6 → ℝ)) i / (![r + e, -r + e, e, r + e, e, e] : Fin 6 → ℝ) i =
        (3 * r + e) * 1 / (r + e) + (3 * r + e) * (-1) / (-r + e) + (3 * r + e) * 1 / (r + e) := by
      rw [Fin.sum_univ_six]
      simp
    rw [this]
    linarith

private theorem k4_lambdaMax : ∃ lam, lambdaMax k4Tri.L1u = some lam ∧ 0 < lam := by
  have hdi : (![1, -1, 0, 1, 0, 0] : Fin 6 → ℝ) = fun k => ((![1, -1, 0, 1, 0, 0] : Fin 6 → ℤ) k : ℝ) := by
    funext k; fin_cases k <;> simp
  rw [k4Tri, SC.ofInt_L1u]
  refine lambdaMax_six (P := (k4B2 * k4B2.transpose).map (Int.cast : ℤ → ℝ)) rfl ?_ ?_
  · have := mulVec_int (k4B2 * k4B2.transpose) (fun _ => 1) ![1, -1, 0, 1, 0, 0] (by decide +kernel)
    rw [hdi, ← this]
    simp
  · have := mulVec_int (k4B2 * k4B2.transpose) ![1, -1, 0, 1, 0, 0] (3 • ![1, -1, 0, 1, 0, 0]) (by decide +kernel)
    rw [hdi, this]
    funext k; simp

private theorem frequencyApprox_returns {pChoice : String} {P : Matrix (Fin sc.E) (Fin sc.E) ℝ}
    (hP : sc.getPMatrix pChoice = .ok P) {coeffs : List ℝ} {alpha : ℝ} (ha : alpha ≠ 0) {L : ℕ} (hL : L ≤ coeffs.length) :
    ∃ H, Cheb.frequencyApprox sc pChoice coeffs alpha L = .ok H := by
  have key : ∀ (l : List ℕ) (H0 : List (Matrix (Fin sc.E) (Fin sc.E) ℝ)), (∀ k ∈ l, k < L) →
      ∃ H, l.foldlM (fun H k => do
        let M ← Cheb.approximate P coeffs alpha (k + 1)
        pure (Cheb.assignFrom H k M)) H0 = Except.ok H := by
    intro l
    induction l with
    | nil => intro H0 _; exact ⟨H0, rfl⟩
    | cons k l ih =>
      intro H0 hl
      have hk := hl k (by simp)
      rw [List.foldlM_cons, C62_series P coeffs alpha ha (k + 1) (by omega)]
      exact ih _ fun j hj => hl j (by simp [hj])
  unfold Cheb.frequencyApprox
  rw [hP]
  exact key (List.range L) _ fun k hk => List.mem_range.1 hk

/-- C163: such calls exist, and the filter can be exact.  With a series routine that returns the two coefficients of
`x / 3` the call returns, the last stored filter is the ideal one (recorded filter error 0), and the response error printed
for it is at least 1. -/
theorem C163_exact_filter (lib : NumLib) (f : Fin k4Tri.E → ℝ) :
    ∃ (series : ChebSeries) (st' : FilterSt k4Tri.E) (ferrs : List (Option ℝ)) (line : ChebLine) (x : ℝ),
      Cheb.apply lib series k4Tri (initFilter _) f "L1U" "curl" 2 = (.ok (), st') ∧
      st'.history.get? "filter_error" = some (.errs ferrs) ∧ ferrs[1]? = some (some 0) ∧
      (Cheb.applyLines lib series k4Tri f "L1U" "curl" 2)[1]? = some line ∧
      line.responseError = round4 (some x) ∧ 1 ≤ x := by
  obtain ⟨lam, hl, hlam⟩ := k4_lambdaMax
  have hE : 0 < k4Tri.E := by decide
  have hst : (initFilter k4Tri.E).Valid := by simp [FilterSt.Valid, initFilter]
  have hP : k4Tri.getPMatrix "L1U" = .ok k4Tri.L1u := by simp [SC.getPMatrix]
  let series : ChebSeries := fun _ _ lam _ _ => .ok [lam / 6, lam / 6]
  obtain ⟨g, c, hh, hp⟩ := HodgeParts.exists lib k4Tri f
  obtain ⟨Hh, Hc, Hg, hI, -⟩ := C65_harmonic lib k4Tri_wellFormed hE k4Tri_gap
  obtain ⟨mask, hmask, hid⟩ := hI.curl
  have hα : lam / 2 ≠ 0 := by positivity
  obtain ⟨H, hH⟩ := frequencyApprox_returns hP (coeffs := [lam / 6, lam / 6]) hα (L := 2) (by simp)
  have hret : ∃ st', Cheb.apply lib series k4Tri (initFilter _) f "L1U" "curl" 2 = (.ok (), st') := by
    unfold Cheb.apply Cheb.applyDesign
    simp only [bind, Except.bind, getEigendecomposition_dense lib hE, hP, SC.getTrueSignal, hp.curl, hmask,
      Cheb.getAlpha, hl, pure, Except.pure, series, hid, hH]
    rw [if_neg (by rintro ⟨h, -⟩; revert h; decide)]
    exact ⟨_, rfl⟩
  obtain ⟨st', h⟩ := hret
  obtain ⟨ferrs, f1, f2⟩ := C163_counterexample hst h
  obtain ⟨P, lam', coeffs, Hs, p1, p2, p3, p4, p5⟩ := C63_last_partial hst (by norm_num) h
  obtain rfl : k4Tri.L1u = P := Except.ok.inj (hP.symm.trans p1)
  obtain rfl : lam = lam' := Option.some.inj (hl.symm.trans p2)
  obtain rfl : [lam / 6, lam / 6] = coeffs := Except.ok.inj p3
  have p6 := p5 (by simp) hlam.ne'
  have hM : chebSum k4Tri.L1u [lam / 6, lam / 6] (lam / 2) 2 = (1 / 3 : ℝ) • k4Tri.L1u := by
    unfold chebSum
    rw [Finset.sum_range_succ, Finset.sum_range_one]
    simp only [Nat.cast_zero, Nat.cast_one, Polynomial.Chebyshev.T_zero, Polynomial.Chebyshev.T_one, map_one,
      Polynomial.aeval_X, List.getElem?_cons_zero, List.getElem?_cons_succ, Option.getD_some]
    rw [smul_smul, smul_sub, smul_smul]
    have e1 : lam / 6 * (1 / (lam / 2)) = 1 / 3 := by field_simp; norm_num
    have e2 : lam / 6 * (1 / (lam / 2)) * (lam / 2) = lam / 6 := by field_simp
    rw [e2, e1]
    abel
  rw [hM] at p6
  -- the last filter is the ideal one
  obtain ⟨H', ferrs', mask', HI, q1, q2, q3, q4, q5, q6, q7⟩ := C90_filter_error hst h
  obtain rfl : Hs = H' := by
    rw [p4] at q1
    have := Option.some.inj q1
    injection this
  obtain rfl : ferrs = ferrs' := by
    rw [f1] at q2
    have := Option.some.inj q2
    injection this
  obtain rfl : mask = mask' := Except.ok.inj (hmask.symm.trans q3)
  obtain rfl : Hc = HI := Except.ok.inj (hid.symm.trans q4)
  obtain ⟨e, e1, -, x0, -, e3⟩ := q7 1 _ p6
  have hideal : ((1 / 3 : ℝ) • k4Tri.L1u).mulVec x0 = Hc.mulVec x0 := by
    have hc := (C65_gradient_curl lib k4Tri_wellFormed hE k4Tri_gap k4Tri_noShared _ _ _ hI x0).1
    have hB := lib.isEig (symmPSD_L1u k4Tri)
    refine curl_of_eig hB ?_ hc
    rw [smul_mul_assoc, hB.eig, ← mul_smul_comm, ← diagonal_smul]
    congr 2
    funext i
    rcases k4Tri_upper ⟨_, hB.col_ne_zero i, hB.col_eig i⟩ with h0 | h0 <;> simp [h0]
  have he0 : e = 0 := by
    rw [← e3, hideal, sub_self]
    exact norm2_eq_zero.mpr rfl
  obtain ⟨H'', _, _, g1, -, -, g4, -⟩ := C157_chebyshev_partial lib _ hst h
  have hlen : (Cheb.applyLines lib series k4Tri f "L1U" "curl" 2).length = 2 := by
    rw [g4]
    rw [p4] at g1
    have := Option.some.inj g1
    injection this with this
    rw [← this, q6]
  obtain ⟨line, hline⟩ : ∃ line, (Cheb.applyLines lib series k4Tri f "L1U" "curl" 2)[1]? = some line :=
    ⟨_, List.getElem?_eq_getElem (by omega)⟩
  obtain ⟨x, e', r1, r2, r3⟩ := f2 1 line hline
  rw [e1] at r2
  have : e = e' := by simpa using r2
  refine ⟨series, st', ferrs, line, x, h, f1, by rw [e1, he0], hline, r1, ?_⟩
  rw [← this, he0, add_zero] at r3
  exact r3

/-- non-trivial instance of the partial theorem: a filled triangle with the Hodge Laplacian, with any routine that returns
enough coefficients -/
example (lib : NumLib) (series : ChebSeries) (f : Fin tri.E → ℝ) (L : ℕ)
    (hs : ∀ lam, ∃ coeffs, series L 0 lam (1 / 100) 100 = .ok coeffs ∧ coeffs.length = L) :
    ∃ st', Cheb.apply lib series tri (initFilter _) f "L1" "gradient" L = (.ok (), st') ∧
      ∃ H mask HIdeal, st'.history.get? "filter" = some (.mats H) ∧
        tri.getComponentCoefficients lib "gradient" = .ok mask ∧ Cheb.getIdealFrequency lib tri mask = .ok HIdeal ∧
        ∀ (k : ℕ) (line : ChebLine), (Cheb.applyLines lib series tri f "L1" "gradient" L)[k]? = some line →
          ∃ M, H[k]? = some M ∧ line.responseError = round4 (fdiv (frobenius (M - HIdeal)) (frobenius HIdeal)) := by
  have hE : 0 < tri.E := by decide
  have hst : (initFilter tri.E).Valid := by simp [FilterSt.Valid, initFilter]
  have hP : tri.getPMatrix "L1" = .ok tri.L1 := by simp [SC.getPMatrix]
  have hone : tri.L1.mulVec (fun _ => 1) = (3 : ℝ) • fun _ => 1 := by rw [tri_L1, smul_mulVec, one_mulVec]
  obtain ⟨lam, hl⟩ : ∃ lam, lambdaMax tri.L1 = some lam :=
    lambdaMax_finite hE tri.L1 (fun _ => 1) 3 3 (by norm_num) (by norm_num) hone hone (by
      intro i
      have : machineEps ^ 2 * 3 < 1 := by unfold machineEps; norm_num
      have e : ((fun _ : Fin tri.E => (1 : ℝ)) ⬝ᵥ fun _ => 1) = 3 := by
        have : ((fun _ : Fin 3 => (1 : ℝ)) ⬝ᵥ fun _ => 1) = 3 := by simp [dotProduct]
        exact this
      simp only [e]
      linarith)
  have hlam := lambdaMax_pos tri.L1 (fun _ => 1) 3 3 (by norm_num) (by norm_num) hone hone (by intro; norm_num) hl
  obtain ⟨coeffs, h1, h2⟩ := hs lam
  have hgap : NoSmallEigenvalue tri.L1 (1 / 1000) := by
    intro mu v hv h hm
    rw [tri_L1, smul_mulVec, one_mulVec] at h
    have : (3 - mu) • v = 0 := by rw [sub_smul, h, sub_self]
    rcases smul_eq_zero.1 this with h | h
    · linarith [hm.2]
    · exact hv h
  obtain ⟨g, c, hh, hp⟩ := HodgeParts.exists lib tri f
  obtain ⟨Hh, Hc, Hg, hI, -⟩ := C65_harmonic lib tri_wellFormed hE hgap
  obtain ⟨mask, hmask, hid⟩ := hI.grad
  obtain ⟨H, hH⟩ := frequencyApprox_returns hP (coeffs := coeffs) (alpha := lam / 2) (by positivity) (L := L) h2.ge
  have hret : ∃ st', Cheb.apply lib series tri (initFilter _) f "L1" "gradient" L = (.ok (), st') := by
    unfold Cheb.apply Cheb.applyDesign
    simp only [bind, Except.bind, getEigendecomposition_dense lib hE, hP, SC.getTrueSignal, hp.grad, hmask,
      Cheb.getAlpha, hl, pure, Except.pure, Option.getD_none, if_true, h1, hid, hH]
    rw [if_neg (by rintro ⟨h, -⟩; revert h; decide)]
    exact ⟨_, rfl⟩
  obtain ⟨st', h⟩ := hret
  exact ⟨st', h, C163_response_error_partial hst (.inl rfl) h⟩

end Pytspl
