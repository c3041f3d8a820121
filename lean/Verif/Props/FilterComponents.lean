import Verif.Props.Locality
import Verif.Props.EdgeFlow
import Verif.Props.TrendFilter

/-!
# C142: filters keep the Hodge components apart

Filtering a flow and then decomposing it gives the same as decomposing it and then filtering the components: no filter
of the package moves anything from one component to another.  On the flows that the chosen matrix does not see, a
filter is multiplication by a number.
-/

namespace Pytspl

open Matrix Polynomial

variable {lib : NumLib} {series : ChebSeries} {sc : SC ℝ} {E : ℕ}

/-! ## Specification -/

/-- The components of a filtered flow, as `get_component_flow` returns them, are the filtered components. -/
def KeepsComponents (lib : NumLib) (sc : SC ℝ) (H : Matrix (Fin sc.E) (Fin sc.E) ℝ) : Prop :=
  ∀ f g c h, HodgeParts lib sc f g c h →
    HodgeParts lib sc (H.mulVec f) (H.mulVec g) (H.mulVec c) (H.mulVec h)

/-- All flows that the matrix of choice `pChoice` does not see are multiplied by the same number: the flows without
divergence and without curl, for `"L1L"` also those with curl, for `"L1U"` also those with divergence. -/
def ScalesUnseen (sc : SC ℝ) (pChoice : String) (H : Matrix (Fin sc.E) (Fin sc.E) ℝ) : Prop :=
  ∃ r : ℝ, ∀ x, (pChoice ≠ "L1U" → sc.getDivergence x = 0) → (pChoice ≠ "L1L" → sc.getCurl x = 0) →
    H.mulVec x = r • x

/-! ## Auxiliary facts -/

/-- projections onto the range of `A` are carried over by `H` -/
def KeepsProj {m n : ℕ} (A : Matrix (Fin m) (Fin n) ℝ) (H : Matrix (Fin m) (Fin m) ℝ) : Prop :=
  ∀ f g, IsProj A f g → IsProj A (H.mulVec f) (H.mulVec g)

section keeps
variable {m n : ℕ} {A : Matrix (Fin m) (Fin n) ℝ} {H K : Matrix (Fin m) (Fin m) ℝ}

theorem KeepsProj.one : KeepsProj A 1 := fun f g h => by rwa [one_mulVec, one_mulVec]

theorem KeepsProj.add (h1 : KeepsProj A H) (h2 : KeepsProj A K) : KeepsProj A (H + K) := by
  intro f g h
  have := (h1 f g h).add (h2 f g h) 1 1
  rwa [one_smul, one_smul, one_smul, one_smul, ← add_mulVec, ← add_mulVec] at this

theorem KeepsProj.smul (r : ℝ) (h1 : KeepsProj A H) : KeepsProj A (r • H) := by
  intro f g h
  have := (h1 f g h).add (h1 f g h) r 0
  rwa [zero_smul, zero_smul, add_zero, add_zero, ← smul_mulVec, ← smul_mulVec] at this

theorem KeepsProj.mul (h1 : KeepsProj A H) (h2 : KeepsProj A K) : KeepsProj A (H * K) := by
  intro f g h
  rw [← mulVec_mulVec, ← mulVec_mulVec]
  exact h1 _ _ (h2 _ _ h)

theorem KeepsProj.inv (lib : NumLib) (h1 : KeepsProj A H) (hd : H.det ≠ 0) : KeepsProj A H⁻¹ := by
  have hu : IsUnit H.det := isUnit_iff_ne_zero.2 hd
  intro f g h
  have h2 := lib.isProj A (H⁻¹.mulVec f)
  have h3 := h1 _ _ h2
  rw [mulVec_mulVec, mul_nonsing_inv _ hu, one_mulVec] at h3
  have h4 := h3.unique h
  have h5 : ∀ x, H⁻¹.mulVec (H.mulVec x) = x := fun x => by rw [mulVec_mulVec, nonsing_inv_mul _ hu, one_mulVec]
  rw [← h4, h5]
  exact h2

theorem KeepsProj.own : KeepsProj A (A * A.transpose) := by
  rintro f g ⟨-, h⟩
  have : (A * A.transpose).mulVec g = (A * A.transpose).mulVec f := by
    rw [← mulVec_mulVec, h, mulVec_mulVec]
  rw [this]
  exact .self ⟨A.transpose.mulVec f, by rw [mulVec_mulVec]⟩

theorem KeepsProj.other (h1 : H * A = 0) (h2 : A.transpose * H = 0) : KeepsProj A H := by
  rintro f g ⟨⟨x, rfl⟩, -⟩
  rw [mulVec_mulVec, h1, zero_mulVec]
  exact .zero (by rw [mulVec_mulVec, h2, zero_mulVec])

end keeps

/-- what the filters of the package have in common -/
structure Sep (sc : SC ℝ) (pChoice : String) (H : Matrix (Fin sc.E) (Fin sc.E) ℝ) : Prop where
  grad : KeepsProj sc.B1.transpose H
  curl : KeepsProj sc.B2 H
  unseen : ScalesUnseen sc pChoice H

section sep
variable {p : String} {H K : Matrix (Fin sc.E) (Fin sc.E) ℝ}

theorem Sep.keeps (h : Sep sc p H) : KeepsComponents lib sc H := by
  intro f g c k hp
  obtain ⟨h1, h2, rfl⟩ := hp.proj
  have := HodgeParts.of_proj lib (h.grad _ _ h1) (h.curl _ _ h2)
  rwa [← mulVec_sub, ← mulVec_sub] at this

theorem Sep.one : Sep sc p 1 :=
  ⟨.one, .one, 1, fun x _ _ => by rw [one_mulVec, one_smul]⟩

theorem Sep.add (h1 : Sep sc p H) (h2 : Sep sc p K) : Sep sc p (H + K) := by
  obtain ⟨r, hr⟩ := h1.unseen
  obtain ⟨s, hs⟩ := h2.unseen
  exact ⟨h1.grad.add h2.grad, h1.curl.add h2.curl, r + s,
    fun x a b => by rw [add_mulVec, hr x a b, hs x a b, add_smul]⟩

theorem Sep.smul (t : ℝ) (h1 : Sep sc p H) : Sep sc p (t • H) := by
  obtain ⟨r, hr⟩ := h1.unseen
  exact ⟨h1.grad.smul t, h1.curl.smul t, t * r, fun x a b => by rw [smul_mulVec, hr x a b, smul_smul]⟩

theorem Sep.zero : Sep sc p 0 := by
  have := (Sep.one (sc := sc) (p := p)).smul 0
  rwa [zero_smul] at this

theorem Sep.sub (h1 : Sep sc p H) (h2 : Sep sc p K) : Sep sc p (H - K) := by
  have := h1.add (h2.smul (-1))
  rwa [neg_one_smul, ← sub_eq_add_neg] at this

theorem Sep.mul (h1 : Sep sc p H) (h2 : Sep sc p K) : Sep sc p (H * K) := by
  obtain ⟨r, hr⟩ := h1.unseen
  obtain ⟨s, hs⟩ := h2.unseen
  exact ⟨h1.grad.mul h2.grad, h1.curl.mul h2.curl, s * r,
    fun x a b => by rw [← mulVec_mulVec, hs x a b, mulVec_smul, hr x a b, smul_smul]⟩

theorem Sep.inv (lib : NumLib) (h1 : Sep sc p H) (hd : H.det ≠ 0) : Sep sc p H⁻¹ := by
  obtain ⟨r, hr⟩ := h1.unseen
  refine ⟨h1.grad.inv lib hd, h1.curl.inv lib hd, r⁻¹, fun x a b => ?_⟩
  have hu : IsUnit H.det := isUnit_iff_ne_zero.2 hd
  have h2 : r • H⁻¹.mulVec x = x := by
    rw [← mulVec_smul, ← hr x a b, mulVec_mulVec, nonsing_inv_mul _ hu, one_mulVec]
  by_cases h0 : r = 0
  · rw [h0, zero_smul] at h2
    rw [← h2, mulVec_zero, smul_zero]
  · nth_rewrite 2 [← h2]
    rw [smul_smul, inv_mul_cancel₀ h0, one_smul]

theorem Sep.sum {l : List (Matrix (Fin sc.E) (Fin sc.E) ℝ)} (h : ∀ X ∈ l, Sep sc p X) : Sep sc p l.sum := by
  induction l with
  | nil => exact .zero
  | cons X l ih =>
    rw [List.sum_cons]
    exact (h X List.mem_cons_self).add (ih fun Y hY => h Y (List.mem_cons_of_mem _ hY))

theorem Sep.aeval (h : Sep sc p H) (q : ℝ[X]) : Sep sc p (Polynomial.aeval H q) := by
  induction q using Polynomial.induction_on' with
  | add a b ha hb => rw [map_add]; exact ha.add hb
  | monomial n c =>
    rw [aeval_monomial, ← Algebra.smul_def]
    refine Sep.smul _ ?_
    induction n with
    | zero => rw [pow_zero]; exact .one
    | succ n ih => rw [pow_succ]; exact ih.mul h

theorem sep_l1l (hw : sc.WellFormed) (hp : p ≠ "L1U") : Sep sc p sc.L1l := by
  have h12 := hw.b1_mul_b2
  refine ⟨?_, .other ?_ ?_, 0, fun x a _ => ?_⟩
  · have := KeepsProj.own (A := sc.B1.transpose)
    rwa [transpose_transpose] at this
  · rw [SC.L1l, Matrix.mul_assoc, h12, Matrix.mul_zero]
  · rw [SC.L1l, ← Matrix.mul_assoc, ← transpose_mul, h12, transpose_zero, Matrix.zero_mul]
  · have : sc.B1.mulVec x = 0 := a hp
    rw [SC.L1l, ← mulVec_mulVec, this, mulVec_zero, zero_smul]

theorem sep_l1u (hw : sc.WellFormed) (hp : p ≠ "L1L") : Sep sc p sc.L1u := by
  have h12 := hw.b1_mul_b2
  refine ⟨.other ?_ ?_, .own, 0, fun x _ b => ?_⟩
  · rw [SC.L1u, Matrix.mul_assoc, ← transpose_mul, h12, transpose_zero, Matrix.mul_zero]
  · rw [SC.L1u, transpose_transpose, ← Matrix.mul_assoc, h12, Matrix.zero_mul]
  · have : sc.B2.transpose.mulVec x = 0 := b hp
    rw [SC.L1u, ← mulVec_mulVec, this, mulVec_zero, zero_smul]

theorem sep_p (hw : sc.WellFormed) {P : Matrix (Fin sc.E) (Fin sc.E) ℝ} (hP : sc.getPMatrix p = .ok P) :
    Sep sc p P := by
  unfold SC.getPMatrix at hP
  split_ifs at hP with h1 h2 h3
  · rw [← Except.ok.inj hP]
    exact (sep_l1l hw (by rw [h1]; decide)).add (sep_l1u hw (by rw [h1]; decide))
  · rw [← Except.ok.inj hP]
    exact sep_l1l hw (by rw [h2]; decide)
  · rw [← Except.ok.inj hP]
    exact sep_l1u hw (by rw [h3]; decide)

end sep

/-- a recorded polynomial filter -/
private theorem record_sep {p : String} {P : Matrix (Fin sc.E) (Fin sc.E) ℝ} (hP : Sep sc p P) {ev al : List ℝ} {L : Int}
    {U : Matrix (Fin sc.E) (Fin sc.E) ℝ} {f fTrue : Fin sc.E → ℝ} {a : Applied sc.E}
    (ha : applyFilter lib f fTrue P U ev al L = .ok a) {st st' : FilterSt sc.E} (hst : st.Valid)
    (hs : st' = setHistory st a.design) :
    ∃ H, st'.history.get? "filter" = some (.mat H) ∧ st'.history.get? "f_estimated" = some (.vec (H.mulVec f)) ∧
      KeepsComponents lib sc H ∧ ScalesUnseen sc p H := by
  obtain ⟨hL, hlen⟩ := applyFilter_pos lib ha
  rw [applyFilter_eq lib f fTrue P U ev al L hL hlen] at ha
  have ha := Except.ok.inj ha
  have hS := hP.aeval (polyAt lib (fun i : Fin ev.length => ev[i]) (fun i => al[(i : ℕ)]?.getD 0) L.toNat (L.toNat - 1))
  refine ⟨_, ?_, ?_, hS.keeps, hS.unseen⟩
  · rw [hs, FilterSt.history, setHistory_cur, (setHistory_get _ hst _).1, ← ha]; rfl
  · rw [hs, FilterSt.history, setHistory_cur, (setHistory_get _ hst _).2.1, ← ha]; rfl

/-! ## C142 -/

/-- C142 for `LSFilterDesign.subcomponent_extraction_type_one`. -/
theorem C142_type_one (hw : sc.WellFormed) (st st' : FilterSt sc.E) (f : Fin sc.E → ℝ) (component : String) (L : Int)
    (h : LSFilter.typeOne lib sc st f component L = (.ok (), st')) :
    ∃ H, st'.history.get? "filter" = some (.mat H) ∧ st'.history.get? "f_estimated" = some (.vec (H.mulVec f)) ∧
      KeepsComponents lib sc H ∧ ScalesUnseen sc "L1" H := by
  obtain ⟨a, ha, hs⟩ := record_ok h
  obtain ⟨w, t, al, -, -, -, h4⟩ := typeOne_inv ha
  exact record_sep ((sep_l1l hw (by decide)).add (sep_l1u hw (by decide))) h4 (resetHistory_valid st) hs

/-- C142 for `LSFilterDesign.subcomponent_extraction_type_two`. -/
theorem C142_type_two (hw : sc.WellFormed) (st st' : FilterSt sc.E) (f : Fin sc.E → ℝ) (component : String) (L : Int)
    (tol : ℝ) (h : LSFilter.typeTwo lib sc st f component L tol = (.ok (), st')) :
    ∃ H, st'.history.get? "filter" = some (.mat H) ∧ st'.history.get? "f_estimated" = some (.vec (H.mulVec f)) ∧
      KeepsComponents lib sc H ∧ ScalesUnseen sc (if component = "curl" then "L1U" else "L1L") H := by
  obtain ⟨a, ha, hs⟩ := record_ok h
  obtain ⟨P, w, t, h0, -, -, h3⟩ := typeTwo_inv ha
  refine record_sep ?_ h3 (resetHistory_valid st) hs
  rcases h0 with ⟨rfl, rfl⟩ | ⟨rfl, rfl⟩
  · exact sep_l1l hw (by decide)
  · exact sep_l1u hw (by decide)

/-- C142 for `GridBasedFilterDesign.subcomponent_extraction`. -/
theorem C142_grid_extraction (hw : sc.WellFormed) (st st' : FilterSt sc.E) (hst : st.Valid) (f : Fin sc.E → ℝ)
    (component pChoice : String) (L num : Int) (mu cutOff steep : ℝ)
    (h : GridFilter.subcomponentExtraction lib sc st f component pChoice L num mu cutOff steep = (.ok (), st')) :
    ∃ H, st'.history.get? "filter" = some (.mat H) ∧ st'.history.get? "f_estimated" = some (.vec (H.mulVec f)) ∧
      KeepsComponents lib sc H ∧ ScalesUnseen sc pChoice H := by
  obtain ⟨a, ha, hs⟩ := record_ok h
  obtain ⟨P, t, resp, pts, h0, -, -, h3⟩ := extraction_inv ha
  exact record_sep (sep_p hw h0) h3 hst hs

/-- C142 for `GridBasedFilterDesign.denoise`. -/
theorem C142_grid_denoise (hw : sc.WellFormed) (st st' : FilterSt sc.E) (hst : st.Valid) (f fTrue : Fin sc.E → ℝ)
    (pChoice : String) (L : Int) (mu : ℝ) (h : GridFilter.denoise lib sc st f fTrue pChoice L mu = (.ok (), st')) :
    ∃ H, st'.history.get? "filter" = some (.mat H) ∧ st'.history.get? "f_estimated" = some (.vec (H.mulVec f)) ∧
      KeepsComponents lib sc H ∧ ScalesUnseen sc pChoice H := by
  obtain ⟨a, ha, hs⟩ := record_ok h
  obtain ⟨P, resp, pts, g, h0, -, -, h3⟩ := denoise_inv ha
  exact record_sep (sep_p hw h0) h3 hst hs

/-- what a call of `EdgeFlowDenoising.denoise` that returns has recorded -/
theorem edgeFlow_inv {st st' : FilterSt sc.E} (hst : st.Valid) {f fTrue : Fin sc.E → ℝ} {pChoice : String}
    {muVals : List ℝ} (h : edgeFlowDenoise lib sc st f fTrue pChoice muVals = (.ok (), st')) :
    ∃ P mu, sc.getPMatrix pChoice = .ok P ∧ muVals.getLast? = some mu ∧ (1 + mu • P).det ≠ 0 ∧
      st'.history.get? "filter" = some (.mat (1 + mu • P)⁻¹) ∧
      st'.history.get? "f_estimated" = some (.vec ((1 + mu • P)⁻¹.mulVec f)) := by
  unfold edgeFlowDenoise at h
  cases hd : edgeFlowDesign lib sc f fTrue pChoice muVals with
  | error e => rw [hd] at h; cases h
  | ok d =>
    rw [hd] at h
    obtain rfl : setHistory st d = st' := (Prod.mk.inj h).2
    unfold edgeFlowDesign at hd
    cases hP : sc.getPMatrix pChoice with
    | error e => rw [hP] at hd; cases hd
    | ok P =>
      cases hU : getEigendecomposition lib (.ndarray P) with
      | error e => simp only [hP, bind, Except.bind, hU] at hd; cases hd
      | ok r =>
        obtain ⟨U, w⟩ := r
        cases hm : muVals.mapM (muPass P U f fTrue) with
        | error e => simp only [hP, bind, Except.bind, hU, hm] at hd; cases hd
        | ok ps =>
          simp only [hP, bind, Except.bind, hU, hm] at hd
          have hf := mapM_eq_ok hm
          cases hl : ps.getLast? with
          | none => rw [hl] at hd; cases hd
          | some q =>
            rw [hl] at hd
            have hd := Except.ok.inj hd
            have hlen := hf.length_eq
            rw [List.getLast?_eq_getElem?] at hl
            obtain ⟨hi, hq⟩ := List.getElem?_eq_some_iff.1 hl
            have hi' : ps.length - 1 < muVals.length := by omega
            have := (List.forall₂_iff_get.1 hf).2 _ hi' hi
            simp only [List.get_eq_getElem, hq] at this
            unfold muPass npInv at this
            split_ifs at this with h0
            · cases this
            · have this := Except.ok.inj this
              refine ⟨P, _, rfl, ?_, h0, ?_, ?_⟩
              · rw [List.getLast?_eq_getElem?, show muVals.length - 1 = ps.length - 1 by omega]
                exact List.getElem?_eq_getElem hi'
              · rw [FilterSt.history, setHistory_cur, (setHistory_get st hst _).1, ← hd, ← this]
              · rw [FilterSt.history, setHistory_cur, (setHistory_get st hst _).2.1, ← hd, ← this]

/-- C142 for `EdgeFlowDenoising.denoise`, for regularisation parameters of either sign. -/
theorem C142_edge_flow (hw : sc.WellFormed) (st st' : FilterSt sc.E) (hst : st.Valid) (f fTrue : Fin sc.E → ℝ)
    (pChoice : String) (muVals : List ℝ) (h : edgeFlowDenoise lib sc st f fTrue pChoice muVals = (.ok (), st')) :
    ∃ H, st'.history.get? "filter" = some (.mat H) ∧ st'.history.get? "f_estimated" = some (.vec (H.mulVec f)) ∧
      KeepsComponents lib sc H ∧ ScalesUnseen sc pChoice H := by
  obtain ⟨P, mu, hP, -, h0, h1, h2⟩ := edgeFlow_inv hst h
  have hS := (Sep.one.add ((sep_p hw hP).smul mu)).inv lib h0
  exact ⟨_, h1, h2, hS.keeps, hS.unseen⟩

/-- C142 for `SimplicialTrendFilter.denoising_l2_regularizer`, with which every stored estimate is formed. -/
theorem C142_trend_l2 (hw : sc.WellFormed) (hE : 0 < sc.E) (st : TrendHistory sc.E) (flow : Fin sc.E → ℝ)
    (component : String) (hc : component = "divergence" ∨ component = "curl") (realisations : ℕ)
    (hr : 0 < realisations) (snrDb : List ℝ) (hs : snrDb ≠ []) (mu : ℝ) (hmu : 0 ≤ mu)
    (noise : ℕ → ℕ → Fin sc.E → ℝ) :
    ∃ st' H, sc.denoisingL2 st flow component realisations snrDb mu noise = (.ok (), st') ∧
      st'.filter = some H ∧ KeepsComponents lib sc H ∧ ScalesUnseen sc "L1L" H ∧
      ∀ (i j : ℕ) (db : ℝ) (x : Fin sc.E → ℝ), snrDb[i]? = some db → j < realisations → Stored st' i j x →
        x = H.mulVec (noisy flow db (noise i j)) := by
  obtain ⟨st', H, h1, h2, h3, -, h4⟩ := C67_divergence_partial sc hE st flow component hc realisations hr snrDb hs mu hmu
    noise
  have hd := det_ne_zero_of_psd (symmPSD_L1l sc) hmu
  have hu : IsUnit (1 + mu • sc.L1l).det := isUnit_iff_ne_zero.2 hd
  have h3 : (1 + mu • sc.L1l) * H = 1 := h3
  have hH : H = (1 + mu • sc.L1l)⁻¹ := (inv_eq_right_inv h3).symm
  have hS := (Sep.one.add ((sep_l1l (p := "L1L") hw (by decide)).smul mu)).inv lib hd
  rw [← hH] at hS
  refine ⟨st', H, h1, h2, hS.keeps, hS.unseen, fun i j db x hi hj hx => ?_⟩
  obtain ⟨h5, -⟩ := h4 i j db x hi hj hx
  rw [← h5]
  have : x + mu • sc.B1.transpose.mulVec (sc.getDivergence x) = (1 + mu • sc.L1l).mulVec x := by
    rw [add_mulVec, one_mulVec, smul_mulVec, SC.L1l, ← mulVec_mulVec]; rfl
  rw [this, mulVec_mulVec, hH, nonsing_inv_mul _ hu, one_mulVec]

private theorem slot_sep {p : String} {P : Matrix (Fin sc.E) (Fin sc.E) ℝ} (hP : Sep sc p P) (alpha : ℝ) (k : ℕ) :
    Sep sc p (Cheb.slot P alpha k) := by
  have h1 : ∀ c : ℝ, Sep sc p (c • (P - alpha • (1 : Matrix (Fin sc.E) (Fin sc.E) ℝ))) :=
    fun c => (hP.sub (Sep.one.smul _)).smul _
  induction k using Nat.strong_induction_on with
  | _ k ih =>
    match k, ih with
    | 0, _ => exact .one
    | 1, _ => exact h1 _
    | k + 2, ih =>
      rw [Cheb.slot]
      exact ((h1 _).mul (ih (k + 1) (by omega))).sub (ih k (by omega))

private theorem approximate_sep {p : String} {P : Matrix (Fin sc.E) (Fin sc.E) ℝ} (hP : Sep sc p P) {c : List ℝ}
    {alpha : ℝ} {order : ℕ} {M : Matrix (Fin sc.E) (Fin sc.E) ℝ} (h : Cheb.approximate P c alpha order = .ok M) :
    Sep sc p M := by
  have key : ∀ (n : ℕ) (a : ℕ → ℝ) (s : ℕ → Matrix (Fin sc.E) (Fin sc.E) ℝ), (∀ k, Sep sc p (s k)) →
      Sep sc p ((List.range n).map fun k => a k • s k).sum := by
    intro n a s hs
    apply Sep.sum
    intro X hX
    obtain ⟨k, -, rfl⟩ := List.mem_map.1 hX
    exact (hs k).smul _
  have hslot : ∀ k, Sep sc p (if k < (c.take order).length then Cheb.slot P alpha k else 0) := by
    intro k
    split_ifs
    · exact slot_sep hP alpha k
    · exact .zero
  unfold Cheb.approximate at h
  simp only at h
  split_ifs at h with h1 h2 h3 h4
  · rw [← Except.ok.inj h]; exact key order _ _ hslot
  · rw [← Except.ok.inj h]; exact key order (fun _ => _) _ hslot
  · rw [← Except.ok.inj h]; exact key _ _ (fun _ => _) fun k => slot_sep hP alpha 0
  · rw [← Except.ok.inj h]; exact key _ _ (fun _ => _) fun k => .zero

/-- C142 for `ChebyshevFilterDesign.apply`: every stored filter keeps the components apart. -/
theorem C142_chebyshev (hw : sc.WellFormed) (st st' : FilterSt sc.E) (hst : st.Valid) (f : Fin sc.E → ℝ)
    (pChoice component : String) (L : ℕ) (n : Option ℕ) (cutOff steep : ℝ)
    (h : Cheb.apply lib series sc st f pChoice component L n cutOff steep = (.ok (), st')) :
    ∃ Hs : List (Matrix (Fin sc.E) (Fin sc.E) ℝ), st'.history.get? "filter" = some (.mats Hs) ∧
      st'.history.get? "f_estimated" = some (.rows (Hs.map fun H => H.mulVec f)) ∧
      ∀ H ∈ Hs, KeepsComponents lib sc H ∧ ScalesUnseen sc pChoice H := by
  obtain ⟨P, fTrue, mask, lam, coeffs, HI, Hs, hE, h1, h2, h3, h4, h5, h6, h7, h8, hs⟩ := chebApply_inv h
  have hP := sep_p hw h1
  have inv : ∀ (l : List ℕ) (H0 H : List (Matrix (Fin sc.E) (Fin sc.E) ℝ)), (∀ X ∈ H0, Sep sc pChoice X) →
      l.foldlM (fun H k => do
        let M ← Cheb.approximate P coeffs (lam / 2) (k + 1)
        pure (Cheb.assignFrom H k M)) H0 = .ok H → ∀ X ∈ H, Sep sc pChoice X := by
    intro l
    induction l with
    | nil =>
      intro H0 H h0 hH
      rw [← Except.ok.inj hH]; exact h0
    | cons k l ih =>
      intro H0 H h0 hH
      rw [List.foldlM_cons] at hH
      cases hM : Cheb.approximate P coeffs (lam / 2) (k + 1) with
      | error e => rw [hM] at hH; cases hH
      | ok M =>
        rw [hM] at hH
        refine ih _ H ?_ hH
        intro X hX
        unfold Cheb.assignFrom at hX
        obtain ⟨i, hi, rfl⟩ := List.mem_mapIdx.1 hX
        split_ifs
        all_goals first
          | exact approximate_sep hP hM
          | exact h0 _ (List.getElem_mem hi)
  unfold Cheb.frequencyApprox at h7
  rw [h1] at h7
  have hall := inv (List.range L) _ Hs (by
    intro X hX
    rw [List.eq_of_mem_replicate hX]
    exact .zero) h7
  refine ⟨Hs, ?_, ?_, fun H hH => ⟨(hall H hH).keeps, (hall H hH).unseen⟩⟩
  · rw [hs, FilterSt.history, setHistory_cur, (setHistory_get st hst _).1]
  · rw [hs, FilterSt.history, setHistory_cur, (setHistory_get st hst _).2.1]

/-- two triangles, one filled: denoising keeps the components apart -/
example (lib : NumLib) (f : Fin twoTri.E → ℝ) : ∃ st' H,
    edgeFlowDenoise lib twoTri (initFilter _) f f "L1L" [1 / 2, 2] = (.ok (), st') ∧
    st'.history.get? "filter" = some (.mat H) ∧ KeepsComponents lib twoTri H := by
  obtain ⟨st', H, h1, h2, -, h3⟩ := C59_denoise (lib := lib) (sc := twoTri) (by decide)
    (pChoice := "L1L") (P := twoTri.L1l) (by simp [SC.getPMatrix]) (initFilter _)
    (by simp [FilterSt.Valid, initFilter]) f f [1 / 2, 2] (by intro m hm; fin_cases hm <;> norm_num) 2 rfl
  obtain ⟨H', h4, -, h5, -⟩ := C142_edge_flow twoTri_wellFormed _ _ (by simp [FilterSt.Valid, initFilter]) _ _ _ _ h1
  exact ⟨st', H', h1, h4, h5⟩

end Pytspl
