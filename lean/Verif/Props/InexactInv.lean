import Verif.Model.InexactInv
import Verif.Props.TrendFilter
import Verif.Props.FilterAccuracy

/-!
# Property C140: a matrix inverse with rounding errors
-/

namespace Pytspl

open Matrix

variable {lib : NumLib} {sc : SC ℝ} {E n : ℕ}

/-! ## Specification -/

/-- The routine inverts `M` up to a residual of `δ`: it returns `H` with `|(M H - I) v| <= δ |v|` for all `v`. -/
def InvertsUpTo (inv : RawInv) (M : Matrix (Fin n) (Fin n) ℝ) (δ : ℝ) : Prop :=
  ∃ H, inv n M = .ok H ∧ ∀ v, norm2 ((M * H - 1).mulVec v) ≤ δ * norm2 v

/-- `u` and `v` record the same kind of results, with filters, flows and responses that differ by at most `δ`
(relative to the filtered flow `f`) and errors that differ by at most `δ |f| / |fTrue|`. -/
def CloseRecords (δ : ℝ) (f fTrue : Fin E → ℝ) (u v : HDict E) : Prop :=
  (∃ H H', u.get? "filter" = some (.mat H) ∧ v.get? "filter" = some (.mat H') ∧
    ∀ x, norm2 ((H - H').mulVec x) ≤ δ * norm2 x) ∧
  (∃ y y', u.get? "f_estimated" = some (.vec y) ∧ v.get? "f_estimated" = some (.vec y') ∧
    norm2 (y - y') ≤ δ * norm2 f) ∧
  (∃ r r', u.get? "frequency_responses" = some (.rows r) ∧ v.get? "frequency_responses" = some (.rows r') ∧
    List.Forall₂ (fun a b => ∀ k, |a k - b k| ≤ δ) r r') ∧
  (∃ e e', u.get? "extracted_component_error" = some (.errs e) ∧ v.get? "extracted_component_error" = some (.errs e') ∧
    List.Forall₂ (fun a b => (fTrue = 0 ∧ a = none ∧ b = none) ∨
      ∃ x y : ℝ, a = some x ∧ b = some y ∧ |x - y| ≤ δ * norm2 f / norm2 fTrue) e e')

/-! ## Auxiliary facts -/

private theorem close_inv {P H : Matrix (Fin E) (Fin E) ℝ} (hP : SymmPSD P) {mu δ : ℝ} (hmu : 0 ≤ mu)
    (h : ∀ v, norm2 (((1 + mu • P) * H - 1).mulVec v) ≤ δ * norm2 v) (x : Fin E → ℝ) :
    norm2 ((H - (1 + mu • P)⁻¹).mulVec x) ≤ δ * norm2 x := by
  have hd := isDenoiser_inv hP hmu
  have hu : IsUnit (1 + mu • P).det := isUnit_iff_ne_zero.2 (det_ne_zero_of_psd hP hmu)
  have e : H - (1 + mu • P)⁻¹ = (1 + mu • P)⁻¹ * ((1 + mu • P) * H - 1) := by
    rw [mul_sub, ← mul_assoc, nonsing_inv_mul _ hu, one_mul, mul_one]
  rw [e, ← mulVec_mulVec]
  exact (hd.2.2.1 _).trans (h x)

private theorem close_diag {U H H' : Matrix (Fin E) (Fin E) ℝ} (hU : U.transpose * U = 1) {δ : ℝ}
    (h : ∀ x, norm2 ((H - H').mulVec x) ≤ δ * norm2 x) (k : Fin E) :
    |(U.transpose * H * U) k k - (U.transpose * H' * U) k k| ≤ δ := by
  have e : (U.transpose * H * U) k k - (U.transpose * H' * U) k k =
      (fun i => U i k) ⬝ᵥ (H - H').mulVec (fun i => U i k) := by
    rw [← Matrix.sub_apply, ← Matrix.sub_mul, ← Matrix.mul_sub, Matrix.mul_assoc]
    rfl
  have hn : norm2 (fun i => U i k) = 1 := by
    have := congrFun (congrFun hU k) k
    rw [Matrix.one_apply_eq] at this
    unfold norm2
    rw [show (fun i => U i k) ⬝ᵥ (fun i => U i k) = 1 from this, Real.sqrt_one]
  have hb := h fun i => U i k
  rw [hn, mul_one] at hb
  rw [e, abs_le]
  have h1 := dot_le_norm2 (fun i => U i k) ((H - H').mulVec fun i => U i k)
  have h2 := dot_le_norm2 (-fun i => U i k) ((H - H').mulVec fun i => U i k)
  have h3 : norm2 (-fun i => U i k) = 1 := by
    rw [← neg_one_smul ℝ, norm2_smul, hn]; simp
  rw [hn, one_mul] at h1
  rw [h3, one_mul, neg_dotProduct] at h2
  constructor <;> linarith

theorem nrmse_close {x y t : Fin E → ℝ} {d : ℝ} (h : norm2 (x - y) ≤ d) :
    (t = 0 ∧ calculateErrorNRMSE x t = none ∧ calculateErrorNRMSE y t = none) ∨
      ∃ a b : ℝ, calculateErrorNRMSE x t = some a ∧ calculateErrorNRMSE y t = some b ∧ |a - b| ≤ d / norm2 t := by
  by_cases ht : t = 0
  · left
    refine ⟨ht, ?_, ?_⟩ <;>
    · subst ht
      simp [calculateErrorNRMSE, fdiv, norm2]
  · right
    have hn : 0 < norm2 t := lt_of_le_of_ne (norm2_nonneg t) fun h0 => ht (norm2_eq_zero.1 h0.symm)
    refine ⟨norm2 (x - t) / norm2 t, norm2 (y - t) / norm2 t, by simp only [calculateErrorNRMSE, fdiv, if_neg hn.ne'],
      by simp only [calculateErrorNRMSE, fdiv, if_neg hn.ne'], ?_⟩
    rw [← sub_div, abs_div, abs_of_pos hn]
    refine div_le_div_of_nonneg_right (le_trans ?_ h) hn.le
    have h1 := norm2_add_le (x - y) (y - t)
    have h2 := norm2_add_le (y - x) (x - t)
    have e1 : (x - y) + (y - t) = x - t := by abel
    have e2 : (y - x) + (x - t) = y - t := by abel
    have e3 : norm2 (y - x) = norm2 (x - y) := by
      rw [← neg_sub x y, ← neg_one_smul ℝ, norm2_smul]; simp
    rw [e1] at h1
    rw [e2, e3] at h2
    rw [abs_le]
    constructor <;> linarith

/-- what one pass computes from its filter -/
private noncomputable def passWith (U : Matrix (Fin E) (Fin E) ℝ) (f fTrue : Fin E → ℝ)
    (H : ℝ → Matrix (Fin E) (Fin E) ℝ) (mu : ℝ) : MuPass E :=
  ⟨H mu, (H mu).mulVec f, calculateErrorNRMSE ((H mu).mulVec f) fTrue, fun k => (U.transpose * H mu * U) k k⟩

private theorem denoiseOf_eq (inv : RawInv) (hE : 0 < sc.E) {pChoice : String} {P : Matrix (Fin sc.E) (Fin sc.E) ℝ}
    (hP : sc.getPMatrix pChoice = .ok P) (st : FilterSt sc.E) (f fTrue : Fin sc.E → ℝ) (muVals : List ℝ) (mu : ℝ)
    (H : ℝ → Matrix (Fin sc.E) (Fin sc.E) ℝ) (hH : ∀ m ∈ muVals, inv sc.E (1 + m • P) = .ok (H m))
    (hl : muVals.getLast? = some mu) :
    edgeFlowDenoiseOf inv lib sc st f fTrue pChoice muVals =
      (.ok (), setHistory st ⟨.mat (H mu), .vec ((H mu).mulVec f),
        .rows ((muVals.map (passWith (lib.eigh sc.E P).2 f fTrue H)).map (·.resp)),
        .errs ((muVals.map (passWith (lib.eigh sc.E P).2 f fTrue H)).map (·.err)), .errs []⟩) := by
  have hm : muVals.mapM (muPassOf inv P (lib.eigh sc.E P).2 f fTrue) =
      .ok (muVals.map (passWith (lib.eigh sc.E P).2 f fTrue H)) :=
    mapM_ok _ _ _ fun m h => by
      unfold muPassOf
      rw [hH m h]
      rfl
  unfold edgeFlowDenoiseOf edgeFlowDesignOf
  simp only [hP, bind, Except.bind, getEigendecomposition_dense lib hE, hm, List.getLast?_map, hl,
    Option.map_some]
  rfl

/-! ## C140 -/

/-- C140: with the exact inverse the functions are those of the model. -/
theorem C140_exact : edgeFlowDenoiseOf (fun _ M => npInv M) = edgeFlowDenoise ∧
    (fun sc => SC.denoisingL2Of (fun _ M => npInv M) sc) = fun sc => SC.denoisingL2 sc := ⟨rfl, rfl⟩

/-- C140, edge-flow denoising: if the inverse has a residual of at most `δ` for every parameter of the list, all of them
at least 0, then `denoise` returns and everything it stores is within `δ` of what exact arithmetic gives. -/
theorem C140_edge_flow (inv : RawInv) (hE : 0 < sc.E) {pChoice : String} {P : Matrix (Fin sc.E) (Fin sc.E) ℝ}
    (hP : sc.getPMatrix pChoice = .ok P) (st : FilterSt sc.E) (hst : st.Valid) (f fTrue : Fin sc.E → ℝ)
    (muVals : List ℝ) (hne : muVals ≠ []) (hmu : ∀ m ∈ muVals, 0 ≤ m) (δ : ℝ)
    (hinv : ∀ m ∈ muVals, InvertsUpTo inv (1 + m • P) δ) :
    ∃ st' st'', edgeFlowDenoiseOf inv lib sc st f fTrue pChoice muVals = (.ok (), st') ∧
      edgeFlowDenoise lib sc st f fTrue pChoice muVals = (.ok (), st'') ∧
      CloseRecords δ f fTrue st'.history st''.history := by
  classical
  have hps := getPMatrix_psd hP
  have hl := List.getLast?_eq_some_getLast hne
  set mu := muVals.getLast hne with hmudef
  have hmem : mu ∈ muVals := List.getLast_mem hne
  let H : ℝ → Matrix (Fin sc.E) (Fin sc.E) ℝ := fun m => if h : InvertsUpTo inv (1 + m • P) δ then h.choose else 0
  have hH : ∀ m ∈ muVals, inv sc.E (1 + m • P) = .ok (H m) ∧ ∀ x, norm2 ((H m - (1 + m • P)⁻¹).mulVec x) ≤ δ * norm2 x := by
    intro m hm
    have hc := (hinv m hm).choose_spec
    have e : H m = (hinv m hm).choose := dif_pos (hinv m hm)
    rw [e]
    exact ⟨hc.1, close_inv hps (hmu m hm) hc.2⟩
  have h1 := denoiseOf_eq (lib := lib) inv hE hP st f fTrue muVals mu H (fun m hm => (hH m hm).1) hl
  have h2 := denoiseOf_eq (lib := lib) (fun _ M => npInv M) hE hP st f fTrue muVals mu (fun m => (1 + m • P)⁻¹)
    (fun m hm => by
      unfold npInv
      rw [if_neg (det_ne_zero_of_psd hps (hmu m hm))]) hl
  refine ⟨_, _, h1, h2, ?_⟩
  have hU := (lib.isEig hps).orth
  have hf : ∀ m ∈ muVals, norm2 ((H m).mulVec f - ((1 + m • P)⁻¹).mulVec f) ≤ δ * norm2 f := fun m hm => by
    rw [← sub_mulVec]
    exact (hH m hm).2 f
  refine ⟨⟨H mu, (1 + mu • P)⁻¹, ?_, ?_, (hH mu hmem).2⟩, ⟨(H mu).mulVec f, ((1 + mu • P)⁻¹).mulVec f, ?_, ?_, hf mu hmem⟩,
    ⟨(muVals.map (passWith (lib.eigh sc.E P).2 f fTrue H)).map (·.resp),
      (muVals.map (passWith (lib.eigh sc.E P).2 f fTrue fun m => (1 + m • P)⁻¹)).map (·.resp), ?_, ?_, ?_⟩,
    ⟨(muVals.map (passWith (lib.eigh sc.E P).2 f fTrue H)).map (·.err),
      (muVals.map (passWith (lib.eigh sc.E P).2 f fTrue fun m => (1 + m • P)⁻¹)).map (·.err), ?_, ?_, ?_⟩⟩
  · rw [FilterSt.history, setHistory_cur, (setHistory_get st hst _).1]
  · rw [FilterSt.history, setHistory_cur, (setHistory_get st hst _).1]
  · rw [FilterSt.history, setHistory_cur, (setHistory_get st hst _).2.1]
  · rw [FilterSt.history, setHistory_cur, (setHistory_get st hst _).2.1]
  · rw [FilterSt.history, setHistory_cur, (setHistory_get st hst _).2.2.1]
  · rw [FilterSt.history, setHistory_cur, (setHistory_get st hst _).2.2.1]
  · simp only [List.map_map, List.forall₂_map_left_iff, List.forall₂_map_right_iff, List.forall₂_same, Function.comp_apply]
    exact fun m hm k => close_diag hU (hH m hm).2 k
  · rw [FilterSt.history, setHistory_cur, (setHistory_get st hst _).2.2.2.1]
  · rw [FilterSt.history, setHistory_cur, (setHistory_get st hst _).2.2.2.1]
  · simp only [List.map_map, List.forall₂_map_left_iff, List.forall₂_map_right_iff, List.forall₂_same, Function.comp_apply]
    exact fun m hm => nrmse_close (hf m hm)

/-- one pass of the l2 filter with the filter `H` -/
private noncomputable def l2With (sc : SC ℝ) (flow : Fin sc.E → ℝ) (component : String)
    (H : Matrix (Fin sc.E) (Fin sc.E) ℝ)
    (noise : ℕ → ℕ → Fin sc.E → ℝ) (p : Option ℝ × ℕ) (j : ℕ) : TrendPass sc.E :=
  let x := H.mulVec (sc.noisyFlow flow p.1 (noise p.2 j))
  ⟨x, calculateErrorNRMSE x flow, chosenNorm sc component x, calculateCorrelation flow x⟩

private theorem l2Of_eq (inv : RawInv) (sc : SC ℝ) (st : TrendHistory sc.E) (flow : Fin sc.E → ℝ) (component : String)
    (hc : component = "divergence" ∨ component = "curl") (realisations : ℕ) (hr : 0 < realisations)
    (snrDb : List ℝ) (hs : snrDb ≠ []) (mu : ℝ) (noise : ℕ → ℕ → Fin sc.E → ℝ) {H : Matrix (Fin sc.E) (Fin sc.E) ℝ}
    (hinv : inv sc.E (1 + mu • sc.L1l) = .ok H) :
    sc.denoisingL2Of inv st flow component realisations snrDb mu noise =
      (.ok (), sc.trendHistory (some H)
        ((sc.getPowerNoise flow snrDb).1.zipIdx.map fun p =>
        (List.range realisations).map fun j => l2With sc flow component H noise p j)) := by
  have hgrid := mapM_grid (sc.getPowerNoise flow snrDb).1 realisations
    (fun p j => (inv sc.E (1 + mu • sc.L1l) >>= fun H =>
      sc.trendPass component flow (H.mulVec (sc.noisyFlow flow p.1 (noise p.2 j))) >>= fun x =>
        pure (H, x) : Py _)) (fun p j => (H, l2With sc flow component H noise p j)) (fun p _ j => by
        simp only [hinv, bind, Except.bind, trendPass_ok hc, l2With]; rfl)
  have hne : ((sc.getPowerNoise flow snrDb).1.zipIdx.map fun p =>
      (List.range realisations).map fun j => (H, l2With sc flow component H noise p j)).flatten ≠ [] := by
    intro h
    rw [List.flatten_eq_nil_iff] at h
    obtain ⟨a, l, hal⟩ := List.exists_cons_of_ne_nil hs
    have : (sc.getPowerNoise flow snrDb).1.zipIdx ≠ [] := by
      simp [SC.getPowerNoise, hal]
    obtain ⟨p, q, hpq⟩ := List.exists_cons_of_ne_nil this
    have h1 := h ((List.range realisations).map fun j => (H, l2With sc flow component H noise p j)) (by
      rw [hpq]; simp)
    simp at h1
    omega
  have hlast := List.getLast?_eq_some_getLast hne
  have hfst : (List.getLast _ hne).1 = H := by
    have hm := List.getLast_mem hne
    rw [List.mem_flatten] at hm
    obtain ⟨row, hrow, hin⟩ := hm
    rw [List.mem_map] at hrow
    obtain ⟨p, -, rfl⟩ := hrow
    rw [List.mem_map] at hin
    obtain ⟨j, -, hj⟩ := hin
    rw [← hj]
  unfold SC.denoisingL2Of SC.l2DesignOf
  rw [check_ok hc]
  simp only [bind, Except.bind] at hgrid ⊢
  rw [hgrid]
  simp only
  rw [hlast]
  simp only [hfst, List.map_map, Function.comp_def]
  rfl

/-- C140, the l2 trend filter: with an inverse of residual at most `δ` every stored flow is within `δ` of the one exact
arithmetic gives, relative to the noisy flow, and so is the stored filter. -/
theorem C140_trend_l2 (inv : RawInv) (sc : SC ℝ) (hE : 0 < sc.E) (st : TrendHistory sc.E) (flow : Fin sc.E → ℝ)
    (component : String) (hc : component = "divergence" ∨ component = "curl") (realisations : ℕ)
    (hr : 0 < realisations) (snrDb : List ℝ) (hs : snrDb ≠ []) (mu : ℝ) (hmu : 0 ≤ mu)
    (noise : ℕ → ℕ → Fin sc.E → ℝ) (δ : ℝ) (hinv : InvertsUpTo inv (1 + mu • sc.L1l) δ) :
    ∃ st' st'' H H', sc.denoisingL2Of inv st flow component realisations snrDb mu noise = (.ok (), st') ∧
      sc.denoisingL2 st flow component realisations snrDb mu noise = (.ok (), st'') ∧
      st'.filter = some H ∧ st''.filter = some H' ∧ (∀ x, norm2 ((H - H').mulVec x) ≤ δ * norm2 x) ∧
      StoredShape st' snrDb.length realisations ∧
      ∀ (i j : ℕ) (db : ℝ) (x y : Fin sc.E → ℝ), snrDb[i]? = some db → j < realisations → Stored st' i j x →
        Stored st'' i j y → norm2 (x - y) ≤ δ * norm2 (noisy flow db (noise i j)) := by
  obtain ⟨H, hi, hres⟩ := hinv
  have hps := symmPSD_L1l sc
  have hclose := close_inv hps hmu hres
  have h1 := l2Of_eq inv sc st flow component hc realisations hr snrDb hs mu noise hi
  have h2 := l2Of_eq (fun _ M => npInv M) sc st flow component hc realisations hr snrDb hs mu noise
    (H := (1 + mu • sc.L1l)⁻¹) (by
      unfold npInv
      rw [if_neg (det_ne_zero_of_psd hps hmu)])
  refine ⟨_, _, H, _, h1, h2, rfl, rfl, hclose, ?_, ?_⟩
  · have := shape_of (sc.getPowerNoise flow snrDb).1 realisations (l2With sc flow component H noise)
      (h := sc.trendHistory (some H) ((sc.getPowerNoise flow snrDb).1.zipIdx.map fun p =>
        (List.range realisations).map fun j => l2With sc flow component H noise p j)) rfl
    rwa [show (sc.getPowerNoise flow snrDb).1.length = snrDb.length by simp [SC.getPowerNoise]] at this
  · intro i j db x y hdb hj hx hy
    have hp := power_at sc flow snrDb hE i db hdb
    rw [stored_of (sc.getPowerNoise flow snrDb).1 realisations (l2With sc flow component H noise) rfl i j _ hp hj x] at hx
    rw [stored_of (sc.getPowerNoise flow snrDb).1 realisations (l2With sc flow component (1 + mu • sc.L1l)⁻¹ noise) rfl
      i j _ hp hj y] at hy
    simp only [l2With, noisyFlow_eq] at hx hy
    rw [hx, hy, ← sub_mulVec]
    exact hclose _

/-- Non-vacuity of C140: an inverse that is off by a factor of `1 + 1e-9`, on a filled triangle beside a hollow one. -/
example (lib : NumLib) (f fTrue : Fin twoTri.E → ℝ) : ∃ (inv : RawInv) (st' st'' : FilterSt twoTri.E),
    ¬ InvertsUpTo inv (1 + (1 / 2 : ℝ) • twoTri.L1l) 0 ∧
    edgeFlowDenoiseOf inv lib twoTri (initFilter _) f fTrue "L1L" [1 / 2, 2] = (.ok (), st') ∧
    edgeFlowDenoise lib twoTri (initFilter _) f fTrue "L1L" [1 / 2, 2] = (.ok (), st'') ∧
    CloseRecords (1 / 10 ^ 9) f fTrue st'.history st''.history := by
  let inv : RawInv := fun _ M => (npInv M).map fun H => (1 + 1 / 10 ^ 9 : ℝ) • H
  have hps := symmPSD_L1l twoTri
  have hval : ∀ m : ℝ, 0 ≤ m → inv _ (1 + m • twoTri.L1l) = .ok ((1 + 1 / 10 ^ 9 : ℝ) • (1 + m • twoTri.L1l)⁻¹) := by
    intro m hm
    simp only [inv, npInv, if_neg (det_ne_zero_of_psd hps hm)]
    rfl
  have hres : ∀ m : ℝ, 0 ≤ m → (1 + m • twoTri.L1l) * ((1 + 1 / 10 ^ 9 : ℝ) • (1 + m • twoTri.L1l)⁻¹) - 1 =
      (1 / 10 ^ 9 : ℝ) • (1 : Matrix (Fin twoTri.E) (Fin twoTri.E) ℝ) := by
    intro m hm
    rw [Matrix.mul_smul, (isDenoiser_inv hps hm).1, add_smul, one_smul]
    abel
  obtain ⟨st', st'', h1, h2, h3⟩ := C140_edge_flow (lib := lib) (sc := twoTri) inv (by decide) (pChoice := "L1L")
    (P := twoTri.L1l) (by simp [SC.getPMatrix]) (initFilter _) (by simp [FilterSt.Valid, initFilter]) f fTrue [1 / 2, 2]
    (by simp) (by intro m hm; fin_cases hm <;> norm_num) (1 / 10 ^ 9) (fun m hm => by
      have h0 : 0 ≤ m := by fin_cases hm <;> norm_num
      refine ⟨_, hval m h0, fun v => ?_⟩
      rw [hres m h0, smul_mulVec, one_mulVec, norm2_smul, abs_of_pos (by positivity)])
  refine ⟨inv, st', st'', ?_, h1, h2, h3⟩
  rintro ⟨H, hH, hz⟩
  rw [hval _ (by norm_num)] at hH
  have hH' := Except.ok.inj hH
  have := hz (fun _ => 1)
  rw [← hH', hres _ (by norm_num), smul_mulVec, one_mulVec, norm2_smul, abs_of_pos (by positivity), zero_mul] at this
  have hpos : 0 < norm2 (fun _ : Fin twoTri.E => (1 : ℝ)) := by
    refine lt_of_le_of_ne (norm2_nonneg _) fun h0 => ?_
    have := congrFun (norm2_eq_zero.1 h0.symm) ⟨0, by decide⟩
    norm_num at this
  have : (0 : ℝ) < 1 / 10 ^ 9 * norm2 (fun _ : Fin twoTri.E => (1 : ℝ)) := by positivity
  linarith

end Pytspl
