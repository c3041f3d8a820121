import Verif.Props.FrequencyBounds
import Verif.Props.ExactFilters
import Verif.Props.EdgeFlow
import Verif.Props.GpDenoise

/-!
# C179: on a complete network the Hodge-Laplacian filters only rescale

With every pair of nodes joined and every triangle filled, all Hodge frequencies coincide.  A filter that is a
function of the Hodge Laplacian cannot tell gradient from curl there: it multiplies the flow by a number.
-/

namespace Pytspl

open Matrix Polynomial

variable {lib : NumLib} {sc : SC ℝ} {tol : ℝ}

/-- a simple network in which every three distinct nodes are the vertices of a listed triangle, none listed
twice, and there is an edge -/
structure SC.Complete (sc : SC ℝ) : Prop where
  wellFormed : sc.WellFormed
  noRepeats : NoRepeats sc.edges
  nodup : sc.triangles.Nodup
  filled : ∀ u v w : Fin sc.nodes.length, u ≠ v → v ≠ w → u ≠ w →
    ∃ t ∈ sc.triangles, ((u : ℕ) : Int) ∈ t ∧ ((v : ℕ) : Int) ∈ t ∧ ((w : ℕ) : Int) ∈ t
  nonempty : 0 < sc.E

/-! ## The Laplacian -/

private theorem nodes_pos (h : sc.Complete) : (1 : ℝ) ≤ sc.nodes.length := by
  have hE : 0 < sc.edges.length := h.nonempty
  have := h.wellFormed.inRange _ (List.getElem_mem (n := 0) hE)
  have : 1 ≤ sc.nodes.length := by omega
  exact_mod_cast this

/-- C179: the Hodge Laplacian is the number of nodes times the identity. -/
theorem C179_laplacian (h : sc.Complete) : sc.L1 = (sc.nodes.length : ℝ) • 1 := by
  obtain ⟨lib⟩ := NumLib.exists
  have he := lib.isEig (symmPSD_L1 sc)
  have hc : ∀ i, (lib.eigh _ sc.L1).1 i = (sc.nodes.length : ℝ) := fun i =>
    C165_hodge_complete h.wellFormed h.noRepeats h.nodup h.filled ⟨_, he.col_ne_zero i, he.col_eig i⟩
  have hd : diagonal (lib.eigh _ sc.L1).1 = (sc.nodes.length : ℝ) • (1 : Matrix (Fin sc.E) (Fin sc.E) ℝ) := by
    rw [funext hc, smul_one_eq_diagonal]
  have := he.recon
  rw [hd, Matrix.mul_smul, Matrix.mul_one, smul_mul, he.orth'] at this
  exact this

/-- C179: twice the number of edges is the number of nodes times the dimension of the gradient flows. -/
theorem C179_dimension (h : sc.Complete) : (2 : ℝ) * sc.E = sc.nodes.length * sc.B1.rank := by
  obtain ⟨lib⟩ := NumLib.exists
  have he := lib.isEig (symmPSD_L1l sc)
  obtain ⟨t12, -⟩ := C12_lower_upper_annihilate sc h.wellFormed
  have hsq : sc.L1l * sc.L1l = (sc.nodes.length : ℝ) • sc.L1l := by
    have h1 : sc.L1l * sc.L1 = sc.L1l * sc.L1l + sc.L1l * sc.L1u := Matrix.mul_add _ _ _
    rw [t12, add_zero, C179_laplacian h, Matrix.mul_smul, Matrix.mul_one] at h1
    exact h1.symm
  have hv : ∀ i, (lib.eigh _ sc.L1l).1 i = if (lib.eigh _ sc.L1l).1 i ≠ 0 then (sc.nodes.length : ℝ) else 0 := by
    intro i
    split_ifs with h0
    · have h1 := congrArg (fun A => A.mulVec fun k => (lib.eigh _ sc.L1l).2 k i) hsq
      simp only [← mulVec_mulVec, he.col_eig i, mulVec_smul, smul_mulVec] at h1
      obtain ⟨k, hk⟩ := Function.ne_iff.1 (he.col_ne_zero i)
      have h2 := congrFun h1 k
      simp only [Pi.smul_apply, smul_eq_mul] at h2
      have hk' : (lib.eigh _ sc.L1l).2 k i ≠ 0 := hk
      have h3 := mul_right_cancel₀ hk' (show (lib.eigh _ sc.L1l).1 i * (lib.eigh _ sc.L1l).1 i *
        (lib.eigh _ sc.L1l).2 k i = sc.nodes.length * (lib.eigh _ sc.L1l).1 i * (lib.eigh _ sc.L1l).2 k i by
          rw [mul_assoc, h2, mul_assoc])
      exact mul_right_cancel₀ h0 h3
    · exact not_not.1 h0
  have ht : sc.L1l.trace = ∑ i, (lib.eigh _ sc.L1l).1 i := by
    conv_lhs => rw [he.recon]
    rw [trace_mul_comm, ← Matrix.mul_assoc, he.orth, Matrix.one_mul, trace_diagonal]
  have h2 : sc.L1l.trace = 2 * sc.E := by
    have hd : ∀ i : Fin sc.edges.length, sc.L1l i i = 2 := fun i =>
      (C119_lower_cases sc ⟨h.wellFormed.built, h.wellFormed.inRange, h.wellFormed.noLoops, h.noRepeats⟩ i i).1 rfl
    have : sc.L1l.trace = ∑ i : Fin sc.edges.length, sc.L1l i i := rfl
    rw [this, Finset.sum_congr rfl fun i _ => hd i]
    simp [SC.E, mul_comm]
  have hr : sc.B1.rank = Fintype.card {i // (lib.eigh _ sc.L1l).1 i ≠ 0} := by
    rw [← he.rank_eq]
    exact (rank_transpose_mul_self sc.B1).symm
  rw [← h2, ht, hr, Finset.sum_congr rfl fun i _ => hv i, ← Finset.sum_filter, Finset.sum_const, nsmul_eq_mul,
    Fintype.card_subtype, mul_comm]

private theorem nosmall (h : sc.Complete) (ht : tol < 1) : NoSmallEigenvalue sc.L1 tol := by
  intro lam v hv hl hc
  have := C165_hodge_complete h.wellFormed h.noRepeats h.nodup h.filled ⟨v, hv, hl⟩
  have := nodes_pos h
  linarith [hc.2]

/-! ## Least-squares extraction -/

private theorem fit_const (l : List ℝ) (x : ℝ) (p : ℝ[X]) :
    fitResidual ((List.replicate l.length x).zip l) p =
      l.length * p.eval x ^ 2 - 2 * p.eval x * l.sum + (l.map fun a => a ^ 2).sum := by
  unfold fitResidual
  induction l with
  | nil => simp
  | cons a l ih =>
    simp only [List.length_cons, List.replicate_succ, List.zip_cons_cons, List.map_cons, List.sum_cons, ih]
    push_cast
    ring

private theorem fit_mean {l : List ℝ} (hl : 0 < l.length) {x : ℝ} {p : ℝ[X]}
    (h : fitResidual ((List.replicate l.length x).zip l) p ≤
      fitResidual ((List.replicate l.length x).zip l) (C (l.sum / l.length))) : p.eval x = l.sum / l.length := by
  rw [fit_const, fit_const, eval_C] at h
  have hn : (0 : ℝ) < l.length := by exact_mod_cast hl
  have e : l.sum = l.length * (l.sum / l.length) := by field_simp
  set m := l.sum / l.length
  rw [e] at h
  have h1 : (l.length : ℝ) * (p.eval x - m) ^ 2 ≤ 0 := by nlinarith
  have h2 : (p.eval x - m) ^ 2 = 0 := le_antisymm (by nlinarith [sq_nonneg (p.eval x - m)]) (sq_nonneg _)
  linarith [pow_eq_zero_iff (two_ne_zero) |>.1 h2]

/-- a polynomial in a multiple of the identity multiplies by its value there -/
private theorem aeval_multiple {n : ℕ} (x : ℝ) (p : ℝ[X]) (f : Fin n → ℝ) :
    (aeval (x • (1 : Matrix (Fin n) (Fin n) ℝ)) p).mulVec f = p.eval x • f := by
  have : aeval (x • (1 : Matrix (Fin n) (Fin n) ℝ)) p = p.eval x • 1 := by
    rw [← Algebra.algebraMap_eq_smul_one, aeval_algebraMap_apply, Algebra.algebraMap_eq_smul_one]
    simp
  rw [this, smul_mulVec, one_mulVec]

private theorem extract (h : sc.Complete) (st : FilterSt sc.E) (f t : Fin sc.E → ℝ) {component : String}
    {L : Int} (hL : 0 < L) {mask : List ℝ} (h1 : sc.getComponentFlow lib f component false = .ok t)
    (h2 : sc.getComponentCoefficients lib component = .ok mask) (hm : mask.length = sc.E) :
    ∃ st', LSFilter.typeOne lib sc st f component L = (.ok (), st') ∧
      st'.history.get? "f_estimated" = some (.vec ((mask.sum / sc.E) • f)) := by
  have hE := h.nonempty
  have hg := nosmall h (tol := 1 / 1000) (by norm_num)
  have hU := getEigendecomposition_dense lib hE sc.L1 machineEps
  rw [snap_eq lib (symmPSD_L1 sc) machineEps_le hg] at hU
  have hd : ∃ a, LSFilter.typeOneDesign lib sc f component L = .ok a := by
    have key : ∃ a, applyFilter lib f t sc.L1 (lib.eigh _ sc.L1).2 (List.ofFn (lib.eigh _ sc.L1).1) mask L = .ok a :=
      ⟨_, applyFilter_eq lib f t sc.L1 _ _ _ L hL (by simp [hm])⟩
    obtain ⟨a, ha⟩ := key
    refine ⟨a, ?_⟩
    unfold LSFilter.typeOneDesign
    simp only [bind, Except.bind, hU, SC.getTrueSignal, h1, h2]
    exact ha
  obtain ⟨a, ha⟩ := hd
  have hr : LSFilter.typeOne lib sc st f component L = (.ok (), setHistory (resetHistory st) a.design) := by
    rw [LSFilter.typeOne, ha]; rfl
  refine ⟨_, hr, ?_⟩
  obtain ⟨U, w, t', mask', g1, -, g3, h0, p, hp, -, hf, -⟩ := C51_type_one st _ f component L hr
  obtain rfl : mask = mask' := Except.ok.inj (h2.symm.trans g3)
  obtain rfl : (lib.eigh _ sc.L1).1 = w := congrArg Prod.snd (Except.ok.inj (hU.symm.trans g1))
  have he := lib.isEig (symmPSD_L1 sc)
  have hc : ∀ i, (lib.eigh _ sc.L1).1 i = (sc.nodes.length : ℝ) := fun i =>
    C165_hodge_complete h.wellFormed h.noRepeats h.nodup h.filled ⟨_, he.col_ne_zero i, he.col_eig i⟩
  have hz : List.ofFn (lib.eigh _ sc.L1).1 = List.replicate mask.length (sc.nodes.length : ℝ) := by
    rw [funext hc, List.ofFn_const, hm]
  have hq := (hp (L.toNat - 1) (by omega)).2 (C (mask.sum / mask.length)) (by simp)
  rw [hz] at hq
  have hv := fit_mean (by rw [hm]; exact hE) hq
  rw [hf, C179_laplacian h, aeval_multiple, hv, hm]

/-- C179: whatever the size of the filter, the extracted "gradient" is `2/N` of the flow itself, the extracted
"curl" the remaining `1 - 2/N` of it, and the extracted "harmonic" part zero. -/
theorem C179_type_one (h : sc.Complete) (st : FilterSt sc.E) (f : Fin sc.E → ℝ) (L : Int) (hL : 0 < L) :
    (∃ st', LSFilter.typeOne lib sc st f "gradient" L = (.ok (), st') ∧
      st'.history.get? "f_estimated" = some (.vec ((2 / (sc.nodes.length : ℝ)) • f))) ∧
    (∃ st', LSFilter.typeOne lib sc st f "curl" L = (.ok (), st') ∧
      st'.history.get? "f_estimated" = some (.vec ((1 - 2 / (sc.nodes.length : ℝ)) • f))) ∧
    ∃ st', LSFilter.typeOne lib sc st f "harmonic" L = (.ok (), st') ∧
      st'.history.get? "f_estimated" = some (.vec 0) := by
  have hE := h.nonempty
  have hg := nosmall h (tol := 1 / 1000) (by norm_num)
  have hU := getEigendecomposition_dense lib hE sc.L1 machineEps
  rw [snap_eq lib (symmPSD_L1 sc) machineEps_le hg] at hU
  obtain ⟨mh, mc, mg, m1, m2, m3, l1, l2, l3, hm, s3, -, -⟩ := C49_masks h.wellFormed hg _ _ hU
  have he := lib.isEig (symmPSD_L1 sc)
  have hc : ∀ i, (lib.eigh _ sc.L1).1 i = (sc.nodes.length : ℝ) := fun i =>
    C165_hodge_complete h.wellFormed h.noRepeats h.nodup h.filled ⟨_, he.col_ne_zero i, he.col_eig i⟩
  have hN := nodes_pos h
  have hEr : (0 : ℝ) < sc.E := by exact_mod_cast hE
  have hzero : mh = List.replicate sc.E 0 := by
    refine List.ext_getElem (by simp [l1]) fun i hi hi' => ?_
    rw [l1] at hi
    have := hm ⟨i, hi⟩
    rw [hc] at this
    rcases this with ⟨-, -, -, h0⟩ | ⟨h0, -⟩ | ⟨h0, -⟩
    · linarith
    · simpa [List.getElem?_eq_some_iff, l1, hi] using h0
    · simpa [List.getElem?_eq_some_iff, l1, hi] using h0
  have hsum : mc.sum = sc.E - mg.sum := by
    have e : mc = mg.map fun a => 1 - a := by
      refine List.ext_getElem (by simp [l2, l3]) fun i hi hi' => ?_
      rw [l2] at hi
      have := hm ⟨i, hi⟩
      rw [hc] at this
      rcases this with ⟨-, -, -, h0⟩ | ⟨-, h0, h0', -⟩ | ⟨-, h0, h0', -⟩
      · linarith
      · obtain ⟨_, a1⟩ := List.getElem?_eq_some_iff.1 h0
        obtain ⟨_, a2⟩ := List.getElem?_eq_some_iff.1 h0'
        simp only at a1 a2
        simp [a1, a2]
      · obtain ⟨_, a1⟩ := List.getElem?_eq_some_iff.1 h0
        obtain ⟨_, a2⟩ := List.getElem?_eq_some_iff.1 h0'
        simp only at a1 a2
        simp [a1, a2]
    have key : ∀ l : List ℝ, (l.map fun a => 1 - a).sum = l.length - l.sum := by
      intro l
      induction l with
      | nil => simp
      | cons a l ih => simp only [List.map_cons, List.sum_cons, ih, List.length_cons]; push_cast; ring
    rw [e, key, l3]
  have hdim := C179_dimension h
  have hshare : mg.sum / sc.E = 2 / (sc.nodes.length : ℝ) := by
    rw [s3, div_eq_div_iff hEr.ne' (by linarith), hdim]
    ring
  obtain ⟨g, c, hh, hp⟩ := HodgeParts.exists lib sc f
  refine ⟨?_, ?_, ?_⟩
  · rw [← hshare]
    exact extract h st f g hL hp.grad m3 l3
  · have : mc.sum / sc.E = 1 - 2 / (sc.nodes.length : ℝ) := by
      rw [hsum, sub_div, div_self hEr.ne', hshare]
    rw [← this]
    exact extract h st f c hL hp.curl m2 l2
  · have : mh.sum / sc.E = 0 := by rw [hzero]; simp
    have e := extract h st f hh hL hp.harm m1 l1
    rwa [this, zero_smul] at e

/-! ## Denoising -/

/-- C179: edge-flow denoising with the Hodge Laplacian divides the noisy flow by `1 + N mu`. -/
theorem C179_denoise (h : sc.Complete) (st : FilterSt sc.E) (hst : st.Valid) (f fTrue : Fin sc.E → ℝ)
    (muVals : List ℝ) (hmu : ∀ m ∈ muVals, 0 ≤ m) (mu : ℝ) (hl : muVals.getLast? = some mu) :
    ∃ st', edgeFlowDenoise lib sc st f fTrue "L1" muVals = (.ok (), st') ∧
      st'.history.get? "f_estimated" = some (.vec ((1 + mu * sc.nodes.length)⁻¹ • f)) := by
  obtain ⟨st', H, h1, -, h3, h4, -⟩ := C59_denoise (lib := lib) h.nonempty (pChoice := "L1") rfl st hst f fTrue muVals hmu mu hl
  refine ⟨st', h1, ?_⟩
  have hN := nodes_pos h
  have hm := hmu mu (List.mem_of_getLast? hl)
  have hpos : 0 < 1 + mu * sc.nodes.length := by nlinarith
  have e : (1 + mu * (sc.nodes.length : ℝ)) • H = 1 := by
    rw [C179_laplacian h, smul_smul] at h4
    rw [← h4, Matrix.add_mul, Matrix.one_mul, smul_mul, Matrix.one_mul, add_smul, one_smul]
  have : H = (1 + mu * (sc.nodes.length : ℝ))⁻¹ • 1 := by
    rw [← e, smul_smul, inv_mul_cancel₀ hpos.ne', one_smul]
  rw [h3, this, smul_mulVec, one_mulVec]

/-- C179: so does every polynomial filter in the Hodge Laplacian: the estimate is a multiple of the input. -/
theorem C179_polynomial (h : sc.Complete) {f fTrue : Fin sc.E → ℝ} {pts : List (ℝ × ℝ)} {L : ℕ} {d : HDict sc.E}
    (hd : RecordsFit sc.L1 f fTrue pts L d) : ∃ c : ℝ, d.get? "f_estimated" = some (.vec (c • f)) := by
  obtain ⟨-, p, -, -, hf, -⟩ := hd
  exact ⟨_, by rw [hf, C179_laplacian h, aeval_multiple]⟩

/-- C179: in particular the grid-based designs on the Hodge Laplacian. -/
theorem C179_grid (h : sc.Complete) (st st' : FilterSt sc.E) (hst : st.Valid) (f : Fin sc.E → ℝ) (L : Int) (mu : ℝ) :
    (∀ fTrue, GridFilter.denoise lib sc st f fTrue "L1" L mu = (.ok (), st') →
      ∃ c : ℝ, st'.history.get? "f_estimated" = some (.vec (c • f))) ∧
    ∀ component num cutOff steep,
      GridFilter.subcomponentExtraction lib sc st f component "L1" L num mu cutOff steep = (.ok (), st') →
      ∃ c : ℝ, st'.history.get? "f_estimated" = some (.vec (c • f)) := by
  refine ⟨fun fTrue hr => ?_, fun component num cutOff steep hr => ?_⟩
  · obtain ⟨P, resp, pts, hP, -, hf⟩ := C51_grid_denoise st st' hst f fTrue "L1" L mu hr
    obtain rfl : sc.L1 = P := Except.ok.inj hP
    exact C179_polynomial h hf
  · obtain ⟨P, t, resp, pts, hP, -, -, hf⟩ := C51_grid_extraction st st' hst f component "L1" L num mu cutOff steep hr
    obtain rfl : sc.L1 = P := Except.ok.inj hP
    exact C179_polynomial h hf

/-! ## Gaussian processes -/

/-- the prior of a kernel without Hodge components is a multiple of the identity -/
private theorem prior_multiple (h : sc.Complete) (m : GpModel sc.E) (hk : m.kernel.FromComplex lib tol)
    (ht : machineEps ≤ tol) (ht1 : tol < 1)
    (hty : m.kernel.type = .diffusionNonHC ∨ m.kernel.type = .maternNonHC) : ∃ c : ℝ, m.prior = c • 1 := by
  obtain ⟨K, h1, hh, hg, hc⟩ := C73_spectral_action h.wellFormed m.kernel hk ht
    (fun n => softplus (m.kernel.raw n)) fun n hn => by rw [GpKernel.get, if_pos hn]
  have hK : fullCov m.kernel = K := fullCov_of_hasCov hk (machineEps_pos.trans_le ht) h1
  have hN := nodes_pos h
  have hl : (sc.nodes.length : ℝ) = 0 ∨ 0 < (sc.nodes.length : ℝ) ∧ tol < sc.nodes.length :=
    .inr ⟨by linarith, by linarith⟩
  have hf : ∀ f, sc.L1.mulVec f = (sc.nodes.length : ℝ) • f := fun f => by
    rw [C179_laplacian h, smul_mulVec, one_mulVec]
  have key : ∃ c : ℝ, ∀ f, K.mulVec f = c • f := by
    rcases hty with hty | hty
    · simp only [hty, docGain] at hh hg hc
      exact ⟨_, fun f => same_gain (g := fun lam => Real.exp (-(softplus (m.kernel.raw "kappa_down") * lam)))
        h.wellFormed (fun f a b => by simpa using hh f a b) hg hc hl (hf f)⟩
    · simp only [hty, docGain] at hh hg hc
      exact ⟨_, fun f => same_gain (g := fun lam => (2 * softplus (m.kernel.raw "mu_down") /
        softplus (m.kernel.raw "kappa_down") ^ 2 + lam) ^ (-softplus (m.kernel.raw "mu_down")))
        h.wellFormed (fun f a b => by simpa using hh f a b) hg hc hl (hf f)⟩
  obtain ⟨c, hc⟩ := key
  refine ⟨m.outputscale * c, ?_⟩
  have : K = c • 1 := by
    ext i j
    have := congrFun (hc (Pi.single j 1)) i
    rw [mulVec_single_one] at this
    simpa [Matrix.one_apply, Pi.single_apply, eq_comm] using this
  rw [GpModel.prior, hK, this, smul_smul]

/-- C179: with a kernel without Hodge components, measurements say nothing about other edges: the prediction at
edges outside the training set is the one made from no measurements at all. -/
theorem C179_regression (h : sc.Complete) (m : GpModel sc.E) (hk : m.kernel.FromComplex lib tol)
    (ht : machineEps ≤ tol) (ht1 : tol < 1)
    (hty : m.kernel.type = .diffusionNonHC ∨ m.kernel.type = .maternNonHC)
    (rt rs : List (Fin sc.E)) (hd : ∀ e ∈ rs, e ∉ rt) (y : Fin rt.length → ℝ) :
    m.predictive (edgeTensor rt) (List.ofFn y) (edgeTensor rs) =
      m.predictive (edgeTensor ([] : List (Fin sc.E))) [] (edgeTensor rs) := by
  obtain ⟨c, hc⟩ := prior_multiple h m hk ht ht1 hty
  have htp := machineEps_pos.trans_le ht
  have hx : (Matrix.of fun (a : Fin rs.length) (b : Fin rt.length) => m.prior (rs.get a) (rt.get b)) = 0 := by
    ext a b
    have : rs.get a ≠ rt.get b := fun e => hd _ (List.get_mem rs a) (e ▸ List.get_mem rt b)
    rw [of_apply, hc, Matrix.smul_apply, one_apply_ne this, smul_zero]; rfl
  have e0 := predictive_eq m hk htp [] rs (fun b => b.elim0)
  have hn : List.ofFn (fun b : Fin ([] : List (Fin sc.E)).length => (b.elim0 : ℝ)) = [] := rfl
  rw [hn] at e0
  rw [predictive_eq m hk htp rt rs y, e0]
  have hx0 : (Matrix.of fun (a : Fin rs.length) (b : Fin ([] : List (Fin sc.E)).length) =>
      m.prior (rs.get a) (([] : List (Fin sc.E)).get b)) = 0 := by
    ext a b; exact b.elim0
  rw [postCov, postCov, hx, hx0]
  simp only [zero_mulVec, Matrix.zero_mul]

/-! ## A filled triangle is complete -/

theorem tri_complete : tri.Complete where
  wellFormed := tri_wellFormed
  noRepeats := by
    show NoRepeats [(0, 1), (0, 2), (1, 2)]
    decide
  nodup := List.nodup_singleton _
  filled := by
    show ∀ u v w : Fin 3, u ≠ v → v ≠ w → u ≠ w → ∃ t ∈ ([[0, 1, 2]] : List (List Int)), ((u : ℕ) : Int) ∈ t ∧
      ((v : ℕ) : Int) ∈ t ∧ ((w : ℕ) : Int) ∈ t
    decide
  nonempty := by show 0 < 3; decide

/-- In a filled triangle the extracted gradient of any flow is two thirds of it. -/
example (st : FilterSt tri.E) (f : Fin tri.E → ℝ) :
    ∃ st', LSFilter.typeOne lib tri st f "gradient" 5 = (.ok (), st') ∧
      st'.history.get? "f_estimated" = some (.vec ((2 / 3 : ℝ) • f)) := by
  have h := (C179_type_one (lib := lib) tri_complete st f 5 (by decide)).1
  have e : (tri.nodes.length : ℝ) = 3 := by
    show (([0, 1, 2] : List Int).length : ℝ) = 3
    norm_num
  rwa [e] at h

end Pytspl
