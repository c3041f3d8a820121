import Verif.Model.GpTraining
import Verif.Props.GpDensity
import Verif.Props.GpTrainer

/-!
# C141: the loss that `train` minimises
-/

namespace Pytspl

open Matrix

variable {lib : NumLib} {sc : SC ℝ} {tol : ℝ}

/-- Minus the log marginal likelihood of the targets `y` at the edges `rt`, per edge: the values have mean `c` and
covariances `K`, and every target carries independent noise of variance `v`. -/
noncomputable def marginalLoss (c : ℝ) (K : Matrix (Fin sc.E) (Fin sc.E) ℝ) (v : ℝ) (rt : List (Fin sc.E))
    (y : Fin rt.length → ℝ) : ℝ :=
  -Real.log (normalDensity (fun _ => c)
    (Matrix.of fun a b : Fin rt.length => K rt[a] rt[b] + if a = b then v else 0) y) / rt.length

/-- the marginal loss of a model, whose prior is what its `forward` returns -/
def GpModel.HasLoss (m : GpModel sc.E) (rt : List (Fin sc.E)) (y : Fin rt.length → ℝ) (l : ℝ) : Prop :=
  ∃ c K, m.HasPrior c K ∧ l = marginalLoss c K m.noise rt y

theorem HasLoss.unique {m : GpModel sc.E} {rt : List (Fin sc.E)} {y : Fin rt.length → ℝ} {l l' : ℝ} (hE : 0 < sc.E)
    (h : m.HasLoss rt y l) (h' : m.HasLoss rt y l') : l = l' := by
  obtain ⟨c, K, h1, rfl⟩ := h
  obtain ⟨c', K', h2, rfl⟩ := h'
  obtain ⟨rfl, h3⟩ := HasPrior.unique h1 h2
  rw [h3 hE]

private theorem log_density {n : ℕ} (mean : Fin n → ℝ) {cov : Matrix (Fin n) (Fin n) ℝ} (hd : 0 < cov.det)
    (y : Fin n → ℝ) : -Real.log (normalDensity mean cov y) =
      1 / 2 * ((y - mean) ⬝ᵥ cov⁻¹.mulVec (y - mean) + Real.log cov.det + n * Real.log (2 * Real.pi)) := by
  unfold normalDensity
  have h2 : (0 : ℝ) < (2 * Real.pi) ^ n := by positivity
  rw [Real.log_div (Real.exp_pos _).ne' (Real.sqrt_pos.2 (mul_pos h2 hd)).ne', Real.log_exp,
    Real.log_sqrt (mul_pos h2 hd).le, Real.log_mul h2.ne' hd.ne', Real.log_pow]
  ring

private theorem slice_symmPSD {K : Matrix (Fin sc.E) (Fin sc.E) ℝ} (hK : SymmPSD K) {n : ℕ} (i : Fin n → Fin sc.E) :
    SymmPSD (Matrix.of fun a b => K (i a) (i b)) := by
  refine ⟨?_, fun x => slice_nonneg hK x⟩
  ext a b
  exact congrFun (congrFun hK.1 (i a)) (i b)

private theorem obsCov_det_pos {K : Matrix (Fin sc.E) (Fin sc.E) ℝ} (hK : SymmPSD K) {v : ℝ} (hv : 0 < v) {n : ℕ}
    (i : Fin n → Fin sc.E) : 0 < (obsCov K v i).det := by
  have hpd : (obsCov K v i).PosDef := by
    apply Matrix.PosDef.of_dotProduct_mulVec_pos
    · exact obsCov_symm hK v i
    · intro x hx
      simp only [star_trivial]
      rw [obsCov_quad]
      have h1 := slice_nonneg (i := i) hK x
      have h2 := mul_pos hv (dot_self_pos hx)
      linarith
  exact hpd.det_pos

private theorem obsCov_of (K : Matrix (Fin sc.E) (Fin sc.E) ℝ) (v : ℝ) (rt : List (Fin sc.E)) :
    (Matrix.of fun a b : Fin rt.length => K rt[a] rt[b] + if a = b then v else 0) = obsCov K v rt.get := by
  ext a b
  simp only [obsCov, of_apply, Matrix.add_apply, Matrix.smul_apply, one_apply, smul_eq_mul, mul_ite, mul_one, mul_zero]
  rfl

/-- the loss in training mode -/
private theorem loss_training (stale : StaleCall sc.E) (o : GpObject sc.E) (hk : o.model.kernel.FromComplex lib tol)
    (ht : 0 < tol) (hn : 0 < o.model.noise) (rt : List (Fin sc.E)) (hx : o.xTrain = edgeTensor rt)
    (htr : o.training = true) (y : Fin rt.length → ℝ) :
    o.loss stale (edgeTensor rt) (List.ofFn y) =
      .ok (marginalLoss (o.model.meanConst.getD 0) o.model.prior o.model.noise rt y) := by
  have hK := o.model.prior_psd hk ht
  unfold GpObject.loss GpObject.marginal
  simp only [htr, if_true, hx, ne_eq, not_true_eq_false, if_false, rows_cast, bind, Except.bind, cov_ok hk ht, pure,
    Except.pure]
  rw [if_neg (by simp)]
  congr 1
  unfold marginalLoss
  rw [obsCov_of, log_density _ (obsCov_det_pos hK hn _)]
  congr 1
  simp only [GpPrediction.logProb]
  have hy : (fun i : Fin rt.length => (List.ofFn y)[(i : ℕ)]?.getD 0 - o.model.meanConst.getD 0) =
      y - fun _ => o.model.meanConst.getD 0 := by
    ext i
    simp
  rw [hy]
  have hc : (o.model.outputscale • (Matrix.of fun a b => fullCov o.model.kernel (rt.get a) (rt.get b)) +
      o.model.noise • (1 : Matrix (Fin rt.length) (Fin rt.length) ℝ)) = obsCov o.model.prior o.model.noise rt.get := rfl
  rw [hc]
  ring

theorem loss_hasLoss (stale : StaleCall sc.E) (o : GpObject sc.E) (hk : o.model.kernel.FromComplex lib tol)
    (ht : 0 < tol) (hn : 0 < o.model.noise) (rt : List (Fin sc.E)) (hx : o.xTrain = edgeTensor rt)
    (htr : o.training = true) (y : Fin rt.length → ℝ) :
    ∃ l, o.loss stale (edgeTensor rt) (List.ofFn y) = .ok l ∧ o.model.HasLoss rt y l :=
  ⟨_, loss_training stale o hk ht hn rt hx htr y, _, _, o.model.hasPrior hk ht, rfl⟩

/-- the states a run of an optimiser passes through -/
private noncomputable def states {E : ℕ} (opt : Optimiser E) (L : GpModel E → Py ℝ) (i : ℕ) (m : GpModel E) :
    ℕ → GpModel E
  | 0 => m
  | n + 1 => opt.step L (i + n) (states opt L i m n)

private theorem states_succ {E : ℕ} (opt : Optimiser E) (L : GpModel E → Py ℝ) (i : ℕ) (m : GpModel E) (n : ℕ) :
    states opt L (i + 1) (opt.step L i m) n = states opt L i m (n + 1) := by
  induction n with
  | zero => rfl
  | succ n ih =>
    change opt.step L (i + 1 + n) (states opt L (i + 1) (opt.step L i m) n) =
      opt.step L (i + (n + 1)) (states opt L i m (n + 1))
    rw [ih]
    congr 1
    omega

private theorem loop_training (stale : StaleCall sc.E) (opt : Optimiser sc.E) (ht : 0 < tol) (rt : List (Fin sc.E))
    (y : Fin rt.length → ℝ) (n : ℕ) : ∀ (i : ℕ) (o : GpObject sc.E), o.model.kernel.FromComplex lib tol →
    0 < o.model.noise → o.xTrain = edgeTensor rt → o.training = true →
    let L : GpModel sc.E → Py ℝ := fun m => GpObject.loss stale { o with model := m } (edgeTensor rt) (List.ofFn y)
    GpObject.trainLoop stale opt (edgeTensor rt) (List.ofFn y) n i o =
      (List.ofFn fun j : Fin n => marginalLoss ((states opt L i o.model j).meanConst.getD 0)
        (states opt L i o.model j).prior (states opt L i o.model j).noise rt y, .ok (),
        { o with model := states opt L i o.model n }) := by
  induction n with
  | zero => intro i o _ _ _ _; simp [GpObject.trainLoop, states]
  | succ n ih =>
    intro i o hk hn hx htr L
    have ho : o.touch = o := by unfold GpObject.touch; rw [if_pos htr]
    simp only [GpObject.trainLoop, loss_training stale o hk ht hn rt hx htr y, ho]
    have h2 := ih (i + 1) { o with model := opt.step L i o.model }
      (by unfold GpKernel.FromComplex; rw [(opt.kernel L i o.model).2]; exact hk) (opt.noise L i o.model hn) hx htr
    simp only at h2
    have h3 : ∀ j, states opt L (i + 1) (opt.step L i o.model) j = states opt L i o.model (j + 1) :=
      states_succ opt L i o.model
    change (_ :: (GpObject.trainLoop stale opt (edgeTensor rt) (List.ofFn y) n (i + 1)
      { o with model := opt.step L i o.model }).1, _) = _
    rw [h2]
    refine Prod.ext ?_ (Prod.ext rfl ?_)
    · rw [List.ofFn_succ]
      refine congrArg₂ List.cons rfl (congrArg List.ofFn (funext fun j => ?_))
      change marginalLoss ((states opt L (i + 1) (opt.step L i o.model) j).meanConst.getD 0)
        (states opt L (i + 1) (opt.step L i o.model) j).prior
        (states opt L (i + 1) (opt.step L i o.model) j).noise rt y = _
      rw [h3]
      rfl
    · change ({ o with model := states opt L (i + 1) (opt.step L i o.model) n } : GpObject sc.E) = _
      rw [h3]

/-- C141: with a model in training mode and its own training edges, `train` succeeds, for every optimiser, and every
pass prints minus the log marginal likelihood of the targets per edge, for the parameters before that pass; this is also
the function the optimiser is given, in every pass and for all parameters with positive noise.  The model ends in the
last of these states, still in training mode, and the trainer keeps it.

Partial: the mode is not set by `train`, see `C141_after_predict`. -/
theorem C141_loss_partial (t : Trainer sc) (stale : StaleCall sc.E) (opt : Optimiser sc.E) (o : GpObject sc.E)
    (hk : o.model.kernel.FromComplex lib tol) (ht : 0 < tol) (hn : 0 < o.model.noise) (htr : o.training = true)
    (rt : List (Fin sc.E)) (hx : o.xTrain = edgeTensor rt) (y : Fin rt.length → ℝ) (iters : ℕ) :
    ∃ (L : GpModel sc.E → Py ℝ) (ms : ℕ → GpModel sc.E) (ls : Fin iters → ℝ),
      t.trainOn stale opt o (edgeTensor rt) (List.ofFn y) iters =
        (List.ofFn ls, .ok (), { o with model := ms iters }, { t with model := some (ms iters) }) ∧
      ms 0 = o.model ∧ (∀ i, ms (i + 1) = opt.step L i (ms i)) ∧
      (∀ i : Fin iters, (ms i).HasLoss rt y (ls i)) ∧
      ∀ m : GpModel sc.E, m.kernel.FromComplex lib tol → 0 < m.noise → ∃ l, L m = .ok l ∧ m.HasLoss rt y l := by
  have h := loop_training stale opt ht rt y iters 0 o hk hn hx htr
  obtain ⟨L, hL⟩ : ∃ L : GpModel sc.E → Py ℝ,
    L = fun m => GpObject.loss stale { o with model := m } (edgeTensor rt) (List.ofFn y) := ⟨_, rfl⟩
  simp only [← hL] at h
  have heig : ∀ j, (states opt L 0 o.model j).kernel.eig = o.model.kernel.eig := by
    intro j
    induction j with
    | zero => rfl
    | succ j ih => exact (opt.kernel _ _ _).2.trans ih
  refine ⟨L, states opt L 0 o.model, fun j => marginalLoss ((states opt L 0 o.model j).meanConst.getD 0)
    (states opt L 0 o.model j).prior (states opt L 0 o.model j).noise rt y, ?_, rfl, fun i => ?_, fun i => ?_,
    fun m hm hnm => ?_⟩
  · unfold Trainer.trainOn
    rw [h]
  · change opt.step _ (0 + i) _ = opt.step _ i _
    rw [Nat.zero_add]
  · exact ⟨_, _, GpModel.hasPrior _ (lib := lib) (tol := tol) (by
      unfold GpKernel.FromComplex; rw [heig]; exact hk) ht, rfl⟩
  · rw [hL]
    exact ⟨_, loss_training stale { o with model := m } hm ht hnm rt hx htr y, _, _, m.hasPrior hm ht, rfl⟩

/-- C141: a model object starts in training mode, keeps its mode in `train`, whatever happens there, and leaves it in
`predict`, whatever happens there; only `model.train()` brings it back. -/
theorem C141_mode (t : Trainer sc) (stale : StaleCall sc.E) (opt : Optimiser sc.E) (o : GpObject sc.E) (x : List ℚ)
    (y : List ℝ) (iters : ℕ) (k : GpKernel sc.E) (mf : Option String) (v : ℝ) :
    (GpObject.create k mf v x y).training = true ∧
    (t.trainOn stale opt o x y iters).2.2.1.training = o.training ∧
    (o.predictCall stale x).2.training = false ∧ o.enterTrain.training = true := by
  refine ⟨rfl, ?_, ?_, rfl⟩
  · have h : ∀ (n i : ℕ) (o : GpObject sc.E), (GpObject.trainLoop stale opt x y n i o).2.2.training = o.training := by
      intro n
      induction n with
      | zero => intro i o; rfl
      | succ n ih =>
        intro i o
        simp only [GpObject.trainLoop]
        split
        · rfl
        · rw [ih]
          unfold GpObject.touch
          split <;> rfl
    have h1 := h iters 0 o
    unfold Trainer.trainOn
    split
    · rename_i hh; rw [hh] at h1; exact h1
    · rename_i hh; rw [hh] at h1; exact h1
  · unfold GpObject.predictCall
    simp only
    split
    · unfold GpObject.touch
      rfl
    · rfl

/-- C141: in training mode, `train` with other inputs than those of the model fails with `RuntimeError` in its first
pass: nothing is printed, and neither the model nor the trainer changes. -/
theorem C141_other_inputs (t : Trainer sc) (stale : StaleCall sc.E) (opt : Optimiser sc.E) (o : GpObject sc.E)
    (htr : o.training = true) (x : List ℚ) (hx : x ≠ o.xTrain) (y : List ℝ) (iters : ℕ) (hi : 0 < iters) :
    t.trainOn stale opt o x y iters = ([], .error .runtimeError, o, t) := by
  obtain ⟨n, rfl⟩ : ∃ n, iters = n + 1 := ⟨iters - 1, by omega⟩
  unfold Trainer.trainOn GpObject.trainLoop GpObject.loss GpObject.marginal
  simp only [htr, if_true, hx, ne_eq, not_false_eq_true, bind, Except.bind]

private theorem touch_touch {E : ℕ} (o : GpObject E) : o.touch.touch = o.touch := by
  unfold GpObject.touch
  by_cases h : o.training <;> simp [h]

private theorem loss_touch {E : ℕ} (stale : StaleCall E) (o : GpObject E) (x : List ℚ) (y : List ℝ) :
    o.touch.loss stale x y = o.loss stale x y := by
  unfold GpObject.touch
  by_cases h : o.training
  · rw [if_pos h]
  · rw [if_neg h]
    unfold GpObject.loss GpObject.marginal
    simp [h]

/-- C141: the passes of `train` are passes in the sense of the properties of the trainer (C80 and others), which hold for
every way of computing a pass. -/
theorem C141_refines (t : Trainer sc) (stale : StaleCall sc.E) (opt : Optimiser sc.E) (o : GpObject sc.E) (x : List ℚ)
    (y : List ℝ) (iters : ℕ) : ∃ step : TrainStep sc.E,
    t.train step o.model iters = ((t.trainOn stale opt o x y iters).2.1, (t.trainOn stale opt o x y iters).2.2.1.model,
      (t.trainOn stale opt o x y iters).2.2.2) := by
  obtain ⟨L, hL⟩ : ∃ L : GpModel sc.E → Py ℝ,
    L = fun m => GpObject.loss stale { o.touch with model := m } x y := ⟨_, rfl⟩
  obtain ⟨step, hs⟩ : ∃ step : TrainStep sc.E, step = fun i m =>
    match L m with
    | .error e => .error e
    | .ok _ => .ok (opt.step L i m) := ⟨_, rfl⟩
  refine ⟨step, ?_⟩
  have h : ∀ (n i : ℕ) (o' : GpObject sc.E), (∀ m, ({ o'.touch with model := m } : GpObject sc.E) = { o.touch with model := m }) →
      trainLoop step n i o'.model = ((GpObject.trainLoop stale opt x y n i o').2.1,
        (GpObject.trainLoop stale opt x y n i o').2.2.model) := by
    intro n
    induction n with
    | zero => intro i o' _; rfl
    | succ n ih =>
      intro i o' ho
      have hm : o'.touch.model = o'.model := by unfold GpObject.touch; split <;> rfl
      have hl : o'.loss stale x y = L o'.model := by
        rw [← loss_touch, hL]
        have : ({ o.touch with model := o'.model } : GpObject sc.E) = o'.touch := by
          rw [← ho, ← hm]
        exact congrArg (fun q => GpObject.loss stale q x y) this.symm
      have hLL : (fun m => GpObject.loss stale { o'.touch with model := m } x y) = L := by
        rw [hL]
        funext m
        rw [ho]
      simp only [trainLoop, GpObject.trainLoop, hl, hLL]
      rw [hs]
      simp only
      rw [← hs]
      cases hc : L o'.model with
      | error e => rfl
      | ok l =>
        simp only
        have h3 := ih (i + 1) { o'.touch with model := opt.step L i o'.model } (by
          intro m
          have h4 : ({ ({ o'.touch with model := opt.step L i o'.model } : GpObject sc.E).touch with model := m } :
              GpObject sc.E) = { o'.touch.touch with model := m } := by
            unfold GpObject.touch
            by_cases h : o'.training <;> simp [h]
          rw [h4, touch_touch, ho])
        rw [hm]
        exact h3
  have h0 := h iters 0 o fun m => rfl
  unfold Trainer.train Trainer.trainOn
  rw [h0]
  rcases hr : GpObject.trainLoop stale opt x y iters 0 o with ⟨ls, r, o'⟩
  cases r <;> rfl

/-! ## Training after a prediction -/

section

variable {n : ℕ} {U : Matrix (Fin n) (Fin n) ℝ}

private def conj (U : Matrix (Fin n) (Fin n) ℝ) (d : Fin n → ℝ) : Matrix (Fin n) (Fin n) ℝ :=
  U * diagonal d * U.transpose

private theorem conj_mul (hU : U.transpose * U = 1) (d e : Fin n → ℝ) : conj U d * conj U e = conj U (fun i => d i * e i) := by
  unfold conj
  rw [← diagonal_mul_diagonal]
  calc U * diagonal d * U.transpose * (U * diagonal e * U.transpose)
      = U * diagonal d * (U.transpose * U) * diagonal e * U.transpose := by simp only [Matrix.mul_assoc]
    _ = _ := by rw [hU, Matrix.mul_one, Matrix.mul_assoc U]

private theorem conj_one (hU : U.transpose * U = 1) (v : ℝ) : v • (1 : Matrix (Fin n) (Fin n) ℝ) = conj U fun _ => v := by
  unfold conj
  have : diagonal (fun _ : Fin n => v) = v • (1 : Matrix (Fin n) (Fin n) ℝ) := by
    ext i j
    by_cases h : i = j <;> simp [h]
  rw [this, Matrix.mul_smul, Matrix.smul_mul, Matrix.mul_one, mul_eq_one_comm.mp hU]

private theorem conj_add (d e : Fin n → ℝ) : conj U d + conj U e = conj U (fun i => d i + e i) := by
  unfold conj
  rw [← Matrix.add_mul, ← Matrix.mul_add, diagonal_add]

private theorem conj_sub (d e : Fin n → ℝ) : conj U d - conj U e = conj U (fun i => d i - e i) := by
  unfold conj
  rw [← Matrix.sub_mul, ← Matrix.mul_sub, diagonal_sub]

private theorem conj_inv (hU : U.transpose * U = 1) (d : Fin n → ℝ) (hd : ∀ i, d i ≠ 0) :
    (conj U d)⁻¹ = conj U fun i => (d i)⁻¹ := by
  apply inv_eq_right_inv
  rw [conj_mul hU]
  have : (fun i => d i * (d i)⁻¹) = fun _ => (1 : ℝ) := by
    ext i
    exact mul_inv_cancel₀ (hd i)
  rw [this, ← conj_one hU, one_smul]

private theorem conj_det (hU : U.transpose * U = 1) (d : Fin n → ℝ) : (conj U d).det = ∏ i, d i := by
  unfold conj
  rw [det_mul_comm, ← Matrix.mul_assoc, hU, Matrix.one_mul, det_diagonal]

private theorem conj_quad (d r : Fin n → ℝ) :
    r ⬝ᵥ (conj U d).mulVec r = ∑ i, d i * U.transpose.mulVec r i ^ 2 := by
  unfold conj
  rw [← mulVec_mulVec, ← mulVec_mulVec, dotProduct_mulVec, ← mulVec_transpose]
  simp only [dotProduct, mulVec_diagonal]
  refine Finset.sum_congr rfl fun i _ => by ring

private theorem conj_vec (hU : U.transpose * U = 1) (d r : Fin n → ℝ) (i : Fin n) :
    U.transpose.mulVec ((conj U d).mulVec r) i = d i * U.transpose.mulVec r i := by
  unfold conj
  rw [← mulVec_mulVec, ← mulVec_mulVec, mulVec_mulVec, hU, one_mulVec, mulVec_diagonal]

/-- conditioning on the targets makes the targets more likely -/
private theorem posterior_lt {A : Matrix (Fin n) (Fin n) ℝ} (hA : SymmPSD A) (h0 : A ≠ 0) {v : ℝ} (hv : 0 < v)
    (r : Fin n → ℝ) :
    (r - A.mulVec ((A + v • 1)⁻¹.mulVec r)) ⬝ᵥ (A - A * (A + v • 1)⁻¹ * A.transpose + v • 1)⁻¹.mulVec
        (r - A.mulVec ((A + v • 1)⁻¹.mulVec r)) +
      Real.log (A - A * (A + v • 1)⁻¹ * A.transpose + v • 1).det <
    r ⬝ᵥ (A + v • 1)⁻¹.mulVec r + Real.log (A + v • 1).det := by
  obtain ⟨lib⟩ := NumLib.exists
  have he := lib.isEig hA
  obtain ⟨U, hUe⟩ : ∃ U, U = (lib.eigh n A).2 := ⟨_, rfl⟩
  obtain ⟨w, hwe⟩ : ∃ w, w = (lib.eigh n A).1 := ⟨_, rfl⟩
  rw [← hUe, ← hwe] at he
  have hU := he.orth
  have hw : ∀ i, 0 ≤ w i := he.nonneg hA
  have hA2 : A = conj U w := he.recon
  have hwv : ∀ i, 0 < w i + v := fun i => by have := hw i; linarith
  have hw2 : ∀ i, 0 < 2 * w i + v := fun i => by have := hw i; linarith
  have hC : A + v • 1 = conj U fun i => w i + v := by rw [conj_one hU, hA2, conj_add]
  have hCi : (A + v • 1)⁻¹ = conj U fun i => (w i + v)⁻¹ := by rw [hC, conj_inv hU _ fun i => (hwv i).ne']
  have hD : A - A * (A + v • 1)⁻¹ * A.transpose + v • 1 = conj U fun i => v * (2 * w i + v) / (w i + v) := by
    rw [hA.1, hCi, conj_one hU, hA2, conj_mul hU, conj_mul hU, conj_sub, conj_add]
    congr 1
    ext i
    have := (hwv i).ne'
    field_simp
    ring
  have hdpos : ∀ i, 0 < v * (2 * w i + v) / (w i + v) := fun i => div_pos (mul_pos hv (hw2 i)) (hwv i)
  have hDi : (A - A * (A + v • 1)⁻¹ * A.transpose + v • 1)⁻¹ = conj U fun i => (v * (2 * w i + v) / (w i + v))⁻¹ := by
    rw [hD, conj_inv hU _ fun i => (hdpos i).ne']
  have hr : ∀ i, U.transpose.mulVec (r - A.mulVec ((A + v • 1)⁻¹.mulVec r)) i =
      v / (w i + v) * U.transpose.mulVec r i := by
    intro i
    rw [mulVec_sub, Pi.sub_apply, hCi]
    have h1 : A.mulVec ((conj U fun i => (w i + v)⁻¹).mulVec r) =
        (conj U w).mulVec ((conj U fun i => (w i + v)⁻¹).mulVec r) := by rw [← hA2]
    rw [h1, conj_vec hU, conj_vec hU]
    have := (hwv i).ne'
    field_simp
    ring
  rw [hDi, hD, conj_quad, conj_det hU]
  simp only [hr]
  rw [hCi, hC, conj_quad, conj_det hU,
    Real.log_prod (fun i _ => (hdpos i).ne'), Real.log_prod (fun i _ => (hwv i).ne'), ← Finset.sum_add_distrib,
    ← Finset.sum_add_distrib]
  have hq : ∀ i, (v * (2 * w i + v) / (w i + v))⁻¹ * (v / (w i + v) * U.transpose.mulVec r i) ^ 2 ≤
      (w i + v)⁻¹ * U.transpose.mulVec r i ^ 2 := by
    intro i
    have e : (v * (2 * w i + v) / (w i + v))⁻¹ * (v / (w i + v) * U.transpose.mulVec r i) ^ 2 =
        v / (2 * w i + v) * ((w i + v)⁻¹ * U.transpose.mulVec r i ^ 2) := by
      have h1 := (hwv i).ne'
      have h2 := (hw2 i).ne'
      have h3 := hv.ne'
      field_simp
    rw [e]
    have h1 : v / (2 * w i + v) ≤ 1 := by
      rw [div_le_one (hw2 i)]
      have := hw i
      linarith
    have h2 : 0 ≤ (w i + v)⁻¹ * U.transpose.mulVec r i ^ 2 := mul_nonneg (inv_nonneg.2 (hwv i).le) (sq_nonneg _)
    exact mul_le_of_le_one_left h2 h1
  have hl : ∀ i, v * (2 * w i + v) / (w i + v) ≤ w i + v ∧ (0 < w i → v * (2 * w i + v) / (w i + v) < w i + v) := by
    intro i
    constructor
    · rw [div_le_iff₀ (hwv i)]
      nlinarith [sq_nonneg (w i)]
    · intro hpos
      rw [div_lt_iff₀ (hwv i)]
      nlinarith [mul_pos hpos hpos]
  obtain ⟨i, hi⟩ : ∃ i, 0 < w i := by
    by_contra hne
    push Not at hne
    apply h0
    have : w = 0 := by
      ext i
      exact le_antisymm (hne i) (hw i)
    rw [hA2, this]
    unfold conj
    simp
  refine Finset.sum_lt_sum (fun j _ => ?_) ⟨i, Finset.mem_univ i, ?_⟩
  · exact add_le_add (hq j) (Real.log_le_log (hdpos j) (hl j).1)
  · exact add_lt_add_of_le_of_lt (hq i) (Real.log_lt_log (hdpos i) ((hl i).2 hi))

end

/-- C141, the missing part: a model on which `predict` has been called is left in evaluation mode, and `train` then prints
in its first pass a value that is too small: the targets are compared with the distribution that was already conditioned
on them.  This happens for all data, as soon as some training edge has a non-zero prior variance. -/
theorem C141_after_predict (t : Trainer sc) (stale : StaleCall sc.E) (opt : Optimiser sc.E) (o : GpObject sc.E)
    (hk : o.model.kernel.FromComplex lib tol) (ht : 0 < tol) (hn : 0 < o.model.noise) (hc : o.cache = none)
    (rt rs : List (Fin sc.E)) (y : Fin rt.length → ℝ) (hx : o.xTrain = edgeTensor rt) (hy : o.yTrain = List.ofFn y)
    (c : ℝ) (K : Matrix (Fin sc.E) (Fin sc.E) ℝ) (hK : o.model.HasPrior c K) (hne : ∃ e ∈ rt, K e e ≠ 0) (iters : ℕ)
    (hi : 0 < iters) : ∃ p l ls,
    (o.predictCall stale (edgeTensor rs)).1 = .ok p ∧
    (t.trainOn stale opt (o.predictCall stale (edgeTensor rs)).2 (edgeTensor rt) (List.ofFn y) iters).1 = l :: ls ∧
    l < marginalLoss c K o.model.noise rt y := by
  obtain ⟨e, he, hne⟩ := hne
  obtain ⟨a, ha, rfl⟩ := List.getElem_of_mem he
  have hpos : (0 : ℝ) < rt.length := by
    have : 0 < rt.length := by omega
    exact_mod_cast this
  have hE : 0 < sc.E := (fromComplex_eig hk).1
  have hp := o.model.prior_psd hk ht
  obtain ⟨hK1, hK2⟩ := HasPrior.unique hK (o.model.hasPrior hk ht)
  have hK2 := hK2 hE
  subst hK1 hK2
  have hpred := fun rs => predictive_eq o.model hk ht rt rs y
  simp only [← hx, ← hy] at hpred
  have hcall : ∃ p, o.predictCall stale (edgeTensor rs) =
      (.ok p, { o with training := false, cache := some o.model }) := by
    unfold GpObject.predictCall GpObject.marginal
    simp only [Bool.false_eq_true, if_false, hc, Option.getD_none, if_true, hpred]
    unfold GpObject.touch
    simp only [Bool.false_eq_true, if_false, Option.getD_none]
    exact ⟨_, rfl⟩
  obtain ⟨p, hcall⟩ := hcall
  have hloss : GpObject.loss stale { o with training := false, cache := some o.model } (edgeTensor rt) (List.ofFn y) =
      .ok (1 / 2 * ((fun i => y i - (o.model.meanConst.getD 0 + (Matrix.of fun a b => o.model.prior (rt.get a) (rt.get b)).mulVec
        ((obsCov o.model.prior o.model.noise rt.get)⁻¹.mulVec fun b => y b - o.model.meanConst.getD 0) i)) ⬝ᵥ
          (postCov o.model.prior o.model.noise rt.get rt.get + o.model.noise • 1)⁻¹.mulVec
            (fun i => y i - (o.model.meanConst.getD 0 + (Matrix.of fun a b => o.model.prior (rt.get a) (rt.get b)).mulVec
        ((obsCov o.model.prior o.model.noise rt.get)⁻¹.mulVec fun b => y b - o.model.meanConst.getD 0) i)) +
        Real.log (postCov o.model.prior o.model.noise rt.get rt.get + o.model.noise • 1).det +
          rt.length * Real.log (2 * Real.pi)) / rt.length) := by
    unfold GpObject.loss GpObject.marginal
    simp only [Bool.false_eq_true, if_false, Option.getD_some, if_true, hpred, bind, Except.bind]
    rw [if_neg (by simp)]
    simp only [pure, Except.pure, GpPrediction.logProb]
    have hyy : ∀ i : Fin rt.length, (List.ofFn y)[(i : ℕ)]?.getD 0 = y i := fun i => by simp
    simp only [hyy]
    rw [neg_mul, neg_neg]
  obtain ⟨n, rfl⟩ : ∃ n, iters = n + 1 := ⟨iters - 1, by omega⟩
  have hfirst : ∀ l, GpObject.loss stale { o with training := false, cache := some o.model } (edgeTensor rt)
      (List.ofFn y) = .ok l → ∃ ls, (t.trainOn stale opt { o with training := false, cache := some o.model }
        (edgeTensor rt) (List.ofFn y) (n + 1)).1 = l :: ls := by
    intro l hl
    have hloop : ∃ ls r o', GpObject.trainLoop stale opt (edgeTensor rt) (List.ofFn y) (n + 1) 0
        { o with training := false, cache := some o.model } = (l :: ls, r, o') := by
      simp only [GpObject.trainLoop, hl]
      exact ⟨_, _, _, rfl⟩
    obtain ⟨ls, r, o', hl⟩ := hloop
    refine ⟨ls, ?_⟩
    unfold Trainer.trainOn
    rw [hl]
    cases r <;> rfl
  obtain ⟨ls, hls⟩ := hfirst _ hloss
  refine ⟨p, _, ls, by rw [hcall], by rw [hcall]; exact hls, ?_⟩
  unfold marginalLoss
  rw [obsCov_of, log_density _ (obsCov_det_pos hp hn _)]
  apply div_lt_div_of_pos_right _ hpos
  have hA := slice_symmPSD hp rt.get
  have hA0 : (Matrix.of fun a b => o.model.prior (rt.get a) (rt.get b)) ≠ 0 := fun h =>
    hne (congrFun (congrFun h ⟨a, ha⟩) ⟨a, ha⟩)
  have := posterior_lt hA hA0 hn (fun b => y b - o.model.meanConst.getD 0)
  have e1 : (fun i => y i - (o.model.meanConst.getD 0 + (Matrix.of fun a b => o.model.prior (rt.get a) (rt.get b)).mulVec
      ((obsCov o.model.prior o.model.noise rt.get)⁻¹.mulVec fun b => y b - o.model.meanConst.getD 0) i)) =
      (fun b => y b - o.model.meanConst.getD 0) - (Matrix.of fun a b => o.model.prior (rt.get a) (rt.get b)).mulVec
      ((obsCov o.model.prior o.model.noise rt.get)⁻¹.mulVec fun b => y b - o.model.meanConst.getD 0) := by
    ext i
    simp only [Pi.sub_apply]
    ring
  rw [e1]
  have e2 : (y - fun _ => o.model.meanConst.getD 0) = fun b => y b - o.model.meanConst.getD 0 := rfl
  rw [e2]
  unfold postCov
  unfold obsCov
  linarith

/-- C141: after `model.train()`, `train` minimises the marginal loss again, whatever was done with the model before. -/
theorem C141_reset (t : Trainer sc) (stale : StaleCall sc.E) (opt : Optimiser sc.E) (o : GpObject sc.E)
    (hk : o.model.kernel.FromComplex lib tol) (ht : 0 < tol) (hn : 0 < o.model.noise)
    (rt : List (Fin sc.E)) (hx : o.xTrain = edgeTensor rt) (y : Fin rt.length → ℝ) (iters : ℕ) (hi : 0 < iters) :
    ∃ l ls, (t.trainOn stale opt o.enterTrain (edgeTensor rt) (List.ofFn y) iters).1 = l :: ls ∧
      o.model.HasLoss rt y l := by
  obtain ⟨n, rfl⟩ : ∃ n, iters = n + 1 := ⟨iters - 1, by omega⟩
  obtain ⟨L, ms, ls, h1, h2, -, h3, -⟩ := C141_loss_partial t stale opt o.enterTrain hk ht hn rfl rt hx y (n + 1)
  rw [h1]
  refine ⟨ls 0, _, List.ofFn_succ, ?_⟩
  have := h3 0
  change (ms 0).HasLoss rt y (ls 0) at this
  rw [h2] at this
  exact this

/-- C141: after `model.train()`, `predict` returns the posterior of the present parameters, whatever was done with the
model before. -/
theorem C141_reset_predict (stale : StaleCall sc.E) (o : GpObject sc.E) (x : List ℚ) :
    (o.enterTrain.predictCall stale x).1 = o.model.predictive o.xTrain o.yTrain x := by
  unfold GpObject.predictCall GpObject.marginal GpObject.enterTrain
  simp

/-- `C141_loss_partial` and `C141_after_predict` apply to the sample complex with three training edges, with some
optimiser -/
example : ∃ (lib : NumLib) (o : GpObject twoTri.E) (_ : Optimiser twoTri.E) (c : ℝ) (K : Matrix (Fin 6) (Fin 6) ℝ),
    o.model.kernel.FromComplex lib (1 / 1000) ∧ 0 < o.model.noise ∧ o.training = true ∧ o.cache = none ∧
    o.xTrain = edgeTensor [(0 : Fin 6), 1, 3] ∧ o.yTrain = List.ofFn ![1, 2, -1] ∧ o.model.HasPrior c K ∧
    ∃ e ∈ [(0 : Fin 6), 1, 3], K e e ≠ 0 := by
  obtain ⟨lib⟩ := NumLib.exists
  obtain ⟨k, -, hk⟩ := GpKernel.FromComplex.exists lib twoTri (by decide) (1 / 1000) .matern
  have ht : (0 : ℝ) < 1 / 1000 := by norm_num
  refine ⟨lib, GpObject.create k none 1 _ _, ⟨fun _ _ m => { m with rawOutputscale := m.rawOutputscale + 1 },
    fun _ _ _ => ⟨rfl, rfl⟩, fun _ _ _ h => h, fun _ _ _ h => h⟩, 0, _, hk, by norm_num [GpObject.create, GpModel.create],
    rfl, rfl, rfl, rfl, (C101_untrained k hk ht none 1).1, 0, by simp, ?_⟩
  obtain ⟨K, h1, -, h2⟩ := C72_positive_definite twoTri_wellFormed k hk (by norm_num [machineEps])
    [(0 : Fin 6)] (by decide)
  simp only [GpKernel.forward, rows_cast, bind, Except.bind, cov_ok hk ht] at h1
  injection h1 with h1
  injection h1 with _ _ h1
  have h3 := h2 (fun _ => 1) (fun h => by simpa using congrFun h ⟨0, by decide⟩)
  rw [← h1] at h3
  refine mul_ne_zero (Real.log_pos (by norm_num)).ne' fun h => ?_
  have h4 : (fun _ : Fin [(0 : Fin 6)].length => (1 : ℝ)) ⬝ᵥ (Matrix.of fun a b => fullCov k ([(0 : Fin 6)].get a)
      ([(0 : Fin 6)].get b)).mulVec (fun _ => 1) = fullCov k (0 : Fin 6) (0 : Fin 6) := by
    simp [dotProduct, mulVec]
  exact (h3.trans_eq h4).ne' h

end Pytspl
