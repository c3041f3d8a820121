import Verif.Props.Units

/-!
# C154 for the trend filters and the Gaussian-process trainer
-/

namespace Pytspl

open Matrix

/-! ## The specification -/

/-- Results of the trend filter in a unit `c` times smaller: flows and norms of components times `c`; the filter, the
errors and the correlations as before. -/
noncomputable def TrendHistory.inUnit {E : ℕ} (c : ℝ) (h : TrendHistory E) : TrendHistory E where
  filter := h.filter
  frequencyResponses := h.frequencyResponses.map fun rows => rows.map fun row => row.map fun v => c • v
  componentFlow := h.componentFlow.map fun l => l.map fun v => v.map fun x => c * x
  errors := h.errors
  correlations := h.correlations

/-- A trainer whose targets are in a unit `c` times smaller. -/
def Trainer.inUnit {sc : SC ℝ} (c : ℝ) (t : Trainer sc) : Trainer sc := { t with y := t.y.map fun v => c * v }

section trend
variable {sc : SC ℝ} {c : ℝ}

private theorem mapM_map' {α β γ : Type} (g : β → γ) (f : α → Py β) (f' : α → Py γ) (l : List α)
    (h : ∀ a, f' a = (f a).map g) : l.mapM f' = (l.mapM f).map (List.map g) := by
  induction l with
  | nil => rfl
  | cons a l ih =>
    rw [List.mapM_cons, List.mapM_cons, ih, h]
    cases f a with
    | error e => rfl
    | ok b => cases l.mapM f <;> rfl

private theorem okb {α β : Type} (a : α) (f : α → Py β) : ((Except.ok a : Py α) >>= f) = f a := rfl

private theorem mapM_listmap {α β γ : Type} (k : α → β) (f : β → Py γ) (l : List α) :
    (l.map k).mapM f = l.mapM fun a => f (k a) := by
  induction l with
  | nil => rfl
  | cons a l ih => rw [List.map_cons, List.mapM_cons, List.mapM_cons, ih]

private theorem mapM_scale (l : List (Option ℝ)) :
    ((l.map fun v => v.map fun x => c * x).mapM id : Option (List ℝ)) = (l.mapM id).map (List.map fun x => c * x) := by
  induction l with
  | nil => rfl
  | cons a l ih =>
    rw [List.map_cons, List.mapM_cons, List.mapM_cons, ih]
    cases a with
    | none => rfl
    | some b => cases l.mapM id <;> rfl

private theorem npMean_unit (l : List (Option ℝ)) :
    npMean (l.map fun v => v.map fun x => c * x) = (npMean l).map fun x => c * x := by
  unfold npMean
  rw [mapM_scale]
  generalize (l.mapM id : Option (List ℝ)) = r
  cases r with
  | none => rfl
  | some v =>
    change fdiv (v.map fun x => c * x).sum ((v.map fun x => c * x).length : ℝ) = (fdiv v.sum v.length).map _
    rw [List.sum_map_mul_left, List.length_map, List.map_id']
    unfold fdiv
    split_ifs
    · rfl
    · simp only [Option.map_some, mul_div_assoc]

private theorem norm2_unit {n : ℕ} (hc : 0 < c) (v : Fin n → ℝ) : norm2 (c • v) = c * norm2 v := by
  rw [norm2_smul, abs_of_pos hc]

private theorem nrmse_pos {n : ℕ} (hc : 0 < c) (x t : Fin n → ℝ) :
    calculateErrorNRMSE (c • x) (c • t) = calculateErrorNRMSE x t := by
  unfold calculateErrorNRMSE fdiv
  rw [← smul_sub, norm2_unit hc, norm2_unit hc, mul_div_mul_left _ _ hc.ne']
  simp only [mul_eq_zero, hc.ne', false_or]

private theorem centred_unit {n : ℕ} (a : Fin n → ℝ) :
    (fun i => (c • a) i - meanVec (c • a)) = c • fun i => a i - meanVec a := by
  funext i
  simp only [meanVec, Pi.smul_apply, smul_eq_mul, ← Finset.mul_sum]
  ring

private theorem correlation_unit {n : ℕ} (hc : 0 < c) (a b : Fin n → ℝ) :
    calculateCorrelation (c • a) (c • b) = calculateCorrelation a b := by
  unfold calculateCorrelation
  dsimp only
  rw [centred_unit, centred_unit, norm2_unit hc, norm2_unit hc, smul_dotProduct, dotProduct_smul, smul_eq_mul, smul_eq_mul,
    ← mul_assoc, show ∀ x y : ℝ, c * x * (c * y) = c * c * (x * y) by intro x y; ring]
  have h : c * c ≠ 0 := mul_ne_zero hc.ne' hc.ne'
  unfold fdiv
  rw [mul_div_mul_left _ _ h]
  simp only [mul_eq_zero, hc.ne', false_or]

private def passUnit {E : ℕ} (c : ℝ) (p : TrendPass E) : TrendPass E := ⟨c • p.x, p.err, c * p.comp, p.corr⟩

private theorem pass_unit (hc : 0 < c) (component : String) (flow x : Fin sc.E → ℝ) :
    sc.trendPass component (c • flow) (c • x) = (sc.trendPass component flow x).map (passUnit c) := by
  unfold SC.trendPass SC.componentNorm
  rw [nrmse_pos hc, correlation_unit hc]
  split_ifs
  · change Except.ok _ = Except.ok _
    rw [show sc.getDivergence (c • x) = c • sc.getDivergence x from mulVec_smul _ _ _, norm2_unit hc]
    rfl
  · change Except.ok _ = Except.ok _
    rw [show sc.getCurl (c • x) = c • sc.getCurl x from mulVec_smul _ _ _, norm2_unit hc]
    rfl
  · rfl

private theorem history_unit (F : Option (Matrix (Fin sc.E) (Fin sc.E) ℝ)) (grid : List (List (TrendPass sc.E))) :
    sc.trendHistory F (grid.map fun row => row.map (passUnit c)) = (sc.trendHistory F grid).inUnit c := by
  unfold SC.trendHistory TrendHistory.inUnit
  simp only [List.map_map, Option.map_some, TrendHistory.mk.injEq, true_and, Option.some.injEq]
  refine ⟨?_, ?_, ?_, ?_⟩
  · refine List.map_congr_left fun row _ => ?_
    simp [passUnit]
  · refine List.map_congr_left fun row _ => ?_
    simp only [Function.comp_apply, ← npMean_unit, List.map_map]
    rfl
  · refine List.map_congr_left fun row _ => ?_
    simp only [Function.comp_apply, List.map_map]
    rfl
  · refine List.map_congr_left fun row _ => ?_
    simp only [Function.comp_apply, List.map_map]
    rfl

private theorem power_unit (hc : 0 < c) (flow : Fin sc.E → ℝ) (snrDb : List ℝ) :
    (sc.getPowerNoise (c • flow) snrDb).1 = (sc.getPowerNoise flow snrDb).1.map fun v => v.map fun x => c * x := by
  unfold SC.getPowerNoise
  simp only [List.map_map]
  refine List.map_congr_left fun s _ => ?_
  simp only [Function.comp_apply, norm2_unit hc, fdiv]
  split_ifs
  · rfl
  · simp only [Option.map_some, mul_div_assoc]

private theorem noisy_unit (flow noise : Fin sc.E → ℝ) (p : Option ℝ) :
    sc.noisyFlow (c • flow) (p.map fun x => c * x) noise = c • sc.noisyFlow flow p noise := by
  unfold SC.noisyFlow
  cases p with
  | none => simp
  | some x => simp [smul_add, smul_smul]

private theorem commit_unit {E : ℕ} (st : TrendHistory E) (r : Py (TrendHistory E)) :
    SC.commitHistory (st.inUnit c) (r.map (TrendHistory.inUnit c)) =
      ((SC.commitHistory st r).1, (SC.commitHistory st r).2.inUnit c) := by
  cases r <;> rfl

/-- one noisy pass after the other -/
private theorem grid_unit {β γ : Type} (hc : 0 < c) (flow : Fin sc.E → ℝ) (snrDb : List ℝ) (n : ℕ)
    (F : Option ℝ → ℕ → ℕ → Py β) (F' : Option ℝ → ℕ → ℕ → Py γ) (g : β → γ)
    (h : ∀ p i j, F' (p.map fun x => c * x) i j = (F p i j).map g) :
    ((sc.getPowerNoise (c • flow) snrDb).1.zipIdx.mapM fun pi => (List.range n).mapM fun j => F' pi.1 pi.2 j) =
      ((sc.getPowerNoise flow snrDb).1.zipIdx.mapM fun pi => (List.range n).mapM fun j => F pi.1 pi.2 j).map
        (List.map (List.map g)) := by
  rw [power_unit hc, List.zipIdx_map, mapM_listmap]
  refine mapM_map' _ _ _ _ fun a => ?_
  exact mapM_map' _ _ _ _ fun j => h a.1 a.2 j

/-- C154: denoising with the quadratic penalty, the flow in another unit and the same random numbers, is the same call in
the other unit. -/
theorem C154_l2 (hc : 0 < c) (st : TrendHistory sc.E) (flow : Fin sc.E → ℝ) (component : String) (numRealizations : ℕ)
    (snrDb : List ℝ) (mu : ℝ) (noise : ℕ → ℕ → Fin sc.E → ℝ) :
    sc.denoisingL2 (st.inUnit c) (c • flow) component numRealizations snrDb mu noise =
      ((sc.denoisingL2 st flow component numRealizations snrDb mu noise).1,
        (sc.denoisingL2 st flow component numRealizations snrDb mu noise).2.inUnit c) := by
  unfold SC.denoisingL2
  rw [← commit_unit]
  congr 1
  unfold SC.l2Design
  cases SC.checkComponent component with
  | error e => rfl
  | ok u =>
    simp only [okb]
    rw [grid_unit hc flow snrDb numRealizations
      (fun p i j => do
        let H ← npInv (1 + mu • sc.L1l)
        let p ← sc.trendPass component flow (H.mulVec (sc.noisyFlow flow p (noise i j)))
        pure (H, p))
      (fun p i j => do
        let H ← npInv (1 + mu • sc.L1l)
        let p ← sc.trendPass component (c • flow) (H.mulVec (sc.noisyFlow (c • flow) p (noise i j)))
        pure (H, p)) (fun Hp => (Hp.1, passUnit c Hp.2))]
    · generalize (List.mapM (m := Py) (β := List (Matrix (Fin sc.E) (Fin sc.E) ℝ × TrendPass sc.E)) _ _) = r
      cases r with
      | error e => rfl
      | ok grid =>
        simp only [okb, Except.map]
        rw [← List.map_flatten, List.getLast?_map]
        cases grid.flatten.getLast? with
        | none => rfl
        | some last =>
          change Except.ok _ = Except.ok _
          rw [← history_unit]
          simp only [List.map_map, Function.comp_def]
    · intro p i j
      cases npInv (1 + mu • sc.L1l) with
      | error e => rfl
      | ok H =>
        change (sc.trendPass component (c • flow) (H.mulVec (sc.noisyFlow (c • flow) (p.map fun x => c * x) (noise i j)))
          >>= fun p => pure (H, p)) = Except.map _ (sc.trendPass component flow (H.mulVec (sc.noisyFlow flow p (noise i j)))
          >>= fun p => pure (H, p))
        rw [noisy_unit, mulVec_smul, pass_unit hc]
        cases sc.trendPass component flow (H.mulVec (sc.noisyFlow flow p (noise i j))) <;> rfl

/-! ### With the solver -/

private theorem objective_unit {m n : ℕ} (hc : 0 < c) (y x : Fin n → ℝ) (S : Matrix (Fin m) (Fin n) ℝ) (mu : ℝ) :
    stfObjective (c • y) S mu (c • x) = c * stfObjective y S mu x := by
  unfold stfObjective norm1
  rw [← smul_sub, norm2_unit hc, mulVec_smul]
  simp only [Pi.smul_apply, smul_eq_mul, abs_mul, abs_of_pos hc, ← Finset.mul_sum]
  ring

/-- the solver that works in the other unit -/
private noncomputable def solverUnit (hc : 0 < c) (cvx : CvxSolver) : CvxSolver where
  argmin m n y S mu obs := c • cvx.argmin m n (c⁻¹ • y) S mu obs
  feasible m n y S mu obs hmu i hi := by
    rw [Pi.smul_apply, cvx.feasible m n _ S mu obs hmu i hi, Pi.smul_apply, smul_smul, mul_inv_cancel₀ hc.ne', one_smul]
  minimal m n y S mu obs hmu x hx := by
    have h := cvx.minimal m n (c⁻¹ • y) S mu obs hmu (c⁻¹ • x) fun i hi => by
      rw [Pi.smul_apply, Pi.smul_apply, hx i hi]
    have h' := mul_le_mul_of_nonneg_left h hc.le
    rwa [← objective_unit hc, ← objective_unit hc, smul_smul, smul_smul, mul_inv_cancel₀ hc.ne', one_smul,
      one_smul] at h'

private theorem solve_unit {m n : ℕ} (hc : 0 < c) (cvx : CvxSolver) (y : Fin n → ℝ) (S : Matrix (Fin m) (Fin n) ℝ) (mu : ℝ)
    (obs : List (Fin n)) :
    cvxSolve (solverUnit hc cvx) (c • y) S mu obs = (cvxSolve cvx y S mu obs).map fun v => c • v := by
  unfold cvxSolve
  split_ifs
  · rfl
  · change Except.ok (c • cvx.argmin m n (c⁻¹ • c • y) S mu obs) = Except.ok _
    rw [smul_smul, inv_mul_cancel₀ hc.ne', one_smul]

/-- C154: denoising and interpolation with the absolute-value penalty, the flow in another unit, are the same calls in the
other unit, with the solver's choices among minimisers carried over. -/
theorem C154_l1 (hc : 0 < c) (cvx : CvxSolver) : ∃ cvx' : CvxSolver, ∀ (sc : SC ℝ) (sampler : Sampler sc.E)
    (st : TrendHistory sc.E) (flow : Fin sc.E → ℝ) (component : String) (numRealizations : ℕ) (snrDb ratio : List ℝ)
    (order : Int) (regularization : ℝ) (noise : ℕ → ℕ → Fin sc.E → ℝ),
    sc.denoisingL1 cvx' (st.inUnit c) (c • flow) component numRealizations snrDb order regularization noise =
      ((sc.denoisingL1 cvx st flow component numRealizations snrDb order regularization noise).1,
        (sc.denoisingL1 cvx st flow component numRealizations snrDb order regularization noise).2.inUnit c) ∧
    sc.interpolationL1 cvx' sampler (st.inUnit c) (c • flow) component ratio numRealizations order regularization =
      ((sc.interpolationL1 cvx sampler st flow component ratio numRealizations order regularization).1,
        (sc.interpolationL1 cvx sampler st flow component ratio numRealizations order regularization).2.inUnit c) := by
  refine ⟨solverUnit hc cvx, fun sc sampler st flow component numRealizations snrDb ratio order regularization noise =>
    ⟨?_, ?_⟩⟩
  · unfold SC.denoisingL1
    rw [← commit_unit]
    congr 1
    unfold SC.l1Design
    cases SC.checkComponent component with
    | error e => rfl
    | ok u =>
      cases sc.getShiftOperator component order with
      | error e => rfl
      | ok S =>
        simp only [okb]
        rw [grid_unit hc flow snrDb numRealizations
          (fun p i j => do
            let x ← cvxSolve cvx (sc.noisyFlow flow p (noise i j)) S.2 regularization []
            sc.trendPass component flow x)
          (fun p i j => do
            let x ← cvxSolve (solverUnit hc cvx) (sc.noisyFlow (c • flow) p (noise i j)) S.2 regularization []
            sc.trendPass component (c • flow) x) (passUnit c)]
        · generalize (List.mapM (m := Py) (β := List (TrendPass sc.E)) _ _) = r
          cases r with
          | error e => rfl
          | ok grid => exact congrArg Except.ok (history_unit none grid)
        · intro p i j
          rw [noisy_unit, solve_unit hc]
          cases cvxSolve cvx (sc.noisyFlow flow p (noise i j)) S.2 regularization [] with
          | error e => rfl
          | ok x => exact pass_unit hc component flow x
  · unfold SC.interpolationL1
    rw [← commit_unit]
    congr 1
    unfold SC.interpolationDesign
    cases SC.checkComponent component with
    | error e => rfl
    | ok u =>
      cases sc.getShiftOperator component order with
      | error e => rfl
      | ok S =>
        simp only [okb]
        rw [mapM_map' (List.map (passUnit c)) (fun ri : ℝ × ℕ => (List.range numRealizations).mapM fun j => do
            let obs ← sc.sampleEdges sampler ri.2 j ri.1
            let x ← cvxSolve cvx (sc.maskFlow flow obs) S.2 regularization obs
            sc.trendPass component flow x)]
        · generalize (List.mapM (m := Py) (β := List (TrendPass sc.E)) _ _) = r
          cases r with
          | error e => rfl
          | ok grid => exact congrArg Except.ok (history_unit none grid)
        · intro ri
          refine mapM_map' _ _ _ _ fun j => ?_
          cases sc.sampleEdges sampler ri.2 j ri.1 with
          | error e => rfl
          | ok obs =>
            change (cvxSolve _ (sc.maskFlow (c • flow) obs) _ _ _ >>= _) = Except.map _ (cvxSolve _ _ _ _ _ >>= _)
            have hm : sc.maskFlow (c • flow) obs = c • sc.maskFlow flow obs := by
              funext i
              simp only [SC.maskFlow, Pi.smul_apply, smul_eq_mul, mul_ite, mul_zero]
            rw [hm, solve_unit hc]
            cases cvxSolve cvx (sc.maskFlow flow obs) S.2 regularization obs with
            | error e => rfl
            | ok x => exact pass_unit hc component flow x

/-! ## The trainer -/

private theorem mean_unit (l : List ℝ) : torchMean (l.map fun v => c * v) = c * torchMean l := by
  unfold torchMean
  rw [List.sum_map_mul_left, List.length_map, List.map_id', mul_div_assoc]

private theorem std_unit (hc : 0 < c) (l : List ℝ) :
    torchStd (l.map fun v => c * v) = (torchStd l).map fun s => c * s := by
  unfold torchStd
  rw [mean_unit, List.length_map, List.map_map]
  split_ifs
  · rfl
  · rw [Option.map_some]
    congr 1
    have e : ((fun v => (v - c * torchMean l) ^ 2) ∘ fun v => c * v) = fun v => c ^ 2 * (v - torchMean l) ^ 2 := by
      funext v
      simp only [Function.comp_apply]
      ring
    rw [e, List.sum_map_mul_left, mul_div_assoc, Real.sqrt_mul (sq_nonneg c), Real.sqrt_sq hc.le]

private theorem norm_unit (hc : 0 < c) (l : List ℝ) (v : ℝ) :
    normEntry (l.map fun v => c * v) (c * v) = normEntry l v := by
  unfold normEntry
  rw [std_unit hc, mean_unit]
  cases torchStd l with
  | none => rfl
  | some s =>
    simp only [Option.map_some, fdiv, ← mul_sub]
    rw [mul_div_mul_left _ _ hc.ne']
    simp only [mul_eq_zero, hc.ne', false_or]

/-- C154: with normalisation the trainer hands the same numbers to the model whatever unit the targets are in; without it,
it hands over the targets, and the split is the same. -/
theorem C154_trainer (hc : 0 < c) (t : Trainer sc) (sh : Shuffler) (size : TrainSize) (seed : Int) :
    (t.inUnit c).split sh size true seed = ((t.split sh size true seed).1, (t.split sh size true seed).2.inUnit c) ∧
    ∀ xTr yTr xTe yTe x y, (t.split sh size false seed).1 = .ok (xTr, yTr, xTe, yTe, x, y) →
      ((t.inUnit c).split sh size false seed).1 = .ok (xTr, yTr.map fun v => v.map fun a => c * a, xTe,
        yTe.map fun v => v.map fun a => c * a, x, y.map fun v => v.map fun a => c * a) := by
  have hs : sklearnSplit sh sc.E (t.inUnit c).y size seed = (sklearnSplit sh sc.E t.y size seed).map fun r =>
      (r.1, r.2.1, r.2.2.1.map fun v => c * v, r.2.2.2.map fun v => c * v) := by
    have e : ∀ i : ℕ, (t.inUnit c).y[i]?.getD 0 = c * t.y[i]?.getD 0 := by
      intro i
      change (t.y.map fun v => c * v)[i]?.getD 0 = _
      rw [List.getElem?_map]
      cases t.y[i]? <;> simp
    have hl : (t.inUnit c).y.length = t.y.length := List.length_map _
    unfold sklearnSplit
    rw [hl]
    by_cases h1 : t.y.length ≠ sc.E ∨ ¬ size.InRange sc.E ∨ seed < 0 ∨ (2 : Int) ^ 32 ≤ seed
    · rw [if_pos h1, if_pos h1]
      rfl
    · rw [if_neg h1, if_neg h1]
      dsimp only
      by_cases h2 : size.number sh.R sc.E = 0
      · rw [if_pos h2, if_pos h2]
        rfl
      · rw [if_neg h2, if_neg h2]
        simp only [e, Except.map, List.map_map, Function.comp_def]
  unfold Trainer.split
  rw [hs]
  cases sklearnSplit sh sc.E t.y size seed with
  | error e => exact ⟨rfl, fun _ _ _ _ _ _ h => absurd h (by simp)⟩
  | ok r =>
    obtain ⟨xTr, xTe, yTr, yTe⟩ := r
    constructor
    · have hn : normalizeData (yTr.map fun v => c * v) (yTe.map fun v => c * v) (t.inUnit c).y =
          normalizeData yTr yTe t.y := by
        unfold normalizeData Trainer.inUnit
        simp only [List.map_map, Function.comp_def, norm_unit hc]
      simp only [Except.map, if_true, hn]
      rfl
    · intro xTr' yTr' xTe' yTe' x y h
      simp only [Except.map, if_false, Bool.false_eq_true, Except.ok.injEq, Prod.mk.injEq] at h ⊢
      obtain ⟨rfl, rfl, rfl, rfl, rfl, rfl⟩ := h
      simp [Trainer.inUnit, Function.comp_def]

end trend

/-- Non-vacuity of C154: on a complex with edges there is a flow other than zero that is below half a unit of the second
decimal in one unit, and not in another. -/
example : ∃ sc : SC ℝ, sc.WellFormed ∧ ∃ f : Fin sc.edges.length → ℝ, f ≠ 0 ∧ norm2 f < 1 / 200 ∧
    1 ≤ norm2 ((1000 : ℝ) • f) := by
  obtain ⟨sc, hw, -, hn, he, ht⟩ := sample_wellFormed ℝ
  have hpos : 0 < sc.edges.length := by rw [he]; decide
  have hd : norm2 (fun j : Fin sc.edges.length => if j = ⟨0, hpos⟩ then (1 / 1000 : ℝ) else 0) = 1 / 1000 := by
    unfold norm2
    rw [Real.sqrt_eq_iff_mul_self_eq_of_pos (by norm_num)]
    simp [dotProduct]
  refine ⟨sc, hw, fun j => if j = ⟨0, hpos⟩ then 1 / 1000 else 0, fun h => ?_, ?_, ?_⟩
  · have := congrFun h ⟨0, hpos⟩
    norm_num at this
  · rw [hd]; norm_num
  · rw [norm2_smul, hd]; norm_num

end Pytspl
