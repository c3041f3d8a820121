import Verif.Lemmas.RoundFloor
import Verif.Lemmas.TrendLib
import Verif.Props.EdgeFlow
import Verif.Lemmas.ConcreteEig

/-!
# Properties of the trend filter: C66, C67, C68, C69, C70, C71, C91
-/

namespace Pytspl

open Matrix

variable {sc : SC ℝ}

private theorem bind_ok {α β : Type} {x : Py α} {f : α → Py β} {r : β} (h : (x >>= f) = .ok r) :
    ∃ a, x = .ok a ∧ f a = .ok r := by
  cases x with
  | error e => cases h
  | ok a => exact ⟨a, rfl, h⟩

/-! ## C66: shift operators -/

private theorem gram_ker {m n : ℕ} (B : Matrix (Fin m) (Fin n) ℝ) {f : Fin n → ℝ}
    (h : B.transpose.mulVec (B.mulVec f) = 0) : B.mulVec f = 0 := by
  apply dotProduct_self_eq_zero.mp
  have h1 : B.mulVec f ⬝ᵥ B.mulVec f = f ⬝ᵥ B.transpose.mulVec (B.mulVec f) := by
    rw [dotProduct_mulVec f, vecMul_transpose]
  rw [h1, h, dotProduct_zero]

private theorem gram_even {m n : ℕ} (B : Matrix (Fin m) (Fin n) ℝ) (k : ℕ) (f : Fin n → ℝ) :
    (B * (B.transpose * B) ^ k).mulVec f = 0 ↔ B.mulVec f = 0 := by
  induction k with
  | zero => simp
  | succ k ih =>
    rw [← ih]
    have e1 : (B * (B.transpose * B) ^ (k + 1)).mulVec f =
        B.mulVec (B.transpose.mulVec ((B * (B.transpose * B) ^ k).mulVec f)) := by
      simp only [mulVec_mulVec, ← Matrix.mul_assoc, pow_succ']
    rw [e1]
    constructor
    · intro h
      have h2 : B.transpose.mulVec ((B * (B.transpose * B) ^ k).mulVec f) = 0 := by
        have := gram_ker B.transpose (f := (B * (B.transpose * B) ^ k).mulVec f) (by simpa using h)
        exact this
      have h3 : B.transpose.mulVec (B.mulVec (((B.transpose * B) ^ k).mulVec f)) = 0 := by
        rw [mulVec_mulVec _ B]; exact h2
      have := gram_ker B h3
      rwa [mulVec_mulVec] at this
    · intro h
      rw [h, mulVec_zero, mulVec_zero]

private theorem gram_odd {m n : ℕ} (B : Matrix (Fin m) (Fin n) ℝ) (k : ℕ) (f : Fin n → ℝ) :
    ((B.transpose * B) ^ (k + 1)).mulVec f = 0 ↔ B.mulVec f = 0 := by
  rw [← gram_even B k f]
  have e : ((B.transpose * B) ^ (k + 1)).mulVec f =
      B.transpose.mulVec (B.mulVec (((B.transpose * B) ^ k).mulVec f)) := by
    simp only [mulVec_mulVec, ← Matrix.mul_assoc, pow_succ']
  rw [e]
  constructor
  · intro h
    have := gram_ker B h
    rwa [mulVec_mulVec] at this
  · intro h
    rw [mulVec_mulVec _ B, h, mulVec_zero]

theorem shift_cases (component : String) (k : ℕ) :
    ∃ (p : ℕ) (B : Matrix (Fin p) (Fin sc.E) ℝ),
      (∀ f, (B.mulVec f = 0 ↔ if component = "divergence" then sc.getDivergence f = 0
        else sc.getCurl f = 0)) ∧
      sc.getShiftOperator component ((2 * k : ℕ) : Int) = .ok ⟨p, B * (B.transpose * B) ^ k⟩ ∧
      sc.getShiftOperator component ((2 * k + 1 : ℕ) : Int) = .ok ⟨sc.E, (B.transpose * B) ^ (k + 1)⟩ := by
  by_cases hc : component = "divergence"
  · refine ⟨sc.N, sc.B1, fun f => by rw [if_pos hc]; rfl, ?_, ?_⟩
    · unfold SC.getShiftOperator
      rw [if_neg (by omega), if_pos hc]
      by_cases hk : k = 0
      · subst hk; simp
      · rw [if_neg (by omega), if_pos (by omega)]
        rw [show (((2 * k : ℕ) : Int) / 2).toNat = k by omega]
        rfl
    · unfold SC.getShiftOperator
      rw [if_neg (by omega), if_pos hc, if_neg (by omega), if_neg (by omega)]
      rw [show ((((2 * k + 1 : ℕ) : Int) + 1) / 2).toNat = k + 1 by omega]
      rfl
  · refine ⟨sc.T, sc.B2.transpose, fun f => by rw [if_neg hc]; rfl, ?_, ?_⟩
    · unfold SC.getShiftOperator
      rw [if_neg (by omega), if_neg hc]
      by_cases hk : k = 0
      · subst hk; simp
      · rw [if_neg (by omega), if_pos (by omega)]
        rw [show (((2 * k : ℕ) : Int) / 2).toNat = k by omega, transpose_transpose]
        rfl
    · unfold SC.getShiftOperator
      rw [if_neg (by omega), if_neg hc, if_neg (by omega), if_neg (by omega)]
      rw [show ((((2 * k + 1 : ℕ) : Int) + 1) / 2).toNat = k + 1 by omega, transpose_transpose]
      rfl

theorem shift_ok (sc : SC ℝ) (component : String) (k : ℕ) : ∃ (m : ℕ) (S : Matrix (Fin m) (Fin sc.E) ℝ),
    sc.getShiftOperator component (k : Int) = .ok ⟨m, S⟩ ∧
    ∀ f, (S.mulVec f = 0 ↔ if component = "divergence" then sc.getDivergence f = 0
        else sc.getCurl f = 0) := by
  rcases Nat.even_or_odd' k with ⟨j, rfl | rfl⟩
  · obtain ⟨p, B, h1, h2, -⟩ := shift_cases (sc := sc) component j
    exact ⟨p, _, h2, fun f => by rw [gram_even, h1]⟩
  · obtain ⟨p, B, h1, -, h3⟩ := shift_cases (sc := sc) component j
    exact ⟨sc.E, _, h3, fun f => by rw [gram_odd, h1]⟩

/-- C66: for every order the shift operator exists, and it is zero exactly on the flows without
divergence (curl). -/
theorem C66_kernel (sc : SC ℝ) (order : ℕ) :
    (∃ (m : ℕ) (S : Matrix (Fin m) (Fin sc.E) ℝ), sc.getShiftOperator "divergence" order = .ok ⟨m, S⟩ ∧
      ∀ f, S.mulVec f = 0 ↔ sc.getDivergence f = 0) ∧
    (∃ (m : ℕ) (S : Matrix (Fin m) (Fin sc.E) ℝ), sc.getShiftOperator "curl" order = .ok ⟨m, S⟩ ∧
      ∀ f, S.mulVec f = 0 ↔ sc.getCurl f = 0) := by
  constructor
  · obtain ⟨m, S, h1, h2⟩ := shift_ok sc "divergence" order
    exact ⟨m, S, h1, by simpa using h2⟩
  · obtain ⟨m, S, h1, h2⟩ := shift_ok sc "curl" order
    exact ⟨m, S, h1, by simpa using h2⟩

/-- C66: the orders alternate: order 0 is the divergence, and each further order applies the adjoint of
the divergence and the divergence in turn; likewise for the curl. -/
theorem C66_alternates (sc : SC ℝ) (k : ℕ) :
    (∃ (S : Matrix (Fin sc.N) (Fin sc.E) ℝ) (S' : Matrix (Fin sc.E) (Fin sc.E) ℝ)
        (S'' : Matrix (Fin sc.N) (Fin sc.E) ℝ),
      sc.getShiftOperator "divergence" 0 = .ok ⟨sc.N, sc.B1⟩ ∧
      sc.getShiftOperator "divergence" ((2 * k : ℕ) : Int) = .ok ⟨sc.N, S⟩ ∧
      sc.getShiftOperator "divergence" ((2 * k + 1 : ℕ) : Int) = .ok ⟨sc.E, S'⟩ ∧
      sc.getShiftOperator "divergence" ((2 * k + 2 : ℕ) : Int) = .ok ⟨sc.N, S''⟩ ∧
      S' = sc.B1.transpose * S ∧ S'' = sc.B1 * S') ∧
    (∃ (S : Matrix (Fin sc.T) (Fin sc.E) ℝ) (S' : Matrix (Fin sc.E) (Fin sc.E) ℝ)
        (S'' : Matrix (Fin sc.T) (Fin sc.E) ℝ),
      sc.getShiftOperator "curl" 0 = .ok ⟨sc.T, sc.B2.transpose⟩ ∧
      sc.getShiftOperator "curl" ((2 * k : ℕ) : Int) = .ok ⟨sc.T, S⟩ ∧
      sc.getShiftOperator "curl" ((2 * k + 1 : ℕ) : Int) = .ok ⟨sc.E, S'⟩ ∧
      sc.getShiftOperator "curl" ((2 * k + 2 : ℕ) : Int) = .ok ⟨sc.T, S''⟩ ∧
      S' = sc.B2 * S ∧ S'' = sc.B2.transpose * S') := by
  have key : ∀ j : ℕ, sc.getShiftOperator "divergence" ((2 * j : ℕ) : Int) =
        .ok ⟨sc.N, sc.B1 * sc.L1l ^ j⟩ ∧
      sc.getShiftOperator "divergence" ((2 * j + 1 : ℕ) : Int) = .ok ⟨sc.E, sc.L1l ^ (j + 1)⟩ ∧
      sc.getShiftOperator "curl" ((2 * j : ℕ) : Int) = .ok ⟨sc.T, sc.B2.transpose * sc.L1u ^ j⟩ ∧
      sc.getShiftOperator "curl" ((2 * j + 1 : ℕ) : Int) = .ok ⟨sc.E, sc.L1u ^ (j + 1)⟩ := by
    intro j
    have h0 : ¬ ((2 * j : ℕ) : Int) < 0 := by omega
    have h0' : ¬ ((2 * j + 1 : ℕ) : Int) < 0 := by omega
    have h2 : ((2 * j : ℕ) : Int) % 2 = 0 := by omega
    have h3 : ¬ ((2 * j + 1 : ℕ) : Int) % 2 = 0 := by omega
    have h4 : ¬ ((2 * j + 1 : ℕ) : Int) = 0 := by omega
    have e1 : (((2 * j : ℕ) : Int) / 2).toNat = j := by omega
    have e2 : ((((2 * j + 1 : ℕ) : Int) + 1) / 2).toNat = j + 1 := by omega
    have hc : ¬ "curl" = "divergence" := by decide
    unfold SC.getShiftOperator
    simp only [if_neg h0, if_neg h0', if_pos h2, if_neg h3, if_neg h4, e1, e2, if_true, if_neg hc, and_true,
      true_and]
    by_cases hj : j = 0
    · subst hj; simp
    · have h5 : ¬ ((2 * j : ℕ) : Int) = 0 := by omega
      simp only [if_neg h5, and_self]
  obtain ⟨a1, a2, a3, a4⟩ := key k
  obtain ⟨b1, -, b3, -⟩ := key (k + 1)
  obtain ⟨c1, -, c3, -⟩ := key 0
  refine ⟨⟨_, _, _, by simpa using c1, a1, a2, by rw [show 2 * k + 2 = 2 * (k + 1) by ring]; exact b1, ?_, rfl⟩,
    ⟨_, _, _, by simpa using c3, a3, a4, by rw [show 2 * k + 2 = 2 * (k + 1) by ring]; exact b3, ?_, rfl⟩⟩
  · rw [pow_succ', SC.L1l, Matrix.mul_assoc]
  · rw [pow_succ', SC.L1u, Matrix.mul_assoc]

/-- C66: negative orders are a `ValueError`. -/
theorem C66_negative_order (sc : SC ℝ) (component : String) (order : Int) (h : order < 0) :
    sc.getShiftOperator component order = .error .valueError := by
  unfold SC.getShiftOperator
  rw [if_pos h]

/-- C70: every string other than `divergence` counts as `curl` for the shift operator. -/
theorem C70_shift_operator (sc : SC ℝ) (component : String) (order : Int) (h : component ≠ "divergence") :
    sc.getShiftOperator component order = sc.getShiftOperator "curl" order := by
  unfold SC.getShiftOperator
  simp [h]

/-! ## C71: noise power -/

private theorem snr_pos (db : ℝ) : 0 < calculateSnr db := Real.rpow_pos_of_pos (by norm_num) _

theorem power_at (sc : SC ℝ) (flow : Fin sc.E → ℝ) (snrDb : List ℝ) (hE : 0 < sc.E) (i : ℕ) (db : ℝ)
    (h : snrDb[i]? = some db) :
    (sc.getPowerNoise flow snrDb).1[i]? = some (some (norm2 flow / (10 : ℝ) ^ (db / 10) / sc.E)) := by
  unfold SC.getPowerNoise
  have : (sc.E : ℝ) ≠ 0 := by exact_mod_cast hE.ne'
  simp [h, fdiv, this, calculateSnr]

/-- C71: one signal to noise ratio and one noise power per dB value, `10^(dB/10)` and
`|f| / (snr E)`. -/
theorem C71_power (sc : SC ℝ) (flow : Fin sc.E → ℝ) (snrDb : List ℝ) (hE : 0 < sc.E) :
    (sc.getPowerNoise flow snrDb).1.length = snrDb.length ∧
    (sc.getPowerNoise flow snrDb).2.length = snrDb.length ∧
    ∀ (i : ℕ) (db : ℝ), snrDb[i]? = some db →
      (sc.getPowerNoise flow snrDb).2[i]? = some ((10 : ℝ) ^ (db / 10)) ∧
      (sc.getPowerNoise flow snrDb).1[i]? = some (some (norm2 flow / ((10 : ℝ) ^ (db / 10) * sc.E))) := by
  refine ⟨by simp [SC.getPowerNoise], by simp [SC.getPowerNoise], fun i db h => ⟨?_, ?_⟩⟩
  · simp [SC.getPowerNoise, h, calculateSnr]
  · rw [power_at sc flow snrDb hE i db h, div_div]

/-- C71: more dB means strictly less noise, and 10 dB more mean a tenth of the noise power. -/
theorem C71_monotone (sc : SC ℝ) (flow : Fin sc.E → ℝ) (snrDb : List ℝ) (hf : flow ≠ 0) (i j : ℕ)
    (d d' : ℝ) (hi : snrDb[i]? = some d) (hj : snrDb[j]? = some d') :
    ∃ p p', (sc.getPowerNoise flow snrDb).1[i]? = some (some p) ∧
      (sc.getPowerNoise flow snrDb).1[j]? = some (some p') ∧ 0 < p ∧
      (d < d' → p' < p) ∧ (d' = d + 10 → p' = p / 10) := by
  have hE : 0 < sc.E := by
    rcases Nat.eq_zero_or_pos sc.E with h0 | h0
    · exact absurd (funext fun k => by have := k.2; omega) hf
    · exact h0
  have hE' : (0 : ℝ) < sc.E := by exact_mod_cast hE
  have hn : 0 < norm2 flow := lt_of_le_of_ne (norm2_nonneg _) fun h => hf (norm2_eq_zero.1 h.symm)
  have p10 : ∀ x : ℝ, (0 : ℝ) < (10 : ℝ) ^ x := fun x => Real.rpow_pos_of_pos (by norm_num) _
  refine ⟨_, _, power_at sc flow snrDb hE i d hi, power_at sc flow snrDb hE j d' hj,
    div_pos (div_pos hn (p10 _)) hE', fun h => ?_, fun h => ?_⟩
  · apply div_lt_div_of_pos_right _ hE'
    apply div_lt_div_of_pos_left hn (p10 _)
    exact Real.rpow_lt_rpow_of_exponent_lt (by norm_num) (by linarith)
  · rw [h, show (d + 10) / 10 = d / 10 + 1 by ring, Real.rpow_add (by norm_num), Real.rpow_one]
    have := (p10 (d / 10)).ne'
    field_simp

/-! ## The loops -/

/-- `x` is what the history stores for realisation `j` of setting `i` -/
def Stored {E : ℕ} (h : TrendHistory E) (i j : ℕ) (x : Fin E → ℝ) : Prop :=
  ∃ rows row, h.frequencyResponses = some rows ∧ rows[i]? = some row ∧ row[j]? = some x

/-- the history has one row per setting and one flow per realisation -/
def StoredShape {E : ℕ} (h : TrendHistory E) (settings realisations : ℕ) : Prop :=
  ∃ rows, h.frequencyResponses = some rows ∧ rows.length = settings ∧
    ∀ row ∈ rows, row.length = realisations

/-- the flow with the noise of power `|f| / (snr E)` that realisation `j` of the value `db` draws -/
noncomputable def noisy {E : ℕ} (flow : Fin E → ℝ) (db : ℝ) (noise : Fin E → ℝ) : Fin E → ℝ :=
  fun k => flow k + norm2 flow / ((10 : ℝ) ^ (db / 10) * E) * noise k

theorem noisyFlow_eq (flow : Fin sc.E → ℝ) (db : ℝ) (nz : Fin sc.E → ℝ) :
    sc.noisyFlow flow (some (norm2 flow / (10 : ℝ) ^ (db / 10) / sc.E)) nz = noisy flow db nz := by
  funext k
  simp [SC.noisyFlow, noisy, div_div]

theorem mapM_grid {α β : Type} (l : List α) (n : ℕ) (f : α × ℕ → ℕ → Py β) (g : α × ℕ → ℕ → β)
    (h : ∀ p ∈ l.zipIdx, ∀ j, f p j = .ok (g p j)) :
    (l.zipIdx.mapM fun p => (List.range n).mapM fun j => f p j) =
      .ok (l.zipIdx.map fun p => (List.range n).map fun j => g p j) :=
  mapM_ok _ _ _ fun p hp => mapM_ok _ _ _ fun j _ => h p hp j

private theorem mapM_grid_error {α β : Type} (l : List α) (n : ℕ) (f : α × ℕ → ℕ → Py β) (e : PyErr)
    (hl : l ≠ []) (hn : 0 < n) (h : ∀ p ∈ l.zipIdx, f p 0 = .error e) :
    (l.zipIdx.mapM fun p => (List.range n).mapM fun j => f p j) = .error e := by
  cases l with
  | nil => exact absurd rfl hl
  | cons a l =>
    have h0 : f (a, 0) 0 = .error e := h (a, 0) (by simp)
    obtain ⟨m, rfl⟩ : ∃ m, n = m + 1 := ⟨n - 1, by omega⟩
    rw [List.zipIdx_cons, List.mapM_cons, List.range_succ_eq_map, List.mapM_cons, h0]
    rfl

theorem shape_of {α : Type} {E : ℕ} (l : List α) (n : ℕ) (g : α × ℕ → ℕ → TrendPass E)
    {h : TrendHistory E}
    (hr : h.frequencyResponses = some ((l.zipIdx.map fun p => (List.range n).map fun j => g p j).map
      fun row => row.map (·.x))) : StoredShape h l.length n := by
  refine ⟨_, hr, by simp, fun row hrow => ?_⟩
  simp only [List.map_map, List.mem_map] at hrow
  obtain ⟨p, -, rfl⟩ := hrow
  simp

theorem stored_of {α : Type} {E : ℕ} (l : List α) (n : ℕ) (g : α × ℕ → ℕ → TrendPass E)
    {h : TrendHistory E}
    (hr : h.frequencyResponses = some ((l.zipIdx.map fun p => (List.range n).map fun j => g p j).map
      fun row => row.map (·.x))) (i j : ℕ) (a : α) (hi : l[i]? = some a) (hj : j < n) (x : Fin E → ℝ) :
    Stored h i j x ↔ x = (g (a, i) j).x := by
  constructor
  · rintro ⟨rows, row, e1, e2, e3⟩
    rw [hr] at e1
    cases e1
    simp only [List.map_map, List.getElem?_map, List.getElem?_zipIdx, hi, Option.map_some, Nat.zero_add,
      Function.comp_apply, Option.some.injEq] at e2
    subst e2
    simp only [List.getElem?_map, List.getElem?_range hj, Option.map_some,
      Function.comp_apply, Option.some.injEq] at e3
    exact e3.symm
  · rintro rfl
    refine ⟨_, ((List.range n).map fun j => g (a, i) j).map (·.x), hr, ?_, ?_⟩
    · simp [List.getElem?_map, List.getElem?_zipIdx, hi]
    · simp [List.getElem?_map, List.getElem?_range hj]

theorem check_ok {component : String} (hc : component = "divergence" ∨ component = "curl") :
    SC.checkComponent component = .ok () := by
  rcases hc with rfl | rfl <;> rfl

/-- the norm stored for the component -/
noncomputable def chosenNorm (sc : SC ℝ) (component : String) (x : Fin sc.E → ℝ) : ℝ :=
  if component = "divergence" then norm2 (sc.getDivergence x) else norm2 (sc.getCurl x)

theorem trendPass_ok {component : String} (hc : component = "divergence" ∨ component = "curl")
    (flow x : Fin sc.E → ℝ) : sc.trendPass component flow x =
      .ok ⟨x, calculateErrorNRMSE x flow, chosenNorm sc component x, calculateCorrelation flow x⟩ := by
  rcases hc with rfl | rfl
  · rfl
  · simp [SC.trendPass, SC.componentNorm, chosenNorm]

private theorem power_mem {flow : Fin sc.E → ℝ} {snrDb : List ℝ} {p : Option ℝ × ℕ}
    (hp : p ∈ (sc.getPowerNoise flow snrDb).1.zipIdx) :
    (sc.getPowerNoise flow snrDb).1[p.2]? = some p.1 := by
  have := List.mem_zipIdx_iff_getElem?.1 hp
  simpa using this

/-! ## C68: the l1 filter -/

/-- what a call of the l1 filter stores: the answers of the solver -/
theorem denoisingL1_run (cvx : CvxSolver) (sc : SC ℝ) (hE : 0 < sc.E) (st : TrendHistory sc.E)
    (flow : Fin sc.E → ℝ) (component : String) (hc : component = "divergence" ∨ component = "curl")
    (realisations : ℕ) (snrDb : List ℝ) (order : ℕ) (mu : ℝ) (hmu : 0 ≤ mu)
    (noise : ℕ → ℕ → Fin sc.E → ℝ) {m : ℕ} {S : Matrix (Fin m) (Fin sc.E) ℝ}
    (hS : sc.getShiftOperator component order = .ok ⟨m, S⟩) :
    ∃ st', sc.denoisingL1 cvx st flow component realisations snrDb order mu noise = (.ok (), st') ∧
      StoredShape st' snrDb.length realisations ∧
      ∀ (i j : ℕ) (db : ℝ) (x : Fin sc.E → ℝ), snrDb[i]? = some db → j < realisations →
        (Stored st' i j x ↔ x = cvx.argmin m sc.E (noisy flow db (noise i j)) S mu []) := by
  let g : Option ℝ × ℕ → ℕ → TrendPass sc.E := fun p j =>
    let x := cvx.argmin m sc.E (sc.noisyFlow flow p.1 (noise p.2 j)) S mu []
    ⟨x, calculateErrorNRMSE x flow, chosenNorm sc component x, calculateCorrelation flow x⟩
  have hgrid := mapM_grid (sc.getPowerNoise flow snrDb).1 realisations
    (fun p j => (cvxSolve cvx (sc.noisyFlow flow p.1 (noise p.2 j)) S mu [] >>= fun x =>
      sc.trendPass component flow x : Py _)) g (fun p _ j => by
        simp only [cvxSolve, if_neg (not_lt.2 hmu), bind, Except.bind, trendPass_ok hc, g])
  have hd : sc.l1Design cvx flow component realisations snrDb order mu noise =
      .ok (sc.trendHistory none ((sc.getPowerNoise flow snrDb).1.zipIdx.map fun p =>
        (List.range realisations).map fun j => g p j)) := by
    unfold SC.l1Design
    rw [check_ok hc, hS]
    simp only [bind, Except.bind] at hgrid ⊢
    rw [hgrid]
    rfl
  refine ⟨sc.trendHistory none ((sc.getPowerNoise flow snrDb).1.zipIdx.map fun p =>
        (List.range realisations).map fun j => g p j), by unfold SC.denoisingL1; rw [hd]; rfl, ?_, ?_⟩
  · have := shape_of (sc.getPowerNoise flow snrDb).1 realisations g
      (h := sc.trendHistory none ((sc.getPowerNoise flow snrDb).1.zipIdx.map fun p =>
        (List.range realisations).map fun j => g p j)) rfl
    rwa [show (sc.getPowerNoise flow snrDb).1.length = snrDb.length by simp [SC.getPowerNoise]] at this
  · intro i j db x hi hj
    have hp := power_at sc flow snrDb hE i db hi
    rw [stored_of (sc.getPowerNoise flow snrDb).1 realisations g (h := _) rfl i j _ hp hj x]
    simp only [g, noisyFlow_eq]

/-- C68: for a valid component, an order `>= 0` and a weight `>= 0` the call returns, and every stored
realisation is at least as good as every other flow for the objective
`|noisy - x|_2 + mu |S x|_1`, where `S` is the shift operator. -/
theorem C68_minimiser (cvx : CvxSolver) (sc : SC ℝ) (hE : 0 < sc.E) (st : TrendHistory sc.E)
    (flow : Fin sc.E → ℝ) (component : String) (hc : component = "divergence" ∨ component = "curl")
    (realisations : ℕ) (snrDb : List ℝ) (order : ℕ) (mu : ℝ) (hmu : 0 ≤ mu)
    (noise : ℕ → ℕ → Fin sc.E → ℝ) :
    ∃ st' m S, sc.denoisingL1 cvx st flow component realisations snrDb order mu noise = (.ok (), st') ∧
      sc.getShiftOperator component order = .ok ⟨m, S⟩ ∧
      StoredShape st' snrDb.length realisations ∧
      ∀ (i j : ℕ) (db : ℝ) (x : Fin sc.E → ℝ), snrDb[i]? = some db → j < realisations → Stored st' i j x →
        ∀ z : Fin sc.E → ℝ,
          norm2 (noisy flow db (noise i j) - x) + mu * norm1 (S.mulVec x) ≤
          norm2 (noisy flow db (noise i j) - z) + mu * norm1 (S.mulVec z) := by
  obtain ⟨m, S, hS, -⟩ := shift_ok sc component order
  obtain ⟨st', h1, h2, h3⟩ := denoisingL1_run cvx sc hE st flow component hc realisations snrDb order mu hmu noise hS
  refine ⟨st', m, S, h1, hS, h2, fun i j db x hi hj hx z => ?_⟩
  rw [(h3 i j db x hi hj).1 hx]
  exact cvx.minimal m sc.E (noisy flow db (noise i j)) S mu [] hmu z (by simp)

/-- C68: consequences: the penalty never exceeds that of the noisy flow, and a noisy flow without
divergence (curl) is returned unchanged. -/
theorem C68_consequences (cvx : CvxSolver) (sc : SC ℝ) (hE : 0 < sc.E) (st : TrendHistory sc.E)
    (flow : Fin sc.E → ℝ) (component : String) (hc : component = "divergence" ∨ component = "curl")
    (realisations : ℕ) (snrDb : List ℝ) (order : ℕ) (mu : ℝ) (hmu : 0 ≤ mu)
    (noise : ℕ → ℕ → Fin sc.E → ℝ) :
    ∃ st' m S, sc.denoisingL1 cvx st flow component realisations snrDb order mu noise = (.ok (), st') ∧
      sc.getShiftOperator component order = .ok ⟨m, S⟩ ∧
      ∀ (i j : ℕ) (db : ℝ) (x : Fin sc.E → ℝ), snrDb[i]? = some db → j < realisations → Stored st' i j x →
        mu * norm1 (S.mulVec x) ≤ mu * norm1 (S.mulVec (noisy flow db (noise i j))) ∧
        (component = "divergence" → sc.getDivergence (noisy flow db (noise i j)) = 0 →
          x = noisy flow db (noise i j)) ∧
        (component = "curl" → sc.getCurl (noisy flow db (noise i j)) = 0 →
          x = noisy flow db (noise i j)) := by
  obtain ⟨st', m, S, h1, h2, -, h3⟩ := C68_minimiser cvx sc hE st flow component hc realisations snrDb
    order mu hmu noise
  obtain ⟨m', S', h2', hk⟩ := shift_ok sc component order
  rw [h2] at h2'
  cases h2'
  refine ⟨st', m, S, h1, h2, fun i j db x hi hj hx => ?_⟩
  set y := noisy flow db (noise i j) with hy
  have hz := h3 i j db x hi hj hx y
  rw [← hy, sub_self, show norm2 (0 : Fin sc.E → ℝ) = 0 from norm2_eq_zero.2 rfl] at hz
  have hn := norm2_nonneg (y - x)
  have fixed : S.mulVec y = 0 → x = y := by
    intro h0
    rw [h0, show norm1 (0 : Fin m → ℝ) = 0 by simp [norm1]] at hz
    have h4 := mul_nonneg hmu (norm1_nonneg (S.mulVec x))
    have h5 : norm2 (y - x) = 0 := by linarith
    exact (sub_eq_zero.1 (norm2_eq_zero.1 h5)).symm
  refine ⟨by linarith, fun hcd hd => ?_, fun hcd hd => ?_⟩
  · exact fixed ((hk y).2 (by rw [if_pos hcd]; exact hd))
  · exact fixed ((hk y).2 (by rw [if_neg (by rw [hcd]; decide)]; exact hd))

/-- C68: a negative weight is rejected by the solver, and the history stays as it was. -/
theorem C68_negative_weight (cvx : CvxSolver) (sc : SC ℝ) (st : TrendHistory sc.E)
    (flow : Fin sc.E → ℝ) (component : String) (hc : component = "divergence" ∨ component = "curl")
    (realisations : ℕ) (hr : 0 < realisations) (snrDb : List ℝ) (hs : snrDb ≠ []) (order : ℕ) (mu : ℝ)
    (hmu : mu < 0) (noise : ℕ → ℕ → Fin sc.E → ℝ) :
    sc.denoisingL1 cvx st flow component realisations snrDb order mu noise = (.error .dcpError, st) := by
  obtain ⟨m, S, hS, -⟩ := shift_ok sc component order
  have hgrid := mapM_grid_error (sc.getPowerNoise flow snrDb).1 realisations
    (fun p j => (cvxSolve cvx (sc.noisyFlow flow p.1 (noise p.2 j)) S mu [] >>= fun x =>
      sc.trendPass component flow x : Py _)) .dcpError (by simpa [SC.getPowerNoise] using hs) hr
      (fun p _ => by simp only [cvxSolve, if_pos hmu, bind, Except.bind])
  have hd : sc.l1Design cvx flow component realisations snrDb order mu noise = .error .dcpError := by
    unfold SC.l1Design
    rw [check_ok hc, hS]
    simp only [bind, Except.bind] at hgrid ⊢
    rw [hgrid]
  unfold SC.denoisingL1
  rw [hd]
  rfl

/-! ## C69: interpolation -/

/-- C69: for ratios in [0, 1] the call returns; every realisation agrees with the flow on as many distinct edges as the
floating point product `E r` rounded down says, which is the exact product rounded down or up, and is at least as good as every other flow that does so; the ratio 1
returns the flow itself. -/
theorem C69_interpolation (cvx : CvxSolver) (sc : SC ℝ) (sampler : Sampler sc.E) (st : TrendHistory sc.E)
    (flow : Fin sc.E → ℝ) (component : String) (hc : component = "divergence" ∨ component = "curl")
    (ratio : List ℝ) (hr : ∀ r ∈ ratio, 0 ≤ r ∧ r ≤ 1) (realisations order : ℕ) (mu : ℝ) (hmu : 0 ≤ mu)
    (hE : sc.E ≤ 2 ^ 53) :
    ∃ st' m S, sc.interpolationL1 cvx sampler st flow component ratio realisations order mu = (.ok (), st') ∧
      sc.getShiftOperator component order = .ok ⟨m, S⟩ ∧
      StoredShape st' ratio.length realisations ∧
      ∀ (i j : ℕ) (r : ℝ) (x : Fin sc.E → ℝ), ratio[i]? = some r → j < realisations → Stored st' i j x →
        (∃ obs : List (Fin sc.E), obs = sampler.pick i j obs.length ∧ obs.Nodup ∧ (obs.length : Int) = ⌊sampler.R.rnd (sc.E * r)⌋ ∧
          ⌊(sc.E : ℝ) * r⌋ ≤ obs.length ∧ obs.length ≤ ⌈(sc.E : ℝ) * r⌉ ∧
          (∀ k ∈ obs, x k = flow k) ∧
          ∀ z known : Fin sc.E → ℝ, (∀ k ∈ obs, z k = flow k) →
            (∀ k, known k = if k ∈ obs then flow k else 0) →
            norm2 (x - known) + mu * norm1 (S.mulVec x) ≤ norm2 (z - known) + mu * norm1 (S.mulVec z)) ∧
        (r = 1 → x = flow) := by
  obtain ⟨m, S, hS, -⟩ := shift_ok sc component order
  let obsOf : ℝ × ℕ → ℕ → List (Fin sc.E) := fun p j => sampler.pick p.2 j (⌊sampler.R.rnd ((sc.E : ℝ) * p.1)⌋).toNat
  let g : ℝ × ℕ → ℕ → TrendPass sc.E := fun p j =>
    let x := cvx.argmin m sc.E (sc.maskFlow flow (obsOf p j)) S mu (obsOf p j)
    ⟨x, calculateErrorNRMSE x flow, chosenNorm sc component x, calculateCorrelation flow x⟩
  have hE0 : (0 : ℝ) ≤ sc.E := Nat.cast_nonneg _
  have hE1 : (sc.E : ℝ) ≤ 2 ^ 53 := by exact_mod_cast hE
  have hfr : ∀ r : ℝ, 0 ≤ r → r ≤ 1 → ⌊(sc.E : ℝ) * r⌋ ≤ ⌊sampler.R.rnd (sc.E * r)⌋ ∧
      ⌊sampler.R.rnd (sc.E * r)⌋ ≤ ⌈(sc.E : ℝ) * r⌉ := fun r h0 h1 =>
    sampler.R.floor_rnd (mul_nonneg hE0 h0) (le_trans (by nlinarith) hE1)
  have hfl : ∀ r : ℝ, 0 ≤ r → r ≤ 1 → 0 ≤ ⌊sampler.R.rnd ((sc.E : ℝ) * r)⌋ ∧
      ⌊sampler.R.rnd ((sc.E : ℝ) * r)⌋ ≤ (sc.E : Int) := by
    intro r h0 h1
    obtain ⟨a, b⟩ := hfr r h0 h1
    refine ⟨(Int.floor_nonneg.2 (mul_nonneg hE0 h0)).trans a, b.trans (Int.ceil_le.2 ?_)⟩
    rw [Int.cast_natCast]
    nlinarith
  have hobs : ∀ p ∈ ratio.zipIdx, ∀ j, sc.sampleEdges sampler p.2 j p.1 = .ok (obsOf p j) := by
    intro p hp j
    have hm : p.1 ∈ ratio := by
      have := List.mem_zipIdx_iff_getElem?.1 hp
      exact List.mem_of_getElem? this
    obtain ⟨h0, h1⟩ := hfl p.1 (hr _ hm).1 (hr _ hm).2
    unfold SC.sampleEdges
    simp only
    rw [if_neg (by omega)]
  have hgrid := mapM_grid ratio realisations
    (fun p j => (sc.sampleEdges sampler p.2 j p.1 >>= fun obs =>
      cvxSolve cvx (sc.maskFlow flow obs) S mu obs >>= fun x =>
      sc.trendPass component flow x : Py _)) g (fun p hp j => by
        simp only [hobs p hp, cvxSolve, if_neg (not_lt.2 hmu), bind, Except.bind, trendPass_ok hc, g])
  have hd : sc.interpolationDesign cvx sampler flow component ratio realisations order mu =
      .ok (sc.trendHistory none (ratio.zipIdx.map fun p =>
        (List.range realisations).map fun j => g p j)) := by
    unfold SC.interpolationDesign
    rw [check_ok hc, hS]
    simp only [bind, Except.bind] at hgrid ⊢
    rw [hgrid]
    rfl
  refine ⟨_, m, S, by unfold SC.interpolationL1; rw [hd]; rfl, hS, shape_of ratio realisations g (h := _) rfl, ?_⟩
  intro i j r x hi hj hx
  rw [(stored_of ratio realisations g (h := _) rfl i j _ hi hj x).1 hx]
  have hrm := hr r (List.mem_of_getElem? hi)
  obtain ⟨h0, h1⟩ := hfl r hrm.1 hrm.2
  have hlen : ((obsOf (r, i) j).length : Int) = ⌊sampler.R.rnd ((sc.E : ℝ) * r)⌋ := by
    simp only [obsOf]
    rw [sampler.length i j _ (by omega)]
    omega
  have hpick : obsOf (r, i) j = sampler.pick i j (obsOf (r, i) j).length := by
    have : (obsOf (r, i) j).length = (⌊sampler.R.rnd ((sc.E : ℝ) * r)⌋).toNat := by omega
    rw [this]
  have hfeas : ∀ k ∈ obsOf (r, i) j, (g (r, i) j).x k = flow k := by
    intro k hk
    simp only [g]
    rw [cvx.feasible m sc.E _ S mu (obsOf (r, i) j) hmu k hk]
    simp [SC.maskFlow, hk]
  obtain ⟨b0, b1⟩ := hfr r hrm.1 hrm.2
  refine ⟨⟨obsOf (r, i) j, hpick, sampler.nodup _ _ _, hlen, by rw [hlen]; exact b0, by rw [hlen]; exact b1, hfeas, fun z known hz hkn => ?_⟩, fun hr1 => ?_⟩
  · have hkn' : known = sc.maskFlow flow (obsOf (r, i) j) := funext fun k => by rw [hkn]; rfl
    have := cvx.minimal m sc.E (sc.maskFlow flow (obsOf (r, i) j)) S mu (obsOf (r, i) j) hmu z (fun k hk => by
      rw [hz k hk]; simp [SC.maskFlow, hk])
    simp only [stfObjective] at this
    have hsym : ∀ a b : Fin sc.E → ℝ, norm2 (a - b) = norm2 (b - a) := by
      intro a b
      rw [← neg_sub b a, ← neg_one_smul ℝ (b - a), norm2_smul]
      simp
    rw [hkn', hsym _ (sc.maskFlow _ _), hsym z]
    exact this
  · funext k
    apply hfeas
    subst hr1
    have hle : (obsOf (1, i) j).length = sc.E := by
      have hint := sampler.R.int (sc.E : ℤ) (by rw [abs_of_nonneg (by omega)]; exact_mod_cast hE)
      rw [Int.cast_natCast] at hint
      rw [mul_one, hint, Int.floor_natCast] at hlen
      exact_mod_cast hlen
    have hcard : (obsOf (1, i) j).toFinset.card = sc.E := by
      rw [List.toFinset_card_of_nodup (sampler.nodup _ _ _)]
      exact hle
    have huniv : (obsOf (1, i) j).toFinset = Finset.univ :=
      (Finset.card_eq_iff_eq_univ _).1 (by simpa using hcard)
    have : k ∈ (obsOf (1, i) j).toFinset := by rw [huniv]; simp
    simpa using this

/-- C69: a ratio that asks for more edges than there are, or for a negative number, is a `ValueError`;
the history stays as it was. -/
theorem C69_bad_ratio (cvx : CvxSolver) (sc : SC ℝ) (sampler : Sampler sc.E) (st : TrendHistory sc.E)
    (flow : Fin sc.E → ℝ) (component : String) (hc : component = "divergence" ∨ component = "curl")
    (r : ℝ) (rest : List ℝ) (hr : r < 0 ∧ 0 < sc.E ∨ (sc.E : ℝ) + 1 ≤ sc.E * r) (realisations order : ℕ)
    (hn : 0 < realisations) (mu : ℝ) (hE : sc.E < 2 ^ 53) :
    sc.interpolationL1 cvx sampler st flow component (r :: rest) realisations order mu =
      (.error .valueError, st) := by
  obtain ⟨m, S, hS, -⟩ := shift_ok sc component order
  have hbad : ⌊sampler.R.rnd ((sc.E : ℝ) * r)⌋ < 0 ∨ (sc.E : Int) < ⌊sampler.R.rnd ((sc.E : ℝ) * r)⌋ := by
    rcases hr with ⟨h, hE⟩ | h
    · left
      rw [Int.floor_lt]
      have : (0 : ℝ) < sc.E := by exact_mod_cast hE
      have h1 := mul_neg_of_pos_of_neg this h
      have h2 := (abs_le.1 (sampler.R.rel (sc.E * r))).2
      rw [abs_of_neg h1] at h2
      push_cast
      linarith
    · right
      rw [Int.lt_iff_add_one_le, Int.le_floor]
      exact sampler.R.le_rnd (by rw [abs_of_nonneg (by omega)]; omega) (by push_cast; exact h)
  have h0 : ∀ j, sc.sampleEdges sampler 0 j r = .error .valueError := by
    intro j
    unfold SC.sampleEdges
    simp only
    rw [if_pos hbad]
  obtain ⟨n, rfl⟩ : ∃ n, realisations = n + 1 := ⟨realisations - 1, by omega⟩
  have hd : sc.interpolationDesign cvx sampler flow component (r :: rest) (n + 1) order mu =
      .error .valueError := by
    unfold SC.interpolationDesign
    rw [check_ok hc, hS]
    simp only [bind, Except.bind]
    rw [List.zipIdx_cons, List.mapM_cons, List.range_succ_eq_map, List.mapM_cons]
    simp only [h0]
    rfl
  unfold SC.interpolationL1
  rw [hd]
  rfl

/-! ## C70: rejected components -/

/-- C70: all three methods raise `ValueError` for any other component, before any work: the history is
left as it was. -/
theorem C70_rejected (cvx : CvxSolver) (sc : SC ℝ) (sampler : Sampler sc.E) (st : TrendHistory sc.E)
    (flow : Fin sc.E → ℝ) (component : String) (hc : component ≠ "divergence" ∧ component ≠ "curl")
    (realisations : ℕ) (snrDb ratio : List ℝ) (order : Int) (mu : ℝ) (noise : ℕ → ℕ → Fin sc.E → ℝ) :
    sc.denoisingL2 st flow component realisations snrDb mu noise = (.error .valueError, st) ∧
    sc.denoisingL1 cvx st flow component realisations snrDb order mu noise = (.error .valueError, st) ∧
    sc.interpolationL1 cvx sampler st flow component ratio realisations order mu =
      (.error .valueError, st) := by
  have hch : SC.checkComponent component = .error .valueError := by
    unfold SC.checkComponent
    rw [if_pos (by simp [hc])]
  refine ⟨?_, ?_, ?_⟩
  · unfold SC.denoisingL2 SC.l2Design
    rw [hch]
    rfl
  · unfold SC.denoisingL1 SC.l1Design
    rw [hch]
    rfl
  · unfold SC.interpolationL1 SC.interpolationDesign
    rw [hch]
    rfl

/-- C70: a negative order is rejected too, without touching the history. -/
theorem C70_negative_order (cvx : CvxSolver) (sc : SC ℝ) (sampler : Sampler sc.E) (st : TrendHistory sc.E)
    (flow : Fin sc.E → ℝ) (component : String)
    (realisations : ℕ) (snrDb ratio : List ℝ) (order : Int) (ho : order < 0) (mu : ℝ)
    (noise : ℕ → ℕ → Fin sc.E → ℝ) :
    sc.denoisingL1 cvx st flow component realisations snrDb order mu noise = (.error .valueError, st) ∧
    sc.interpolationL1 cvx sampler st flow component ratio realisations order mu =
      (.error .valueError, st) := by
  by_cases hc : component = "divergence" ∨ component = "curl"
  · constructor
    · unfold SC.denoisingL1 SC.l1Design
      rw [check_ok hc, C66_negative_order sc component order ho]
      rfl
    · unfold SC.interpolationL1 SC.interpolationDesign
      rw [check_ok hc, C66_negative_order sc component order ho]
      rfl
  · push Not at hc
    exact (C70_rejected cvx sc sampler st flow component hc realisations snrDb ratio order mu noise).2

/-! ## C67: the l2 filter -/

/-- one pass of the l2 filter -/
private noncomputable def l2Pass (sc : SC ℝ) (flow : Fin sc.E → ℝ) (component : String) (mu : ℝ)
    (noise : ℕ → ℕ → Fin sc.E → ℝ) (p : Option ℝ × ℕ) (j : ℕ) : TrendPass sc.E :=
  let x := ((1 + mu • sc.L1l)⁻¹).mulVec (sc.noisyFlow flow p.1 (noise p.2 j))
  ⟨x, calculateErrorNRMSE x flow, chosenNorm sc component x, calculateCorrelation flow x⟩

private theorem l2_eq (sc : SC ℝ) (st : TrendHistory sc.E) (flow : Fin sc.E → ℝ) (component : String)
    (hc : component = "divergence" ∨ component = "curl") (realisations : ℕ) (hr : 0 < realisations)
    (snrDb : List ℝ) (hs : snrDb ≠ []) (mu : ℝ) (hmu : 0 ≤ mu) (noise : ℕ → ℕ → Fin sc.E → ℝ) :
    sc.denoisingL2 st flow component realisations snrDb mu noise =
      (.ok (), sc.trendHistory (some (1 + mu • sc.L1l)⁻¹)
        ((sc.getPowerNoise flow snrDb).1.zipIdx.map fun p =>
        (List.range realisations).map fun j => l2Pass sc flow component mu noise p j)) := by
  have hinv : npInv (1 + mu • sc.L1l) = .ok (1 + mu • sc.L1l)⁻¹ := by
    unfold npInv
    rw [if_neg (det_ne_zero_of_psd (symmPSD_L1l sc) hmu)]
  have hgrid := mapM_grid (sc.getPowerNoise flow snrDb).1 realisations
    (fun p j => (npInv (1 + mu • sc.L1l) >>= fun H =>
      sc.trendPass component flow (H.mulVec (sc.noisyFlow flow p.1 (noise p.2 j))) >>= fun x =>
        pure (H, x) : Py _)) (fun p j => ((1 + mu • sc.L1l)⁻¹, l2Pass sc flow component mu noise p j)) (fun p _ j => by
        simp only [hinv, bind, Except.bind, trendPass_ok hc, l2Pass]; rfl)
  have hlast : ((((sc.getPowerNoise flow snrDb).1.zipIdx.map fun p =>
      (List.range realisations).map fun j => ((1 + mu • sc.L1l)⁻¹, l2Pass sc flow component mu noise p j)).flatten).getLast?).map Prod.fst =
      some (1 + mu • sc.L1l)⁻¹ := by
    have hne : ((sc.getPowerNoise flow snrDb).1.zipIdx.map fun p =>
        (List.range realisations).map fun j => ((1 + mu • sc.L1l)⁻¹, l2Pass sc flow component mu noise p j)).flatten ≠ [] := by
      intro h
      rw [List.flatten_eq_nil_iff] at h
      obtain ⟨a, l, hal⟩ := List.exists_cons_of_ne_nil hs
      have : (sc.getPowerNoise flow snrDb).1.zipIdx ≠ [] := by
        simp [SC.getPowerNoise, hal]
      obtain ⟨p, q, hpq⟩ := List.exists_cons_of_ne_nil this
      have h1 := h ((List.range realisations).map fun j => ((1 + mu • sc.L1l)⁻¹, l2Pass sc flow component mu noise p j)) (by
        rw [hpq]; simp)
      simp at h1
      omega
    rw [List.getLast?_eq_some_getLast hne, Option.map_some, Option.some.injEq]
    have hm := List.getLast_mem hne
    rw [List.mem_flatten] at hm
    obtain ⟨row, hrow, hin⟩ := hm
    rw [List.mem_map] at hrow
    obtain ⟨p, -, rfl⟩ := hrow
    rw [List.mem_map] at hin
    obtain ⟨j, -, hj⟩ := hin
    rw [← hj]
  have hd : sc.l2Design flow component realisations snrDb mu noise =
      .ok (sc.trendHistory (some (1 + mu • sc.L1l)⁻¹)
        ((sc.getPowerNoise flow snrDb).1.zipIdx.map fun p =>
        (List.range realisations).map fun j => l2Pass sc flow component mu noise p j)) := by
    unfold SC.l2Design
    rw [check_ok hc]
    simp only [bind, Except.bind] at hgrid ⊢
    rw [hgrid]
    simp only
    revert hlast
    generalize hl : ((sc.getPowerNoise flow snrDb).1.zipIdx.map fun p =>
      (List.range realisations).map fun j => ((1 + mu • sc.L1l)⁻¹, l2Pass sc flow component mu noise p j)).flatten.getLast? = o
    intro hlast
    cases o with
    | none => cases hlast
    | some q =>
      simp only [Option.map_some, Option.some.injEq] at hlast
      simp only [hlast, List.map_map, Function.comp_def]
      rfl
  unfold SC.denoisingL2
  rw [hd]
  rfl

/-- C67, for the divergence: with `mu >= 0` and at least one realisation the call returns; the stored
filter is `(I + mu L1l)^-1`, every realisation is the filtered noisy flow, and its divergence is
never larger than that of the noisy flow.  What is missing: for `component = "curl"` nothing
regularises the curl (`C67_curl_untouched`). -/
theorem C67_divergence_partial (sc : SC ℝ) (hE : 0 < sc.E) (st : TrendHistory sc.E) (flow : Fin sc.E → ℝ)
    (component : String) (hc : component = "divergence" ∨ component = "curl") (realisations : ℕ)
    (hr : 0 < realisations) (snrDb : List ℝ) (hs : snrDb ≠ []) (mu : ℝ) (hmu : 0 ≤ mu)
    (noise : ℕ → ℕ → Fin sc.E → ℝ) :
    ∃ st' H, sc.denoisingL2 st flow component realisations snrDb mu noise = (.ok (), st') ∧
      st'.filter = some H ∧ (1 + mu • (sc.B1.transpose * sc.B1)) * H = 1 ∧
      StoredShape st' snrDb.length realisations ∧
      ∀ (i j : ℕ) (db : ℝ) (x : Fin sc.E → ℝ), snrDb[i]? = some db → j < realisations → Stored st' i j x →
        x + mu • sc.B1.transpose.mulVec (sc.getDivergence x) = noisy flow db (noise i j) ∧
        norm2 (sc.getDivergence x) ≤ norm2 (sc.getDivergence (noisy flow db (noise i j))) ∧
        norm2 x ≤ norm2 (noisy flow db (noise i j)) := by
  have hst := l2_eq sc st flow component hc realisations hr snrDb hs mu hmu noise
  have hden := isDenoiser_inv (symmPSD_L1l sc) hmu
  refine ⟨_, (1 + mu • sc.L1l)⁻¹, hst, rfl, hden.1, ?_, ?_⟩
  · have := shape_of (sc.getPowerNoise flow snrDb).1 realisations (l2Pass sc flow component mu noise)
      (h := sc.trendHistory (some (1 + mu • sc.L1l)⁻¹) ((sc.getPowerNoise flow snrDb).1.zipIdx.map fun p =>
        (List.range realisations).map fun j => l2Pass sc flow component mu noise p j)) rfl
    rwa [show (sc.getPowerNoise flow snrDb).1.length = snrDb.length by simp [SC.getPowerNoise]] at this
  · intro i j db x hi hj hx
    have hp := power_at sc flow snrDb hE i db hi
    rw [stored_of (sc.getPowerNoise flow snrDb).1 realisations (l2Pass sc flow component mu noise) rfl i j _ hp hj x] at hx
    simp only [l2Pass, noisyFlow_eq] at hx
    set y := noisy flow db (noise i j)
    have hxy : x + mu • sc.B1.transpose.mulVec (sc.B1.mulVec x) = y := by
      have : (1 + mu • sc.L1l).mulVec x = y := by rw [hx, mulVec_mulVec, hden.1, one_mulVec]
      rw [add_mulVec, one_mulVec, smul_mulVec] at this
      rw [mulVec_mulVec]
      exact this
    refine ⟨hxy, ?_, by rw [hx]; exact hden.2.2.1 y⟩
    have hden0 := isDenoiser_inv (symmPSD_L0 sc) hmu
    have hu : IsUnit (1 + mu • sc.L0).det := isUnit_iff_ne_zero.2 (det_ne_zero_of_psd (symmPSD_L0 sc) hmu)
    have hB : (1 + mu • sc.L0).mulVec (sc.B1.mulVec x) = sc.B1.mulVec y := by
      rw [← hxy, mulVec_add, mulVec_smul, add_mulVec, one_mulVec, smul_mulVec]
      congr 2
      rw [SC.L0, ← mulVec_mulVec]
    have hB' : sc.B1.mulVec x = ((1 + mu • sc.L0)⁻¹).mulVec (sc.B1.mulVec y) := by
      rw [← hB, mulVec_mulVec, nonsing_inv_mul _ hu, one_mulVec]
    change norm2 (sc.B1.mulVec x) ≤ norm2 (sc.B1.mulVec y)
    rw [hB']
    exact hden0.2.2.1 _

/-- C67 is false for the curl: on every consistently oriented complex the l2 filter leaves the curl of
the noisy flow exactly as it is, whichever component is asked for. -/
theorem C67_curl_untouched (sc : SC ℝ) (hw : sc.WellFormed) (hE : 0 < sc.E) (st : TrendHistory sc.E)
    (flow : Fin sc.E → ℝ) (component : String) (hc : component = "divergence" ∨ component = "curl")
    (realisations : ℕ) (hr : 0 < realisations) (snrDb : List ℝ) (hs : snrDb ≠ []) (mu : ℝ) (hmu : 0 ≤ mu)
    (noise : ℕ → ℕ → Fin sc.E → ℝ) :
    ∃ st', sc.denoisingL2 st flow component realisations snrDb mu noise = (.ok (), st') ∧
      ∀ (i j : ℕ) (db : ℝ) (x : Fin sc.E → ℝ), snrDb[i]? = some db → j < realisations → Stored st' i j x →
        sc.getCurl x = sc.getCurl (noisy flow db (noise i j)) := by
  obtain ⟨st', H, h1, -, -, -, h2⟩ := C67_divergence_partial sc hE st flow component hc realisations hr
    snrDb hs mu hmu noise
  refine ⟨st', h1, fun i j db x hi hj hx => ?_⟩
  obtain ⟨h3, -, -⟩ := h2 i j db x hi hj hx
  rw [← h3]
  change sc.B2.transpose.mulVec x = sc.B2.transpose.mulVec _
  rw [mulVec_add, mulVec_smul, mulVec_mulVec]
  have h0 : sc.B2.transpose * sc.B1.transpose = 0 := by
    rw [← transpose_mul, hw.b1_mul_b2, transpose_zero]
  rw [h0, zero_mulVec, smul_zero, add_zero]

/-- C67: the component has no influence on the stored flows, filter, errors and correlations. -/
theorem C67_component_ignored (sc : SC ℝ) (st : TrendHistory sc.E) (flow : Fin sc.E → ℝ)
    (realisations : ℕ) (hr : 0 < realisations) (snrDb : List ℝ) (hs : snrDb ≠ []) (mu : ℝ) (hmu : 0 ≤ mu)
    (noise : ℕ → ℕ → Fin sc.E → ℝ) :
    ∃ a b, sc.denoisingL2 st flow "divergence" realisations snrDb mu noise = (.ok (), a) ∧
      sc.denoisingL2 st flow "curl" realisations snrDb mu noise = (.ok (), b) ∧
      a.filter = b.filter ∧ a.frequencyResponses = b.frequencyResponses ∧ a.errors = b.errors ∧
      a.correlations = b.correlations := by
  refine ⟨_, _, l2_eq sc st flow "divergence" (.inl rfl) realisations hr snrDb hs mu hmu noise,
    l2_eq sc st flow "curl" (.inr rfl) realisations hr snrDb hs mu hmu noise, rfl, ?_, ?_, ?_⟩ <;>
  simp only [SC.trendHistory, List.map_map, Function.comp_def, l2Pass]

/-- C67, failures: without realisations (or dB values) the call raises `UnboundLocalError`, and the
history stays as it was. -/
theorem C67_no_realisations (sc : SC ℝ) (st : TrendHistory sc.E) (flow : Fin sc.E → ℝ) (component : String)
    (hc : component = "divergence" ∨ component = "curl") (realisations : ℕ) (snrDb : List ℝ)
    (h : realisations = 0 ∨ snrDb = []) (mu : ℝ) (noise : ℕ → ℕ → Fin sc.E → ℝ) :
    sc.denoisingL2 st flow component realisations snrDb mu noise = (.error .unboundLocalError, st) := by
  have hgrid : ∀ f : Option ℝ × ℕ → ℕ → Py (Matrix (Fin sc.E) (Fin sc.E) ℝ × TrendPass sc.E),
      ∃ r, ((sc.getPowerNoise flow snrDb).1.zipIdx.mapM fun p => (List.range realisations).mapM fun j => f p j) =
        .ok r ∧ r.flatten = [] := by
    intro f
    rcases h with rfl | rfl
    · refine ⟨(sc.getPowerNoise flow snrDb).1.zipIdx.map fun _ => [], ?_, ?_⟩
      · exact mapM_ok _ _ _ fun p _ => rfl
      · simp
    · exact ⟨[], rfl, rfl⟩
  have hd : sc.l2Design flow component realisations snrDb mu noise = .error .unboundLocalError := by
    unfold SC.l2Design
    rw [check_ok hc]
    simp only [bind, Except.bind]
    obtain ⟨r, h1, h2⟩ := hgrid (fun p j => (npInv (1 + mu • sc.L1l) >>= fun H =>
      sc.trendPass component flow (H.mulVec (sc.noisyFlow flow p.1 (noise p.2 j))) >>= fun x =>
        pure (H, x) : Py _))
    simp only [bind, Except.bind] at h1
    rw [h1]
    simp only [h2, List.getLast?_nil]
  unfold SC.denoisingL2
  rw [hd]
  rfl

/-! ## C91: correlations -/

/-- C91: a correlation lies between -1 and 1. -/
theorem C91_bounded {n : ℕ} (a b : Fin n → ℝ) (c : ℝ) (h : calculateCorrelation a b = some c) :
    -1 ≤ c ∧ c ≤ 1 := by
  unfold calculateCorrelation at h
  simp only [fdiv] at h
  split_ifs at h with h0
  cases h
  set a' : Fin n → ℝ := fun i => a i - meanVec a
  set b' : Fin n → ℝ := fun i => b i - meanVec b
  have hpos : 0 < norm2 a' * norm2 b' :=
    lt_of_le_of_ne (mul_nonneg (norm2_nonneg _) (norm2_nonneg _)) (Ne.symm h0)
  constructor
  · rw [le_div_iff₀ hpos]
    have := dot_le_norm2 (-a') b'
    rw [neg_dotProduct, show norm2 (-a') = norm2 a' by
      rw [← neg_one_smul ℝ a', norm2_smul]; simp] at this
    linarith
  · rw [div_le_one hpos]
    exact dot_le_norm2 a' b'

/-- C91: it is a number exactly if neither flow is constant. -/
theorem C91_defined {n : ℕ} (a b : Fin n → ℝ) :
    (∃ c, calculateCorrelation a b = some c) ↔ (∃ i j, a i ≠ a j) ∧ ∃ i j, b i ≠ b j := by
  have hconst : ∀ v : Fin n → ℝ, norm2 (fun i => v i - meanVec v) = 0 ↔ ∀ i j, v i = v j := by
    intro v
    rw [norm2_eq_zero]
    constructor
    · intro h i j
      have h1 := congrFun h i
      have h2 := congrFun h j
      simp only [Pi.zero_apply] at h1 h2
      linarith
    · intro h
      funext i
      have hn : (n : ℝ) ≠ 0 := by
        have := i.2
        exact_mod_cast (by omega : n ≠ 0)
      have : ∑ j, v j = n * v i := by
        rw [Finset.sum_congr rfl fun j _ => h j i]
        simp
      simp only [meanVec, this, Pi.zero_apply]
      field_simp
      ring
  unfold calculateCorrelation
  simp only [fdiv]
  constructor
  · rintro ⟨c, h⟩
    split_ifs at h with h0
    rw [mul_eq_zero, not_or, hconst, hconst] at h0
    push Not at h0
    exact h0
  · rintro ⟨⟨i, j, h1⟩, ⟨k, l, h2⟩⟩
    rw [if_neg]
    · exact ⟨_, rfl⟩
    · rw [mul_eq_zero, not_or, hconst, hconst]
      exact ⟨fun h => h1 (h i j), fun h => h2 (h k l)⟩

/-- C91: it is symmetric, and 1 between a non-constant flow and itself, also after scaling by a positive
factor and shifting. -/
theorem C91_affine {n : ℕ} (a b : Fin n → ℝ) :
    calculateCorrelation a b = calculateCorrelation b a ∧
    ∀ (s t : ℝ), 0 < s → (∃ i j, a i ≠ a j) →
      calculateCorrelation a (fun i => s * a i + t) = some 1 := by
  constructor
  · unfold calculateCorrelation
    simp only [dotProduct_comm (fun i => a i - meanVec a), mul_comm (norm2 fun i => a i - meanVec a)]
  · intro s t hs ha
    have hn : (n : ℝ) ≠ 0 := by
      obtain ⟨i, -, -⟩ := ha
      have := i.2
      exact_mod_cast (by omega : n ≠ 0)
    have hm : meanVec (fun i => s * a i + t) = s * meanVec a + t := by
      simp only [meanVec, Finset.sum_add_distrib, ← Finset.mul_sum]
      simp
      field_simp
    have hb : (fun i => (s * a i + t) - meanVec (fun i => s * a i + t)) =
        s • fun i => a i - meanVec a := by
      funext i
      rw [hm]
      simp only [Pi.smul_apply, smul_eq_mul]
      ring
    have h0 : norm2 (fun i => a i - meanVec a) ≠ 0 := by
      intro h
      rw [norm2_eq_zero] at h
      obtain ⟨i, j, hij⟩ := ha
      have h1 := congrFun h i
      have h2 := congrFun h j
      simp only [Pi.zero_apply] at h1 h2
      exact hij (by linarith)
    unfold calculateCorrelation
    simp only
    rw [hb, norm2_smul, abs_of_pos hs, dotProduct_smul, smul_eq_mul, ← norm2_sq]
    set q := norm2 fun i => a i - meanVec a
    unfold fdiv
    rw [if_neg (mul_ne_zero h0 (mul_ne_zero hs.ne' h0))]
    congr 1
    field_simp

/-- the unit flow on the first edge of the sample has curl 1 -/
private theorem twoTri_unit_curl : twoTri.getCurl (fun i => if i.val = 0 then 1 else 0) = fun _ => 1 := by
  funext t
  have : twoTri.getCurl (fun i => if i.val = 0 then 1 else 0) t =
    ∑ i : Fin 6, ((twoTriB2.map (Int.cast : ℤ → ℝ)) i t) * (if i.val = 0 then 1 else 0) := rfl
  rw [this]
  change Fin 1 at t
  fin_cases t
  simp [twoTriB2]

/-- C67 is false for the curl: on this complex the flow has non-zero curl, and whatever the weight is,
asking for `component = "curl"` returns flows with the curl of the noisy flow; regularising the curl
with weight `mu > 0` would make it smaller. -/
theorem C67_counterexample (noise : ℕ → ℕ → Fin twoTri.E → ℝ) (hnoise : ∀ i j k, noise i j k = 0)
    (st : TrendHistory twoTri.E) (mu : ℝ) (hmu : 0 ≤ mu) (db : ℝ) :
    ∃ (flow : Fin twoTri.E → ℝ) (st' : TrendHistory twoTri.E) (x : Fin twoTri.E → ℝ),
      twoTri.denoisingL2 st flow "curl" 1 [db] mu noise = (.ok (), st') ∧ Stored st' 0 0 x ∧
      noisy flow db (noise 0 0) = flow ∧ twoTri.getCurl x = twoTri.getCurl flow ∧ twoTri.getCurl flow ≠ 0 := by
  obtain ⟨st', h1, h2⟩ := C67_curl_untouched twoTri twoTri_wellFormed (by decide) st
    (fun i => if i.val = 0 then 1 else 0) "curl" (.inr rfl) 1 (by decide) [db] (by simp) mu hmu noise
  obtain ⟨st'', H, h1', -, -, ⟨rows, hr1, hr2, hr3⟩, -⟩ := C67_divergence_partial twoTri (by decide) st
    (fun i => if i.val = 0 then 1 else 0) "curl" (.inr rfl) 1 (by decide) [db] (by simp) mu hmu noise
  rw [h1] at h1'
  cases h1'
  have hn : noisy (fun i : Fin twoTri.E => if i.val = 0 then (1 : ℝ) else 0) db (noise 0 0) =
      fun i => if i.val = 0 then 1 else 0 := by
    funext k
    simp [noisy, hnoise]
  have hrow : 0 < rows.length := by rw [hr2]; simp
  have hl : 0 < (rows[0]).length := by rw [hr3 _ (List.getElem_mem hrow)]; simp
  have hst : Stored st' 0 0 (rows[0])[0] :=
    ⟨rows, rows[0], hr1, List.getElem?_eq_getElem hrow, List.getElem?_eq_getElem hl⟩
  refine ⟨fun i => if i.val = 0 then 1 else 0, st', _, h1, hst, hn, ?_, ?_⟩
  · have := h2 0 0 db _ rfl (by decide) hst
    rw [this, hn]
  · rw [twoTri_unit_curl]
    intro h
    have h0 : Fin twoTri.T := ⟨0, by decide⟩
    have := congrFun h h0
    simp at this

/-- C67, failures: a negative weight that makes `I + mu L1l` singular raises `LinAlgError`, and the history
stays as it was. -/
theorem C67_singular (sc : SC ℝ) (st : TrendHistory sc.E) (flow : Fin sc.E → ℝ) (component : String)
    (hc : component = "divergence" ∨ component = "curl") (realisations : ℕ) (hr : 0 < realisations)
    (snrDb : List ℝ) (hs : snrDb ≠ []) (mu lam : ℝ) (hlam : IsEigenvalue sc.L1l lam) (hmu : 1 + mu * lam = 0)
    (noise : ℕ → ℕ → Fin sc.E → ℝ) :
    sc.denoisingL2 st flow component realisations snrDb mu noise = (.error .linAlgError, st) := by
  obtain ⟨v, hv, hev⟩ := hlam
  have hdet : (1 + mu • sc.L1l).det = 0 := by
    apply Matrix.exists_mulVec_eq_zero_iff.mp
    refine ⟨v, hv, ?_⟩
    rw [add_mulVec, one_mulVec, smul_mulVec, hev, smul_smul, ← one_smul ℝ v, smul_smul, mul_one, ← add_smul,
      hmu, zero_smul]
  have hinv : npInv (1 + mu • sc.L1l) = .error .linAlgError := by
    unfold npInv
    rw [if_pos hdet]
  have hgrid := mapM_grid_error (sc.getPowerNoise flow snrDb).1 realisations
    (fun p j => (npInv (1 + mu • sc.L1l) >>= fun H =>
      sc.trendPass component flow (H.mulVec (sc.noisyFlow flow p.1 (noise p.2 j))) >>= fun x =>
        pure (H, x) : Py _)) .linAlgError (by simpa [SC.getPowerNoise] using hs) hr
      (fun p _ => by simp only [hinv, bind, Except.bind])
  have hd : sc.l2Design flow component realisations snrDb mu noise = .error .linAlgError := by
    unfold SC.l2Design
    rw [check_ok hc]
    simp only [bind, Except.bind] at hgrid ⊢
    rw [hgrid]
  unfold SC.denoisingL2
  rw [hd]
  rfl

example (noise : ℕ → ℕ → Fin twoTri.E → ℝ) (st : TrendHistory twoTri.E) (f : Fin twoTri.E → ℝ) :
    twoTri.denoisingL2 st f "curl" 3 [-5, 0, 5] (-(1 / 3)) noise = (.error .linAlgError, st) :=
  C67_singular twoTri st f "curl" (.inr rfl) 3 (by decide) _ (by simp) _ 3 twoTri_lower_three (by norm_num) noise

/-- the hypotheses of the l1 theorems are met: a solver and a sampler exist, and the sample complex has
edges -/
example (noise : ℕ → ℕ → Fin twoTri.E → ℝ) (st : TrendHistory twoTri.E) (f : Fin twoTri.E → ℝ) :
    ∃ (cvx : CvxSolver) (_ : Sampler twoTri.E) (st' : TrendHistory twoTri.E),
      twoTri.denoisingL1 cvx st f "curl" 4 [-10, 0, 10] (2 : ℕ) (1 / 2) noise = (.ok (), st') ∧
      StoredShape st' 3 4 := by
  obtain ⟨cvx⟩ := exists_cvxSolver
  obtain ⟨s⟩ := exists_sampler twoTri.E
  obtain ⟨st', m, S, h1, -, h2, -⟩ := C68_minimiser cvx twoTri (by decide) st f "curl" (.inr rfl) 4
    [-10, 0, 10] 2 (1 / 2) (by norm_num) noise
  exact ⟨cvx, s, st', h1, h2⟩

example (st : TrendHistory twoTri.E) (f : Fin twoTri.E → ℝ) (cvx : CvxSolver) (s : Sampler twoTri.E) :
    ∃ st', twoTri.interpolationL1 cvx s st f "divergence" [0, 1 / 2, 1] 4 (1 : ℕ) (1 / 2) = (.ok (), st') ∧
      StoredShape st' 3 4 := by
  obtain ⟨st', m, S, h1, -, h2, -⟩ := C69_interpolation cvx twoTri s st f "divergence" (.inl rfl) [0, 1 / 2, 1]
    (by intro r hr; fin_cases hr <;> norm_num) 4 1 (1 / 2) (by norm_num) (show 6 ≤ 2 ^ 53 by norm_num)
  exact ⟨st', h1, h2⟩

example : ∃ c, calculateCorrelation (![1, 2, 4] : Fin 3 → ℝ) ![5, 0, 1] = some c :=
  (C91_defined _ _).2 ⟨⟨0, 1, by simp⟩, ⟨0, 1, by simp⟩⟩

end Pytspl
