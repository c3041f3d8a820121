import Verif.Model.ArrayApi
import Verif.Lemmas.Incidence
import Verif.Spec.Samples
import Verif.Props.EdgeFlow
import Mathlib.Tactic.Linarith

/-!
# C114, C115: flows of any shape
-/

namespace Pytspl

open Matrix

/-- How a call that takes a flow treats arrays of any shape: a vector with one entry per edge is the
ordinary case, a matrix with one row per edge is treated column by column, anything else raises `err`. -/
structure ActsOnFlows (E m : ℕ) (call : Nd → Py Nd) (op : (Fin E → ℝ) → Fin m → ℝ) (err : PyErr) : Prop where
  vec : ∀ v : Fin E → ℝ, call (.vec E v) = .ok (.vec m (op v))
  mat : ∀ (p : ℕ) (M : Matrix (Fin E) (Fin p) ℝ),
    call (.mat E p M) = .ok (.mat m p (Matrix.of fun i c => op (fun j => M j c) i))
  wrongVec : ∀ (n : ℕ) (v : Fin n → ℝ), n ≠ E → call (.vec n v) = .error err
  wrongMat : ∀ (k p : ℕ) (M : Matrix (Fin k) (Fin p) ℝ), k ≠ E → call (.mat k p M) = .error err
  scalar : ∀ x : ℝ, call (.scalar x) = .error err

private theorem acts_matmul {E m : ℕ} (A : Matrix (Fin m) (Fin E) ℝ) :
    ActsOnFlows E m (Nd.matmul A) A.mulVec .valueError where
  vec v := by simp [Nd.matmul]
  mat p M := by
    simp only [Nd.matmul, dif_pos]
    rfl
  wrongVec n v h := by simp [Nd.matmul, h]
  wrongMat k p M h := by simp [Nd.matmul, h]
  scalar x := rfl

private theorem acts_comp {E m k : ℕ} {c1 c2 : Nd → Py Nd} {o1 : (Fin E → ℝ) → Fin m → ℝ}
    {o2 : (Fin m → ℝ) → Fin k → ℝ} {e1 e2 : PyErr} (h1 : ActsOnFlows E m c1 o1 e1) (h2 : ActsOnFlows m k c2 o2 e2) :
    ActsOnFlows E k (fun x => c1 x >>= c2) (fun v => o2 (o1 v)) e1 where
  vec v := by simp only [h1.vec, bind, Except.bind, h2.vec]
  mat p M := by
    simp only [h1.mat, bind, Except.bind, h2.mat]
    rfl
  wrongVec n v h := by simp only [h1.wrongVec n v h, bind, Except.bind]
  wrongMat k p M h := by simp only [h1.wrongMat k p M h, bind, Except.bind]
  scalar x := by simp only [h1.scalar, bind, Except.bind]

private theorem axisPos_fin {n : ℕ} (j : Fin n) : Nd.axisPos n j = j := by
  unfold Nd.axisPos
  have := j.2
  split_ifs <;> omega

private theorem entry_vec {n : ℕ} (v : Fin n → ℝ) (i : ℕ) (j : Fin n) : (Nd.vec n v).entry i j = v j := by
  have h := axisPos_fin j
  unfold Nd.entry
  simp only
  rw [dif_pos (by rw [h]; exact j.2)]
  congr 1
  exact Fin.ext h

private theorem entry_mat {m p : ℕ} (M : Matrix (Fin m) (Fin p) ℝ) (i : Fin m) (j : Fin p) :
    (Nd.mat m p M).entry i j = M i j := by
  have hi := axisPos_fin i
  have hj := axisPos_fin j
  unfold Nd.entry
  simp only
  rw [dif_pos (by rw [hi, hj]; exact ⟨i.2, j.2⟩)]
  congr 1
  · exact Fin.ext hi
  · exact Fin.ext hj

private theorem bdim_self (a : ℕ) : Nd.bdim a a = some a := by simp [Nd.bdim]

private theorem bdim_one_left (a : ℕ) : Nd.bdim 1 a = some a := by
  by_cases h : 1 = a
  · rw [← h]; exact bdim_self 1
  · simp [Nd.bdim, h]

private theorem bdim_one_right (a : ℕ) : Nd.bdim a 1 = some a := by
  by_cases h : a = 1
  · rw [h]; exact bdim_self 1
  · simp [Nd.bdim, h]

private theorem binop_vec (op : ℝ → ℝ → ℝ) {n : ℕ} (v w : Fin n → ℝ) :
    Nd.binop op (.vec n v) (.vec n w) = .ok (.vec n fun j => op (v j) (w j)) := by
  unfold Nd.binop
  simp only [Nd.rows, Nd.cols, bdim_self, Nd.ndim, max_self, entry_vec]

private theorem binop_mat (op : ℝ → ℝ → ℝ) {m p : ℕ} (M L : Matrix (Fin m) (Fin p) ℝ) :
    Nd.binop op (.mat m p M) (.mat m p L) = .ok (.mat m p (Matrix.of fun i j => op (M i j) (L i j))) := by
  unfold Nd.binop
  simp only [Nd.rows, Nd.cols, bdim_self, Nd.ndim, max_self, entry_mat]

private theorem acts_binop {E m : ℕ} {c1 c2 : Nd → Py Nd} {o1 o2 : (Fin E → ℝ) → Fin m → ℝ}
    {err : PyErr} (h1 : ActsOnFlows E m c1 o1 err) (h2 : ActsOnFlows E m c2 o2 err) (op : ℝ → ℝ → ℝ) :
    ActsOnFlows E m (fun x => c1 x >>= fun a => c2 x >>= fun b => Nd.binop op a b)
      (fun v i => op (o1 v i) (o2 v i)) err where
  vec v := by simp only [h1.vec, h2.vec, bind, Except.bind, binop_vec]
  mat p M := by
    simp only [h1.mat, h2.mat, bind, Except.bind, binop_mat]
    rfl
  wrongVec n v h := by simp only [h1.wrongVec n v h, bind, Except.bind]
  wrongMat k p M h := by simp only [h1.wrongMat k p M h, bind, Except.bind]
  scalar x := by simp only [h1.scalar, bind, Except.bind]

private theorem acts_lstsq (lib : NumLib) {m n : ℕ} (A : Matrix (Fin m) (Fin n) ℝ) :
    ActsOnFlows m n (Nd.lstsqA lib A) (lib.lstsq m n A) .linAlgError where
  vec v := by simp [Nd.lstsqA]
  mat p M := by
    simp only [Nd.lstsqA, dif_pos]
    rfl
  wrongVec n v h := by simp [Nd.lstsqA, h]
  wrongMat k p M h := by simp [Nd.lstsqA, h]
  scalar x := rfl

private theorem acts_map {E m : ℕ} {c : Nd → Py Nd} {o : (Fin E → ℝ) → Fin m → ℝ} {err : PyErr}
    (h : ActsOnFlows E m c o err) (r : Bool) (g : ℝ → ℝ) :
    ActsOnFlows E m (fun x => c x >>= fun y => pure (if r = true then y.mapEntries g else y))
      (fun v => if r = true then fun i => g (o v i) else o v) err where
  vec v := by
    simp only [h.vec, bind, Except.bind, pure, Except.pure]
    cases r <;> rfl
  mat p M := by
    simp only [h.mat, bind, Except.bind, pure, Except.pure]
    cases r <;> rfl
  wrongVec n v hn := by simp only [h.wrongVec n v hn, bind, Except.bind]
  wrongMat k p M hk := by simp only [h.wrongMat k p M hk, bind, Except.bind]
  scalar x := by simp only [h.scalar, bind, Except.bind]

private theorem acts_congr {E m : ℕ} {c c' : Nd → Py Nd} {o o' : (Fin E → ℝ) → Fin m → ℝ} {err : PyErr}
    (h : ActsOnFlows E m c o err) (hc : c' = c) (ho : o' = o) : ActsOnFlows E m c' o' err := by
  subst hc ho
  exact h

/-- C114: `get_divergence`, `get_curl` and the shifting operators accept exactly the arrays with one row
per edge; several flows at once, as columns, give the results of the single flows; every other shape
raises `ValueError`. -/
theorem C114_operators (sc : SC ℝ) (steps : Int) :
    ActsOnFlows sc.edges.length sc.nodes.length sc.divergenceA sc.getDivergence .valueError ∧
    ActsOnFlows sc.edges.length sc.triangles.length sc.curlA sc.getCurl .valueError ∧
    ActsOnFlows sc.edges.length sc.edges.length (fun f => sc.lowerShiftA f steps)
      (fun f => sc.applyLowerShifting f steps) .valueError ∧
    ActsOnFlows sc.edges.length sc.edges.length (fun f => sc.upperShiftA f steps)
      (fun f => sc.applyUpperShifting f steps) .valueError ∧
    ActsOnFlows sc.edges.length sc.edges.length (fun f => sc.kStepShiftA f steps)
      (fun f => sc.applyKStepShifting f steps) .valueError := by
  have hlow : ActsOnFlows sc.edges.length sc.edges.length (fun f => sc.lowerShiftA f steps)
      (fun f => sc.applyLowerShifting f steps) .valueError := by
    unfold SC.lowerShiftA SC.applyLowerShifting
    split_ifs
    · exact acts_matmul sc.L1l
    · exact acts_comp (acts_matmul sc.L1l) (acts_matmul sc.L1l)
  have hup : ActsOnFlows sc.edges.length sc.edges.length (fun f => sc.upperShiftA f steps)
      (fun f => sc.applyUpperShifting f steps) .valueError := by
    unfold SC.upperShiftA SC.applyUpperShifting
    split_ifs
    · exact acts_matmul sc.L1u
    · exact acts_comp (acts_matmul sc.L1u) (acts_matmul sc.L1u)
  exact ⟨acts_matmul sc.B1, acts_matmul sc.B2.transpose, hlow, hup, acts_binop hlow hup (· + ·)⟩

private theorem acts_gradient (lib : NumLib) {n e : ℕ} (B1 : Matrix (Fin n) (Fin e) ℝ) (r : Bool) (sig : ℤ) :
    ActsOnFlows e e (fun f => gradientFlowA lib B1 f r sig) (fun f => getGradientFlow lib B1 f r sig)
      .linAlgError := by
  refine acts_congr (acts_map (acts_comp (acts_lstsq lib B1.transpose) (acts_matmul B1.transpose)) r
    (fun x => npRound x sig)) ?_ ?_
  · funext f
    unfold gradientFlowA
    cases h : Nd.lstsqA lib B1.transpose f <;> rfl
  · funext f
    rfl

private theorem acts_curl (lib : NumLib) {e t : ℕ} (B2 : Matrix (Fin e) (Fin t) ℝ) (r : Bool) (sig : ℤ) :
    ActsOnFlows e e (fun f => curlFlowA lib B2 f r sig) (fun f => getCurlFlow lib B2 f r sig)
      .linAlgError := by
  refine acts_congr (acts_map (acts_comp (acts_lstsq lib B2) (acts_matmul B2)) r (fun x => npRound x sig)) ?_ ?_
  · funext f
    unfold curlFlowA
    cases h : Nd.lstsqA lib B2 f <;> rfl
  · funext f
    rfl

private theorem acts_harmonic (lib : NumLib) {n e t : ℕ} (B1 : Matrix (Fin n) (Fin e) ℝ)
    (B2 : Matrix (Fin e) (Fin t) ℝ) (r : Bool) (sig : ℤ) :
    ActsOnFlows e e (fun f => harmonicFlowA lib B1 B2 f r sig) (fun f => getHarmonicFlow lib B1 B2 f r sig)
      .linAlgError := by
  have hg := acts_gradient lib B1 false 2
  have hc := acts_curl lib B2 false 2
  constructor
  · intro v
    have h1 := hg.vec v
    have h2 := hc.vec v
    simp only [harmonicFlowA, h1, h2, bind, Except.bind, binop_vec, pure, Except.pure]
    cases r <;> rfl
  · intro p M
    have h1 := hg.mat p M
    have h2 := hc.mat p M
    simp only [harmonicFlowA, h1, h2, bind, Except.bind, binop_mat, pure, Except.pure]
    cases r <;> rfl
  · intro k v h
    have h1 := hg.wrongVec k v h
    simp only [harmonicFlowA, h1, bind, Except.bind]
  · intro k p M h
    have h1 := hg.wrongMat k p M h
    simp only [harmonicFlowA, h1, bind, Except.bind]
  · intro x
    have h1 := hg.scalar x
    simp only [harmonicFlowA, h1, bind, Except.bind]

/-- C114: `get_component_flow` with a known component accepts exactly the arrays with one row per edge
and works column by column; every other shape raises `LinAlgError`.  (`op` is the function of
single flows which the other theorems are about.) -/
theorem C114_components (lib : NumLib) (sc : SC ℝ) (component : String) (r : Bool) (sig : ℤ)
    (h : component ∈ ["harmonic", "curl", "gradient"]) :
    ∃ op : (Fin sc.edges.length → ℝ) → Fin sc.edges.length → ℝ,
      (∀ f, sc.getComponentFlow lib f component r sig = .ok (op f)) ∧
      ActsOnFlows sc.edges.length sc.edges.length (fun f => sc.componentFlowA lib f component r sig) op
        .linAlgError := by
  simp only [List.mem_cons, List.not_mem_nil, or_false] at h
  rcases h with rfl | rfl | rfl
  · exact ⟨_, fun f => rfl, acts_harmonic lib sc.B1 sc.B2 r sig⟩
  · exact ⟨_, fun f => rfl, acts_curl lib sc.B2 r sig⟩
  · exact ⟨_, fun f => rfl, acts_gradient lib sc.B1 r sig⟩

/-- C114: an unknown component raises `ValueError`, whatever the flow. -/
theorem C114_unknown_component (lib : NumLib) (sc : SC ℝ) (flow : Nd) (component : String) (r : Bool) (sig : ℤ)
    (h : component ∉ ["harmonic", "curl", "gradient"]) :
    sc.componentFlowA lib flow component r sig = .error .valueError := by
  simp only [List.mem_cons, List.not_mem_nil, or_false, not_or] at h
  unfold SC.componentFlowA
  rw [if_neg h.1, if_neg h.2.1, if_neg h.2.2]

/-- C114: the embeddings of several flows at once are those of the single flows, and a flow of the
wrong shape raises `ValueError`; whether the eigenvectors can be computed does not depend on the flow. -/
theorem C114_embeddings (lib : NumLib) (sc : SC ℝ) (hE : 0 < sc.edges.length) :
    ∃ (a b c : ℕ) (h : (Fin sc.edges.length → ℝ) → Fin a → ℝ) (k : (Fin sc.edges.length → ℝ) → Fin b → ℝ)
      (g : (Fin sc.edges.length → ℝ) → Fin c → ℝ),
      (∀ f, sc.getSimplicialEmbeddings lib f = .ok (⟨a, h f⟩, ⟨b, k f⟩, ⟨c, g f⟩)) ∧
      ActsOnFlows sc.edges.length a (fun f => (sc.embeddingsA lib f).map (·.1)) h .valueError ∧
      ActsOnFlows sc.edges.length b (fun f => (sc.embeddingsA lib f).map (·.2.1)) k .valueError ∧
      ActsOnFlows sc.edges.length c (fun f => (sc.embeddingsA lib f).map (·.2.2)) g .valueError := by
  have pairs : ∃ uh uc ug, getHarmonicEigenpair lib (.ndarray sc.L1) (1 / 1000) = .ok uh ∧
      getCurlEigenpair lib (.ndarray sc.L1u) (1 / 1000) = .ok uc ∧
      getGradientEigenpair lib (.ndarray sc.L1l) (1 / 1000) = .ok ug := by
    have hE' : sc.E ≠ 0 := Nat.pos_iff_ne_zero.1 hE
    unfold getHarmonicEigenpair getCurlEigenpair getGradientEigenpair getEigendecomposition
    simp only [if_neg hE', bind, Except.bind, pure, Except.pure]
    exact ⟨_, _, _, rfl, rfl, rfl⟩
  obtain ⟨uh, uc, ug, h1, h2, h3⟩ := pairs
  have ah := acts_matmul uh.vecs.transpose
  have ac := acts_matmul uc.vecs.transpose
  have ag := acts_matmul ug.vecs.transpose
  refine ⟨uh.num, uc.num, ug.num, uh.vecs.transpose.mulVec, uc.vecs.transpose.mulVec, ug.vecs.transpose.mulVec,
    ?_, ?_, ?_, ?_⟩
  · intro f
    simp only [SC.getSimplicialEmbeddings, h1, h2, h3, bind, Except.bind, pure, Except.pure]
  all_goals
    simp only [SC.embeddingsA, h1, h2, h3, bind, Except.bind]
    constructor
    · intro v
      simp only [ah.vec, ac.vec, ag.vec, pure, Except.pure, Except.map]
    · intro p M
      simp only [ah.mat, ac.mat, ag.mat, pure, Except.pure, Except.map]
    · intro n v h
      simp only [ah.wrongVec n v h, Except.map]
    · intro k p M h
      simp only [ah.wrongMat k p M h, Except.map]
    · intro x
      simp only [ah.scalar, Except.map]

/-! ## C115 -/

private theorem mapM_map {α β γ : Type} (g : α → Py β) (k : β → γ) (l : List α) :
    (l.mapM fun a => (g a).map k) = (l.mapM g).map (List.map k) := by
  induction l with
  | nil => rfl
  | cons a l ih =>
    simp only [List.mapM_cons, ih, bind, Except.bind, pure, Except.pure]
    cases g a with
    | error e => rfl
    | ok b =>
      simp only [Except.map]
      cases l.mapM g <;> rfl

/-- C115: with vectors of one entry per edge `denoise` computes what the theorems about denoising say. -/
theorem C115_ordinary (lib : NumLib) (sc : SC ℝ) (f fTrue : Fin sc.edges.length → ℝ) (pChoice : String)
    (muVals : List ℝ) :
    (∀ e, edgeFlowDesign lib sc f fTrue pChoice muVals = .error e →
      edgeFlowDenoiseA lib sc (.vec _ f) (.vec _ fTrue) pChoice muVals = .error e) ∧
    (∀ d, edgeFlowDesign lib sc f fTrue pChoice muVals = .ok d →
      ∃ est errs, d.fEstimated = .vec est ∧ d.extractedComponentError = .errs errs ∧
        edgeFlowDenoiseA lib sc (.vec _ f) (.vec _ fTrue) pChoice muVals = .ok (.vec _ est, errs)) := by
  have pass : ∀ (P U : Matrix (Fin sc.E) (Fin sc.E) ℝ) (mu : ℝ), muPassA P (.vec _ f) (.vec _ fTrue) mu =
      (muPass P U f fTrue mu).map fun p => (Nd.vec sc.E p.fEst, p.err) := by
    intro P U mu
    unfold muPassA muPass
    cases npInv (1 + mu • P) with
    | error e => rfl
    | ok H =>
      simp only [bind, Except.bind, (acts_matmul H).vec, nrmseA, binop_vec, pure, Except.pure, Except.map]
      rfl
  unfold edgeFlowDesign edgeFlowDenoiseA
  cases hP : sc.getPMatrix pChoice with
  | error e => exact ⟨fun _ h => by cases h; rfl, fun _ h => by cases h⟩
  | ok P =>
    simp only [bind, Except.bind]
    cases hU : getEigendecomposition lib (.ndarray P) with
    | error e =>
      simp only [reduceCtorEq, false_imp_iff, implies_true, and_true]
      exact fun _ h => by cases h; rfl
    | ok r =>
      obtain ⟨U, w⟩ := r
      simp only
      have hm : muVals.mapM (muPassA P (.vec _ f) (.vec _ fTrue)) =
          (muVals.mapM (muPass P U f fTrue)).map (List.map fun p => (Nd.vec sc.E p.fEst, p.err)) := by
        rw [← mapM_map]
        exact congrArg (fun g => muVals.mapM g) (funext fun mu => pass P U mu)
      rw [hm]
      cases hr : muVals.mapM (muPass P U f fTrue) with
      | error e =>
        simp only [Except.map, reduceCtorEq, false_imp_iff, implies_true, and_true]
        exact fun _ h => by cases h; rfl
      | ok ps =>
        simp only [Except.map, List.getLast?_map]
        cases hl : ps.getLast? with
        | none =>
          simp only [Option.map_none, reduceCtorEq, false_imp_iff, implies_true, and_true]
          exact fun _ h => by cases h; rfl
        | some p =>
          simp only [Option.map_some, pure, Except.pure, reduceCtorEq, false_imp_iff, implies_true, true_and]
          intro d hd
          cases hd
          refine ⟨_, _, rfl, rfl, ?_⟩
          simp only [List.map_map]
          rfl

/-- A one- or two-dimensional array can be combined with a vector of `E` entries. -/
def BroadcastsWith (E : ℕ) : Nd → Prop
  | .scalar _ => True
  | .vec n _ => n = E ∨ n = 1 ∨ E = 1
  | .mat _ p _ => p = E ∨ p = 1 ∨ E = 1

/-- the calls considered in the rest: a known matrix, a non-empty list of parameters, no singular system -/
structure DenoiseReady (sc : SC ℝ) (pChoice : String) (muVals : List ℝ) (P : Matrix (Fin sc.E) (Fin sc.E) ℝ) :
    Prop where
  edges : 0 < sc.E
  choice : sc.getPMatrix pChoice = .ok P
  nonempty : muVals ≠ []
  regular : ∀ mu ∈ muVals, (1 + mu • P).det ≠ 0

private theorem pass_vec {E : ℕ} (P : Matrix (Fin E) (Fin E) ℝ) (mu : ℝ) (hd : (1 + mu • P).det ≠ 0)
    (f : Fin E → ℝ) (t : Nd) :
    muPassA P (.vec _ f) t mu = (nrmseA (.vec E ((1 + mu • P)⁻¹.mulVec f)) t).map
      fun e => (.vec E ((1 + mu • P)⁻¹.mulVec f), e) := by
  unfold muPassA npInv
  rw [if_neg hd]
  simp only [bind, Except.bind, (acts_matmul _).vec]
  cases nrmseA (.vec E ((1 + mu • P)⁻¹.mulVec f)) t <;> rfl

private theorem denoise_of_passes {lib : NumLib} {sc : SC ℝ} {pChoice : String} {muVals : List ℝ}
    {P : Matrix (Fin sc.E) (Fin sc.E) ℝ} (hr : DenoiseReady sc pChoice muVals P) (f t : Nd)
    (g : ℝ → Nd × Option ℝ) (hg : ∀ mu ∈ muVals, muPassA P f t mu = .ok (g mu)) :
    edgeFlowDenoiseA lib sc f t pChoice muVals =
      .ok ((g (muVals.getLast hr.nonempty)).1, muVals.map fun mu => (g mu).2) := by
  have hm : ∀ l : List ℝ, (∀ mu ∈ l, muPassA P f t mu = .ok (g mu)) → l.mapM (muPassA P f t) = .ok (l.map g) := by
    intro l hl
    induction l with
    | nil => rfl
    | cons a l ih =>
      simp only [List.mapM_cons, hl a (by simp), ih fun mu h => hl mu (by simp [h]), bind, Except.bind, pure,
        Except.pure, List.map_cons]
  unfold edgeFlowDenoiseA
  simp only [hr.choice, bind, Except.bind, getEigendecomposition, if_neg (Nat.pos_iff_ne_zero.1 hr.edges),
    hm muVals hg, List.getLast?_map, List.getLast?_eq_some_getLast hr.nonempty, Option.map_some, pure, Except.pure,
    List.map_map]
  rfl

private theorem denoise_fails {lib : NumLib} {sc : SC ℝ} {pChoice : String} {muVals : List ℝ}
    {P : Matrix (Fin sc.E) (Fin sc.E) ℝ} (hr : DenoiseReady sc pChoice muVals P) (f t : Nd) {err : PyErr}
    (hg : ∀ mu ∈ muVals, muPassA P f t mu = .error err) :
    edgeFlowDenoiseA lib sc f t pChoice muVals = .error err := by
  have hne := hr.nonempty
  unfold edgeFlowDenoiseA
  obtain ⟨a, l, rfl⟩ := List.exists_cons_of_ne_nil hne
  simp only [hr.choice, bind, Except.bind, getEigendecomposition, if_neg (Nat.pos_iff_ne_zero.1 hr.edges),
    List.mapM_cons, hg a (by simp)]

private theorem nrmse_ok_iff {E : ℕ} (v : Fin E → ℝ) (t : Nd) :
    (BroadcastsWith E t → ∃ e, nrmseA (.vec E v) t = .ok e) ∧
    (¬ BroadcastsWith E t → nrmseA (.vec E v) t = .error .valueError) := by
  have hrow : ∀ m, ∃ r, Nd.bdim 1 m = some r := fun m => ⟨m, bdim_one_left m⟩
  have hcol : ∀ p, (p = E ∨ p = 1 ∨ E = 1 → ∃ c, Nd.bdim E p = some c) ∧
      (¬ (p = E ∨ p = 1 ∨ E = 1) → Nd.bdim E p = none) := by
    intro p
    unfold Nd.bdim
    constructor
    · intro h
      split_ifs
      · exact ⟨_, rfl⟩
      · exact ⟨_, rfl⟩
      · exact ⟨_, rfl⟩
      · omega
    · intro h
      push Not at h
      rw [if_neg (fun hh => h.1 hh.symm), if_neg h.2.2, if_neg h.2.1]
  have hcols : BroadcastsWith E t ↔ (t.cols = E ∨ t.cols = 1 ∨ E = 1) := by
    cases t <;> simp [BroadcastsWith, Nd.cols]
  rw [hcols]
  obtain ⟨r, hr⟩ := hrow t.rows
  unfold nrmseA Nd.binop
  constructor
  · intro h
    obtain ⟨c, hc⟩ := (hcol t.cols).1 h
    have e1 : Nd.bdim (Nd.vec E v).rows t.rows = some r := hr
    have e2 : Nd.bdim (Nd.vec E v).cols t.cols = some c := hc
    simp only [e1, e2, bind, Except.bind, pure, Except.pure]
    exact ⟨_, rfl⟩
  · intro h
    have e1 : Nd.bdim (Nd.vec E v).rows t.rows = some r := hr
    have e2 : Nd.bdim (Nd.vec E v).cols t.cols = none := (hcol t.cols).2 h
    simp only [e1, e2, bind, Except.bind]

/-- C115: exactly which reference flows `denoise` accepts for a flow with one entry per edge: those numpy
can broadcast, which includes numbers, arrays of one entry and matrices with one column.  All others
raise `ValueError`. -/
theorem C115_accepted (lib : NumLib) (sc : SC ℝ) (pChoice : String) (muVals : List ℝ)
    (P : Matrix (Fin sc.E) (Fin sc.E) ℝ) (hr : DenoiseReady sc pChoice muVals P)
    (f : Fin sc.edges.length → ℝ) (t : Nd) :
    (BroadcastsWith sc.edges.length t →
      ∃ r, edgeFlowDenoiseA lib sc (.vec _ f) t pChoice muVals = .ok r) ∧
    (¬ BroadcastsWith sc.edges.length t →
      edgeFlowDenoiseA lib sc (.vec _ f) t pChoice muVals = .error .valueError) := by
  constructor
  · intro h
    choose e he using fun v => (nrmse_ok_iff v t).1 h
    refine ⟨_, denoise_of_passes hr _ _
      (fun mu => (.vec sc.E ((1 + mu • P)⁻¹.mulVec f), e ((1 + mu • P)⁻¹.mulVec f))) fun mu hmu => ?_⟩
    rw [pass_vec P mu (hr.regular mu hmu), he]
    rfl
  · intro h
    refine denoise_fails hr _ _ fun mu hmu => ?_
    rw [pass_vec P mu (hr.regular mu hmu), (nrmse_ok_iff _ t).2 h]
    rfl

/-- C115: a flow without one row per edge is rejected with `ValueError`, whatever the reference. -/
theorem C115_wrong_flow (lib : NumLib) (sc : SC ℝ) (pChoice : String) (muVals : List ℝ)
    (P : Matrix (Fin sc.E) (Fin sc.E) ℝ) (hr : DenoiseReady sc pChoice muVals P) (t : Nd) :
    (∀ x, edgeFlowDenoiseA lib sc (.scalar x) t pChoice muVals = .error .valueError) ∧
    (∀ n (v : Fin n → ℝ), n ≠ sc.edges.length →
      edgeFlowDenoiseA lib sc (.vec n v) t pChoice muVals = .error .valueError) ∧
    (∀ k p (M : Matrix (Fin k) (Fin p) ℝ), k ≠ sc.edges.length →
      edgeFlowDenoiseA lib sc (.mat k p M) t pChoice muVals = .error .valueError) := by
  have key : ∀ f : Nd, (∀ H : Matrix (Fin sc.E) (Fin sc.E) ℝ, Nd.matmul H f = .error .valueError) →
      edgeFlowDenoiseA lib sc f t pChoice muVals = .error .valueError := by
    intro f hf
    refine denoise_fails hr _ _ fun mu hmu => ?_
    unfold muPassA npInv
    rw [if_neg (hr.regular mu hmu)]
    simp only [bind, Except.bind, hf]
  exact ⟨fun x => key _ fun H => (acts_matmul H).scalar x,
    fun n v h => key _ fun H => (acts_matmul H).wrongVec n v h,
    fun k p M h => key _ fun H => (acts_matmul H).wrongMat k p M h⟩

/-- C115: a single number, or an array with a single entry, is accepted as reference; every edge is then
compared with that number (the divisor being its magnitude alone). -/
theorem C115_constant (lib : NumLib) (sc : SC ℝ) (pChoice : String) (muVals : List ℝ)
    (P : Matrix (Fin sc.E) (Fin sc.E) ℝ) (hr : DenoiseReady sc pChoice muVals P)
    (f : Fin sc.edges.length → ℝ) (x : ℝ) (t : Nd) (ht : t = .scalar x ∨ t = .vec 1 fun _ => x) :
    ∃ est, edgeFlowDenoiseA lib sc (.vec _ f) t pChoice muVals = .ok (est, muVals.map fun mu =>
      if x = 0 then none
      else some (Real.sqrt (∑ j, ((1 + mu • P)⁻¹.mulVec f j - x) ^ 2) / |x|)) := by
  have hcols : Nd.bdim sc.E 1 = some sc.E := bdim_one_right _
  have key : ∀ v : Fin sc.E → ℝ, nrmseA (.vec sc.E v) t =
      .ok (if x = 0 then none else some (Real.sqrt (∑ j, (v j - x) ^ 2) / |x|)) := by
    intro v
    have hn : t.norm = |x| := by
      rcases ht with rfl | rfl
      · rfl
      · simp only [Nd.norm, norm2, dotProduct, Finset.univ_unique, Finset.sum_singleton]
        rw [Real.sqrt_mul_self_eq_abs]
    have he : ∀ j, t.entry 0 j = x := by
      intro j
      rcases ht with rfl | rfl <;> simp [Nd.entry, Nd.axisPos]
    have hb : Nd.binop (· - ·) (.vec sc.E v) t = .ok (.vec sc.E fun j => v j - x) := by
      unfold Nd.binop
      have e1 : Nd.bdim (Nd.vec sc.E v).rows t.rows = some 1 := by
        rcases ht with rfl | rfl <;> exact bdim_self 1
      have e2 : Nd.bdim (Nd.vec sc.E v).cols t.cols = some sc.E := by
        rcases ht with rfl | rfl <;> exact hcols
      have e3 : max (Nd.vec sc.E v).ndim t.ndim = 1 := by
        rcases ht with rfl | rfl <;> rfl
      simp only [e1, e2, e3, entry_vec, he]
    unfold nrmseA
    simp only [hb, bind, Except.bind, pure, Except.pure, hn, fdiv, abs_eq_zero]
    congr 3
    simp only [Nd.norm, norm2, dotProduct, pow_two]
  refine ⟨_, denoise_of_passes hr _ _
    (fun mu => (.vec sc.E ((1 + mu • P)⁻¹.mulVec f), if x = 0 then none
      else some (Real.sqrt (∑ j, ((1 + mu • P)⁻¹.mulVec f j - x) ^ 2) / |x|))) fun mu hmu => ?_⟩
  rw [pass_vec P mu (hr.regular mu hmu), key]
  rfl

/-- C115: a reference given as a column (shape `E × 1`) is accepted, but every edge is compared with
every other: the recorded error is not the error of the estimate. -/
theorem C115_column (lib : NumLib) (sc : SC ℝ) (pChoice : String) (muVals : List ℝ)
    (P : Matrix (Fin sc.E) (Fin sc.E) ℝ) (hr : DenoiseReady sc pChoice muVals P)
    (f t : Fin sc.edges.length → ℝ) :
    ∃ est, edgeFlowDenoiseA lib sc (.vec _ f) (.mat sc.edges.length 1 (Matrix.of fun i _ => t i)) pChoice muVals =
      .ok (est, muVals.map fun mu => if Real.sqrt (∑ i, t i ^ 2) = 0 then none
        else some (Real.sqrt (∑ i, ∑ j, ((1 + mu • P)⁻¹.mulVec f j - t i) ^ 2) / Real.sqrt (∑ i, t i ^ 2))) := by
  set T : Nd := .mat sc.edges.length 1 (Matrix.of fun i _ => t i) with hT
  have h1E : Nd.bdim sc.E 1 = some sc.E := bdim_one_right _
  have hE1 : Nd.bdim 1 sc.E = some sc.E := bdim_one_left _
  have key : ∀ v : Fin sc.E → ℝ, nrmseA (.vec sc.E v) T =
      .ok (if Real.sqrt (∑ i, t i ^ 2) = 0 then none
        else some (Real.sqrt (∑ i, ∑ j, (v j - t i) ^ 2) / Real.sqrt (∑ i, t i ^ 2))) := by
    intro v
    have hn : T.norm = Real.sqrt (∑ i, t i ^ 2) := by
      simp [hT, Nd.norm]
    have he : ∀ (i j : Fin sc.E), T.entry i j = t i := by
      intro i j
      have := entry_mat (Matrix.of fun (i : Fin sc.edges.length) (_ : Fin 1) => t i) i 0
      rw [← hT] at this
      rw [← show (Matrix.of fun (i : Fin sc.edges.length) (_ : Fin 1) => t i) i 0 = t i from rfl, ← this]
      simp only [Nd.entry, hT, Nd.axisPos]
      simp
    have hb : Nd.binop (· - ·) (.vec sc.E v) T = .ok (.mat sc.E sc.E (Matrix.of fun i j => v j - t i)) := by
      unfold Nd.binop
      have e1 : Nd.bdim (Nd.vec sc.E v).rows T.rows = some sc.E := hE1
      have e2 : Nd.bdim (Nd.vec sc.E v).cols T.cols = some sc.E := h1E
      have e3 : max (Nd.vec sc.E v).ndim T.ndim = 2 := rfl
      simp only [e1, e2, e3, entry_vec, he]
    unfold nrmseA
    simp only [hb, bind, Except.bind, pure, Except.pure, hn, fdiv]
    rfl
  refine ⟨_, denoise_of_passes hr _ _
    (fun mu => (.vec sc.E ((1 + mu • P)⁻¹.mulVec f), if Real.sqrt (∑ i, t i ^ 2) = 0 then none
        else some (Real.sqrt (∑ i, ∑ j, ((1 + mu • P)⁻¹.mulVec f j - t i) ^ 2) / Real.sqrt (∑ i, t i ^ 2))))
      fun mu hmu => ?_⟩
  rw [pass_vec P mu (hr.regular mu hmu), key]
  rfl

/-- C115: a perfect estimate is reported with a positive error when the reference is a column, unless all
its entries are equal. -/
theorem C115_column_counterexample (lib : NumLib) (sc : SC ℝ) (pChoice : String) (mu : ℝ)
    (P : Matrix (Fin sc.E) (Fin sc.E) ℝ) (hr : DenoiseReady sc pChoice [mu] P)
    (f t : Fin sc.edges.length → ℝ) (hft : (1 + mu • P)⁻¹.mulVec f = t) (a b : Fin sc.edges.length) (hab : t a ≠ t b) :
    ∃ est e, edgeFlowDenoiseA lib sc (.vec _ f) (.mat sc.edges.length 1 (Matrix.of fun i _ => t i)) pChoice [mu] =
      .ok (est, [some e]) ∧ 0 < e := by
  obtain ⟨est, h⟩ := C115_column lib sc pChoice [mu] P hr f t
  have hpos : 0 < ∑ i, t i ^ 2 := by
    have hc : t a ≠ 0 ∨ t b ≠ 0 := by
      by_contra hn
      push Not at hn
      exact hab (hn.1.trans hn.2.symm)
    rcases hc with h0 | h0
    · exact lt_of_lt_of_le (by positivity)
        (Finset.single_le_sum (f := fun i => t i ^ 2) (fun i _ => sq_nonneg _) (Finset.mem_univ a))
    · exact lt_of_lt_of_le (by positivity)
        (Finset.single_le_sum (f := fun i => t i ^ 2) (fun i _ => sq_nonneg _) (Finset.mem_univ b))
  have hs : 0 < Real.sqrt (∑ i, t i ^ 2) := Real.sqrt_pos.2 hpos
  have hnum : 0 < ∑ i, ∑ j, (t j - t i) ^ 2 := by
    have h1 : 0 < (t a - t b) ^ 2 := by
      have := sub_ne_zero.2 hab
      positivity
    have h2 : (t a - t b) ^ 2 ≤ ∑ j, (t j - t b) ^ 2 :=
      Finset.single_le_sum (f := fun j => (t j - t b) ^ 2) (fun j _ => sq_nonneg _) (Finset.mem_univ a)
    have h3 : ∑ j, (t j - t b) ^ 2 ≤ ∑ i, ∑ j, (t j - t i) ^ 2 :=
      Finset.single_le_sum (f := fun i => ∑ j, (t j - t i) ^ 2)
        (fun i _ => Finset.sum_nonneg fun j _ => sq_nonneg _) (Finset.mem_univ b)
    linarith
  simp only [List.map_cons, List.map_nil, if_neg hs.ne', hft] at h
  exact ⟨est, _, h, div_pos (Real.sqrt_pos.2 hnum) hs⟩

/-- Non-vacuity of C115: the sample complex with `mu = 1/2` is ready, and has flows that differ on two
edges. -/
example : ∃ sc : SC ℝ, ∃ P, DenoiseReady sc "L1" [1 / 2] P ∧ ∃ (f t : Fin sc.edges.length → ℝ) (a b : _),
    (1 + (1 / 2 : ℝ) • P)⁻¹.mulVec f = t ∧ t a ≠ t b := by
  obtain ⟨sc, hw, -, hn, he, ht⟩ := sample_wellFormed ℝ
  have hd : (1 + (1 / 2 : ℝ) • sc.L1).det ≠ 0 := det_ne_zero_of_psd (getPMatrix_psd (sc := sc) (p := "L1") rfl) (by norm_num)
  have hlen : sc.edges.length = sampleEdges.length := by rw [he]
  have h2 : 1 < sc.edges.length := by rw [hlen]; decide
  set t : Fin sc.edges.length → ℝ := fun i => (i : ℕ) with htdef
  refine ⟨sc, sc.L1, ⟨by change 0 < sc.edges.length; omega, rfl, by simp, by simpa using hd⟩,
    (1 + (1 / 2 : ℝ) • sc.L1).mulVec t, t, ⟨0, by omega⟩, ⟨1, h2⟩, ?_, by simp [htdef]⟩
  rw [mulVec_mulVec, nonsing_inv_mul _ (isUnit_iff_ne_zero.2 hd), one_mulVec]

end Pytspl
