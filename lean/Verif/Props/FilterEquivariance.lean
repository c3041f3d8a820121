import Verif.Props.LibIndependence

/-!
# C131: filters do not depend on how the complex is numbered
-/

namespace Pytspl

open Matrix Polynomial

variable {E E' : ℕ} {α β γ δ : Type}

/-! ## The specification -/

/-- Both calls raise the same exception, or both return, with results related by `R`. -/
def SameOutcome (R : α → β → Prop) : Py α → Py β → Prop
  | .ok a, .ok b => R a b
  | .error e, .error e' => e = e'
  | _, _ => False

/-- The entries of two histories are the same, edge `k` of the first complex being edge `σ k` of the second.  Rows
(frequency responses) have one number per eigenvalue, so they are the same lists. -/
def SameEntry (σ : Fin E ≃ Fin E') : HVal E → HVal E' → Prop
  | .none, .none => True
  | .mat M, .mat M' => ∀ i j, M' (σ i) (σ j) = M i j
  | .vec v, .vec v' => ∀ k, v' (σ k) = v k
  | .rows r, .rows r' => r.map List.ofFn = r'.map List.ofFn
  | .errs e, .errs e' => e = e'
  | .mats c, .mats c' => List.Forall₂ (fun M M' => ∀ i j, M' (σ i) (σ j) = M i j) c c'
  | .ref a, .ref a' => a = a'
  | _, _ => False

/-- Two dictionaries have the same keys in the same order and the same entries. -/
def SameDict (σ : Fin E ≃ Fin E') (d : HDict E) (d' : HDict E') : Prop :=
  List.Forall₂ (fun p p' => p.1 = p'.1 ∧ SameEntry σ p.2 p'.2) d d'

/-- Two filter objects are in the same state. -/
def SameState (σ : Fin E ≃ Fin E') (st : FilterSt E) (st' : FilterSt E') : Prop :=
  st.cur = st'.cur ∧ List.Forall₂ (SameDict σ) st.heap st'.heap

/-! ## Outcomes -/

theorem SameOutcome.bind {R : α → β → Prop} {S : γ → δ → Prop} {x : Py α} {x' : Py β} {k : α → Py γ} {k' : β → Py δ}
    (h : SameOutcome R x x') (hk : ∀ a b, R a b → SameOutcome S (k a) (k' b)) :
    SameOutcome S (x >>= k) (x' >>= k') := by
  cases x <;> cases x'
  · exact h
  · exact h.elim
  · exact h.elim
  · exact hk _ _ h

theorem SameOutcome.refl (x : Py α) : SameOutcome Eq x x := by cases x <;> rfl

/-! ## States -/

theorem SameDict.set {σ : Fin E ≃ Fin E'} {d : HDict E} {d' : HDict E'} (h : SameDict σ d d') (key : String)
    {v : HVal E} {v' : HVal E'} (hv : SameEntry σ v v') : SameDict σ (d.set key v) (d'.set key v') := by
  unfold SameDict at *
  induction h with
  | nil => exact .cons ⟨rfl, hv⟩ .nil
  | @cons p p' l l' hp hl ih =>
    obtain ⟨k, x⟩ := p
    obtain ⟨k', x'⟩ := p'
    obtain ⟨h1, h2⟩ := hp
    simp only at h1 h2
    subst h1
    unfold Dict.set
    split_ifs
    · exact .cons ⟨rfl, hv⟩ hl
    · exact .cons ⟨rfl, h2⟩ ih

theorem SameDict.get {σ : Fin E ≃ Fin E'} {d : HDict E} {d' : HDict E'} (h : SameDict σ d d') (key : String) :
    (d.get? key = none ∧ d'.get? key = none) ∨
      ∃ v v', d.get? key = some v ∧ d'.get? key = some v' ∧ SameEntry σ v v' := by
  unfold SameDict at h
  induction h with
  | nil => exact .inl ⟨rfl, rfl⟩
  | @cons p p' l l' hp hl ih =>
    obtain ⟨k, x⟩ := p
    obtain ⟨k', x'⟩ := p'
    obtain ⟨h1, h2⟩ := hp
    simp only at h1 h2
    subst h1
    unfold Dict.get?
    split_ifs
    · exact .inr ⟨_, _, rfl, rfl, h2⟩
    · exact ih

theorem SameState.setKey {σ : Fin E ≃ Fin E'} {st : FilterSt E} {st' : FilterSt E'} (h : SameState σ st st') (a : ℕ)
    (key : String) {v : HVal E} {v' : HVal E'} (hv : SameEntry σ v v') :
    SameState σ (st.setKey a key v) (st'.setKey a key v') := by
  refine ⟨h.1, ?_⟩
  unfold FilterSt.setKey
  simp only
  have := h.2
  generalize st.heap = l at *
  generalize st'.heap = l' at *
  clear h
  induction this generalizing a with
  | nil => simp
  | cons hp hl ih =>
    cases a with
    | zero => simpa using ⟨hp.set key hv, hl⟩
    | succ a => simpa using ⟨hp, ih a⟩

theorem SameState.alloc {σ : Fin E ≃ Fin E'} {st : FilterSt E} {st' : FilterSt E'} (h : SameState σ st st')
    {d : HDict E} {d' : HDict E'} (hd : SameDict σ d d') :
    (st.alloc d).1 = (st'.alloc d').1 ∧ SameState σ (st.alloc d).2 (st'.alloc d').2 :=
  ⟨h.2.length_eq, h.1, List.rel_append h.2 (.cons hd .nil)⟩

theorem SameState.reset {σ : Fin E ≃ Fin E'} {st : FilterSt E} {st' : FilterSt E'} (h : SameState σ st st') :
    SameState σ (resetHistory st) (resetHistory st') := by
  have hd : SameDict σ [("filter", .none), ("f_estimated", .none), ("extracted_component_error", .none),
      ("filter_error", .none)] [("filter", .none), ("f_estimated", .none), ("extracted_component_error", .none),
      ("filter_error", .none)] := by
    unfold SameDict SameEntry; simp
  obtain ⟨h1, h2⟩ := h.alloc hd
  exact ⟨h1, h2.2⟩

theorem SameState.history {σ : Fin E ≃ Fin E'} {st : FilterSt E} {st' : FilterSt E'} (h : SameState σ st st') :
    SameDict σ st.history st'.history := by
  unfold FilterSt.history FilterSt.deref
  rw [← h.1]
  have := h.2
  generalize st.heap = l at *
  generalize st'.heap = l' at *
  generalize st.cur = a at *
  clear h
  induction this generalizing a with
  | nil => exact .nil
  | cons hp hl ih =>
    cases a with
    | zero => exact hp
    | succ a => simpa using ih a

theorem SameState.init (σ : Fin E ≃ Fin E') : SameState σ (initFilter E) (initFilter E') := by
  refine ⟨rfl, .cons ?_ .nil⟩
  unfold SameDict initHistory SameEntry; simp

/-- two designs with the same results -/
def SameApplied (σ : Fin E ≃ Fin E') (a : Applied E) (a' : Applied E') : Prop :=
  (∀ i j, a'.H (σ i) (σ j) = a.H i j) ∧ (∀ k, a'.fEst (σ k) = a.fEst k) ∧
    a.resp.map List.ofFn = a'.resp.map List.ofFn ∧ a.errs = a'.errs

/-- two designs as they are recorded -/
structure SameDesign (σ : Fin E ≃ Fin E') (d : Design E) (d' : Design E') : Prop where
  filter : SameEntry σ d.filter d'.filter
  est : SameEntry σ d.fEstimated d'.fEstimated
  resp : SameEntry σ d.frequencyResponses d'.frequencyResponses
  errs : SameEntry σ d.extractedComponentError d'.extractedComponentError
  ferr : SameEntry σ d.filterError d'.filterError

theorem SameState.set {σ : Fin E ≃ Fin E'} {st : FilterSt E} {st' : FilterSt E'} (h : SameState σ st st')
    {d : Design E} {d' : Design E'} (hd : SameDesign σ d d') : SameState σ (setHistory st d) (setHistory st' d') := by
  unfold setHistory
  rw [← h.1]
  exact ((((h.setKey _ _ hd.filter).setKey _ _ hd.est).setKey _ _ hd.resp).setKey _ _ hd.errs).setKey _ _ hd.ferr

theorem SameApplied.design {σ : Fin E ≃ Fin E'} {a : Applied E} {a' : Applied E'} (h : SameApplied σ a a') :
    SameDesign σ a.design a'.design := ⟨h.1, h.2.1, h.2.2.1, h.2.2.2, rfl⟩

/-- outcome and state of two calls -/
def SameCall (σ : Fin E ≃ Fin E') (R : α → β → Prop) (c : Py α × FilterSt E) (c' : Py β × FilterSt E') : Prop :=
  SameOutcome R c.1 c'.1 ∧ SameState σ c.2 c'.2

theorem SameState.record {σ : Fin E ≃ Fin E'} {st : FilterSt E} {st' : FilterSt E'} (h : SameState σ st st')
    {r : Py (Applied E)} {r' : Py (Applied E')} (hr : SameOutcome (SameApplied σ) r r') :
    SameCall σ Eq (recordDesign st r) (recordDesign st' r') := by
  cases r <;> cases r'
  · exact ⟨hr, h⟩
  · exact hr.elim
  · exact hr.elim
  · exact ⟨rfl, h.set hr.design⟩

/-! ## Linear algebra under a renumbering -/

private theorem vec_eq {σ : Fin E ≃ Fin E'} {f : Fin E → ℝ} {f' : Fin E' → ℝ} (h : ∀ k, f' (σ k) = f k) :
    f' = fun k => f (σ.symm k) := by
  funext k
  rw [← h, Equiv.apply_symm_apply]

private theorem mat_eq {σ : Fin E ≃ Fin E'} {M : Matrix (Fin E) (Fin E) ℝ} {M' : Matrix (Fin E') (Fin E') ℝ}
    (h : ∀ i j, M' (σ i) (σ j) = M i j) : M' = M.submatrix σ.symm σ.symm := by
  ext i j
  rw [submatrix_apply, ← h, Equiv.apply_symm_apply, Equiv.apply_symm_apply]

private theorem mulVec_same {σ : Fin E ≃ Fin E'} {M : Matrix (Fin E) (Fin E) ℝ} {M' : Matrix (Fin E') (Fin E') ℝ}
    (h : ∀ i j, M' (σ i) (σ j) = M i j) {f : Fin E → ℝ} {f' : Fin E' → ℝ} (hf : ∀ k, f' (σ k) = f k) (k : Fin E) :
    M'.mulVec f' (σ k) = M.mulVec f k := by
  rw [mat_eq h, vec_eq hf, mulVec_renumber]
  simp

private theorem norm2_same {σ : Fin E ≃ Fin E'} {f : Fin E → ℝ} {f' : Fin E' → ℝ} (hf : ∀ k, f' (σ k) = f k) :
    norm2 f' = norm2 f := by
  have : f' ⬝ᵥ f' = f ⬝ᵥ f := by
    unfold dotProduct
    exact (Fintype.sum_equiv σ _ _ fun k => by rw [hf]).symm
  unfold norm2
  rw [this]

private theorem nrmse_same {σ : Fin E ≃ Fin E'} {f t : Fin E → ℝ} {f' t' : Fin E' → ℝ} (hf : ∀ k, f' (σ k) = f k)
    (ht : ∀ k, t' (σ k) = t k) : calculateErrorNRMSE f' t' = calculateErrorNRMSE f t := by
  unfold calculateErrorNRMSE
  rw [norm2_same ht, norm2_same (f := f - t) (σ := σ) fun k => by rw [Pi.sub_apply, Pi.sub_apply, hf, ht]]

private theorem aeval_same {σ : Fin E ≃ Fin E'} {M : Matrix (Fin E) (Fin E) ℝ} {M' : Matrix (Fin E') (Fin E') ℝ}
    (h : ∀ i j, M' (σ i) (σ j) = M i j) (p : ℝ[X]) (i j : Fin E) : aeval M' p (σ i) (σ j) = aeval M p i j := by
  have e : M' = Matrix.reindexAlgEquiv ℝ ℝ σ M := by
    rw [mat_eq h]; rfl
  rw [e, Polynomial.aeval_algEquiv]
  simp

private theorem one_same (σ : Fin E ≃ Fin E') (i j : Fin E) :
    (1 : Matrix (Fin E') (Fin E') ℝ) (σ i) (σ j) = (1 : Matrix (Fin E) (Fin E) ℝ) i j := by
  simp [Matrix.one_apply]

private theorem power_same {σ : Fin E ≃ Fin E'} {M : Matrix (Fin E) (Fin E) ℝ} {M' : Matrix (Fin E') (Fin E') ℝ}
    (h : ∀ i j, M' (σ i) (σ j) = M i j) (k : ℕ) :
    (powerStep M')^[k] (some fun _ => 1) = ((powerStep M)^[k] (some fun _ => 1)).map fun v i => v (σ.symm i) := by
  induction k with
  | zero => rfl
  | succ k ih =>
    rw [Function.iterate_succ_apply', Function.iterate_succ_apply', ih]
    cases (powerStep M)^[k] (some fun _ => 1) with
    | none => rfl
    | some v =>
      simp only [Option.map_some, powerStep, bind, Option.bind]
      have hn : norm2 (M'.mulVec fun i => v (σ.symm i)) = norm2 (M.mulVec v) :=
        norm2_same fun k => mulVec_same h (fun k => by simp) k
      rw [hn]
      split_ifs
      · rfl
      · simp only [Option.map_some]
        congr 1
        refine vec_eq fun k => ?_
        rw [Pi.smul_apply, Pi.smul_apply, mulVec_same h (f := v) (fun k => by simp) k]

/-- the estimate of the largest eigenvalue -/
theorem lambdaMax_same {σ : Fin E ≃ Fin E'} {M : Matrix (Fin E) (Fin E) ℝ} {M' : Matrix (Fin E') (Fin E') ℝ}
    (h : ∀ i j, M' (σ i) (σ j) = M i j) : lambdaMax M' = lambdaMax M := by
  have hE : E' = E := by simpa using (Fintype.card_congr σ).symm
  unfold lambdaMax powerIteration
  rw [power_same h]
  cases (powerStep M)^[50] (some fun _ => 1) with
  | none => rfl
  | some v =>
    simp only [Option.map_some, bind, Option.bind, pure]
    have e1 : (∃ i, v (σ.symm i) + machineEps = 0) ↔ ∃ i, v i + machineEps = 0 :=
      ⟨fun ⟨i, hi⟩ => ⟨_, hi⟩, fun ⟨i, hi⟩ => ⟨σ i, by simpa using hi⟩⟩
    rw [if_congr (or_congr e1 (by rw [hE])) rfl rfl]
    split_ifs
    · rfl
    · congr 2
      · refine (Fintype.sum_equiv σ _ _ fun k => ?_).symm
        rw [mulVec_same h (f := fun i => v i + machineEps) (fun k => by simp) k]
        simp
      · rw [hE]

/-! ## Designs -/

private theorem applyFilter_renumber (lib : NumLib) (σ : Fin E ≃ Fin E') {P U : Matrix (Fin E) (Fin E) ℝ}
    {P' U' : Matrix (Fin E') (Fin E') ℝ} (hP : ∀ i j, P' (σ i) (σ j) = P i j) {f t : Fin E → ℝ} {f' t' : Fin E' → ℝ}
    (hf : ∀ k, f' (σ k) = f k) (ht : ∀ k, t' (σ k) = t k) {w : Fin E → ℝ} {w' : Fin E' → ℝ} (h : IsEig P U w)
    (h' : IsEig P' U' w') (hw : List.ofFn w = List.ofFn w') (ev al al' : List ℝ) (L : Int)
    (hlen : al.length = al'.length)
    (hal : ∀ k : ℕ, ∑ i : Fin ev.length, ev[i] ^ k * al[(i : ℕ)]?.getD 0 =
      ∑ i : Fin ev.length, ev[i] ^ k * al'[(i : ℕ)]?.getD 0) :
    SameOutcome (SameApplied σ) (applyFilter lib f t P U ev al L) (applyFilter lib f' t' P' U' ev al' L) := by
  rw [applyFilter_moments lib lib f' t' h' h' ev al' al L hlen.symm fun k => (hal k).symm]
  by_cases hL : 0 < L ∧ al.length = ev.length
  · rw [applyFilter_eq lib f t P U ev al L hL.1 hL.2, applyFilter_eq lib f' t' P' U' ev al L hL.1 hL.2]
    refine ⟨aeval_same hP _, mulVec_same (aeval_same hP _) hf, ?_, ?_⟩
    · simp only [List.map_map, h.aeval_diag, h'.aeval_diag]
      refine List.map_congr_left fun l _ => ?_
      simp only [Function.comp_def]
      have := congrArg (List.map fun x => (polyAt lib (fun i : Fin ev.length => ev[i])
        (fun i => al[(i : ℕ)]?.getD 0) L.toNat l).eval x) hw
      rw [List.map_ofFn, List.map_ofFn] at this
      exact this
    · refine List.map_congr_left fun l _ => ?_
      exact (nrmse_same (mulVec_same (aeval_same hP _) hf) ht).symm
  · unfold applyFilter
    split_ifs with a b c
    · rfl
    · rfl
    · rfl
    · exact absurd ⟨by omega, not_not.1 c⟩ hL

variable {sc sc' : SC ℝ} {π : Fin sc.nodes.length ≃ Fin sc'.nodes.length}
  {σ : Fin sc.edges.length ≃ Fin sc'.edges.length} {τ : Fin sc.triangles.length ≃ Fin sc'.triangles.length}

private theorem numE (σ : Fin sc.edges.length ≃ Fin sc'.edges.length) : sc.E = sc'.E := by
  have : sc.edges.length = sc'.edges.length := by simpa using Fintype.card_congr σ
  exact this

private theorem signal_same (r : Renumbered sc sc' π σ τ) (h : sc.OnSimpleGraph) (hb : sc'.Built) (lib : NumLib)
    {f : Fin sc.E → ℝ} {f' : Fin sc'.E → ℝ} (hf : ∀ k, f' (σ k) = f k) (c : String) :
    SameOutcome (fun (g : Fin sc.E → ℝ) (g' : Fin sc'.E → ℝ) => ∀ k, g' (σ k) = g k) (sc.getTrueSignal lib f c)
      (sc'.getTrueSignal lib f' c) := by
  have key := (C99_flows r h hb lib f f' hf).2.2 c false
  unfold SC.getTrueSignal
  cases hg : sc.getComponentFlow lib f c false with
  | ok g =>
    obtain ⟨g', h1, h2⟩ := key _ g hg
    rw [h1]; exact h2
  | error e =>
    unfold SC.getComponentFlow at hg ⊢
    split_ifs at hg ⊢
    cases hg; rfl

private theorem pMatrix_same (r : Renumbered sc sc' π σ τ) (h : sc.OnSimpleGraph) (hb : sc'.Built) (c : String) :
    SameOutcome (fun (P : Matrix (Fin sc.E) (Fin sc.E) ℝ) (P' : Matrix (Fin sc'.E) (Fin sc'.E) ℝ) =>
      SymmPSD P ∧ SymmPSD P' ∧ ∀ k l, P' (σ k) (σ l) = P k l) (sc.getPMatrix c) (sc'.getPMatrix c) := by
  obtain ⟨-, l1, l2, l3, -⟩ := C99_laplacians r h hb
  unfold SC.getPMatrix
  split_ifs
  · exact ⟨symmPSD_L1 _, symmPSD_L1 _, l3⟩
  · exact ⟨symmPSD_L1l _, symmPSD_L1l _, l1⟩
  · exact ⟨symmPSD_L1u _, symmPSD_L1u _, l2⟩
  · rfl

private theorem eig_same (lib : NumLib) {n n' : ℕ} (e : Fin n ≃ Fin n') {P : Matrix (Fin n) (Fin n) ℝ}
    {P' : Matrix (Fin n') (Fin n') ℝ} (hs : SymmPSD P) (hs' : SymmPSD P') (hP : ∀ k l, P' (e k) (e l) = P k l) (tol : ℝ) :
    SameOutcome (fun (x : Matrix (Fin n) (Fin n) ℝ × (Fin n → ℝ)) (x' : Matrix (Fin n') (Fin n') ℝ × (Fin n' → ℝ)) =>
      List.ofFn x.2 = List.ofFn x'.2 ∧ ∃ w w', IsEig P x.1 w ∧ IsEig P' x'.1 w' ∧ List.ofFn w = List.ofFn w')
      (getEigendecomposition lib (.ndarray P) tol) (getEigendecomposition lib (.ndarray P') tol) := by
  have hn : n = n' := by simpa using Fintype.card_congr e
  have hv := eigh_renumber lib hs.1 e hP
  rcases Nat.eq_zero_or_pos n with h0 | h0
  · have h0' : n' = 0 := hn ▸ h0
    subst h0 h0'
    rfl
  · rw [getEigendecomposition_dense lib h0, getEigendecomposition_dense lib (hn ▸ h0)]
    refine ⟨?_, _, _, lib.isEig hs, lib.isEig hs', hv.symm⟩
    have := congrArg (List.map fun x => if |x| < tol then 0 else x) hv.symm
    rw [List.map_ofFn, List.map_ofFn] at this
    exact this

/-! ## The filters -/

/-- C131: the least-squares filter of the second type: called on the renumbered flow, it raises the same exception or
leaves the same history, entry by entry. -/
theorem C131_ls_type_two (r : Renumbered sc sc' π σ τ) (h : sc.OnSimpleGraph) (hb : sc'.Built) (lib : NumLib)
    {f : Fin sc.E → ℝ} {f' : Fin sc'.E → ℝ} (hf : ∀ k, f' (σ k) = f k) {st : FilterSt sc.E} {st' : FilterSt sc'.E}
    (hst : SameState (E := sc.E) (E' := sc'.E) σ st st') (component : String) (L : Int) (tol : ℝ) :
    SameCall (E := sc.E) (E' := sc'.E) σ Eq (LSFilter.typeTwo lib sc st f component L tol)
      (LSFilter.typeTwo lib sc' st' f' component L tol) := by
  obtain ⟨-, l1, l2, l3, -⟩ := C99_laplacians r h hb
  refine hst.reset.record ?_
  have key : ∀ (P : Matrix (Fin sc.E) (Fin sc.E) ℝ) (P' : Matrix (Fin sc'.E) (Fin sc'.E) ℝ), SymmPSD P → SymmPSD P' →
      (∀ k l, P' (σ k) (σ l) = P k l) → SameOutcome (SameApplied (E := sc.E) (E' := sc'.E) σ)
      (do
        let (U, eigenvals) ← getEigendecomposition lib (.ndarray P)
        let eigenvals := npUnique ((List.ofFn eigenvals).map fun x => if |x| < tol then 0 else x)
        let fTrue ← sc.getTrueSignal lib f component
        let alpha : List ℝ := [0] ++ List.replicate (eigenvals.length - 1) 1
        applyFilter lib f fTrue P U eigenvals alpha L)
      (do
        let (U, eigenvals) ← getEigendecomposition lib (.ndarray P')
        let eigenvals := npUnique ((List.ofFn eigenvals).map fun x => if |x| < tol then 0 else x)
        let fTrue ← sc'.getTrueSignal lib f' component
        let alpha : List ℝ := [0] ++ List.replicate (eigenvals.length - 1) 1
        applyFilter lib f' fTrue P' U eigenvals alpha L) := by
    intro P P' h1 h2 h3
    refine SameOutcome.bind (eig_same lib (n := sc.E) (n' := sc'.E) σ h1 h2 h3 _) ?_
    rintro ⟨U, v⟩ ⟨U', v'⟩ ⟨hv, w, w', e1, e2, hw⟩
    simp only at hv e1 e2 ⊢
    rw [hv]
    refine SameOutcome.bind (signal_same r h hb lib hf component) fun t t' ht => ?_
    exact applyFilter_renumber (E := sc.E) (E' := sc'.E) lib σ h3 hf ht e1 e2 hw _ _ _ L rfl fun _ => rfl
  unfold LSFilter.typeTwoDesign
  simp only
  split_ifs
  · exact key _ _ (symmPSD_L1l _) (symmPSD_L1l _) l1
  · exact key _ _ (symmPSD_L1u _) (symmPSD_L1u _) l2
  · rfl

/-- the three flows returned by a general filter correspond -/
def SameFlows (σ : Fin E ≃ Fin E') (x : (Fin E → ℝ) × (Fin E → ℝ) × (Fin E → ℝ))
    (x' : (Fin E' → ℝ) × (Fin E' → ℝ) × (Fin E' → ℝ)) : Prop :=
  (∀ k, x'.1 (σ k) = x.1 k) ∧ (∀ k, x'.2.1 (σ k) = x.2.1 k) ∧ ∀ k, x'.2.2 (σ k) = x.2.2 k

private theorem branch_same {σ : Fin E ≃ Fin E'} (hist : ℕ) (key : String) (size : Int)
    {run : FilterSt E → Py Unit × FilterSt E} {run' : FilterSt E' → Py Unit × FilterSt E'}
    (hrun : ∀ st st', SameState σ st st' → SameCall σ Eq (run st) (run' st')) {st : FilterSt E} {st' : FilterSt E'}
    (hst : SameState σ st st') :
    SameCall σ (fun (g : Fin E → ℝ) (g' : Fin E' → ℝ) => ∀ k, g' (σ k) = g k) (generalBranch hist key size run st)
      (generalBranch hist key size run' st') := by
  unfold generalBranch
  split_ifs
  · obtain ⟨h1, h2⟩ := hrun _ _ hst
    cases hr : run st with
    | mk o s =>
    cases hr' : run' st' with
    | mk o' s' =>
    rw [hr, hr'] at h1 h2
    simp only at h1 h2
    cases o with
    | error e =>
      cases o' with
      | error e' => exact ⟨h1, h2⟩
      | ok _ => exact h1.elim
    | ok _ =>
      cases o' with
      | error e' => exact h1.elim
      | ok _ =>
      simp only
      unfold readEstimate
      rcases h2.history.get "f_estimated" with ⟨g1, g2⟩ | ⟨v, v', g1, g2, g3⟩
      · rw [g1, g2]; exact ⟨rfl, h2⟩
      · rw [g1, g2]
        cases v <;> cases v' <;> first
          | exact g3.elim
          | exact ⟨rfl, h2⟩
          | exact ⟨g3, h2.setKey _ _ h2.1⟩
  · exact ⟨fun _ => rfl, hst⟩

private theorem general_same {σ : Fin E ≃ Fin E'} {f : Fin E → ℝ} {f' : Fin E' → ℝ} (hf : ∀ k, f' (σ k) = f k)
    (L1 L2 : Int) {runG runC : FilterSt E → Py Unit × FilterSt E} {runG' runC' : FilterSt E' → Py Unit × FilterSt E'}
    (hG : ∀ st st', SameState σ st st' → SameCall σ Eq (runG st) (runG' st'))
    (hC : ∀ st st', SameState σ st st' → SameCall σ Eq (runC st) (runC' st')) {st : FilterSt E} {st' : FilterSt E'}
    (hst : SameState σ st st') :
    SameCall σ (SameFlows σ) (generalFilter f L1 L2 runG runC st) (generalFilter f' L1 L2 runG' runC' st') := by
  have hd : SameDict σ [("L1", .none), ("L2", .none)] [("L1", .none), ("L2", .none)] := by
    unfold SameDict SameEntry; simp
  obtain ⟨ha, hs⟩ := hst.alloc hd
  unfold generalFilter
  simp only
  rw [← ha]
  obtain ⟨b1, b2⟩ := branch_same (st.alloc [("L1", .none), ("L2", .none)]).1 "L1" L1 hG hs
  cases hr : generalBranch (st.alloc [("L1", .none), ("L2", .none)]).1 "L1" L1 runG (st.alloc [("L1", .none), ("L2", .none)]).2 with
  | mk o s =>
  cases hr' : generalBranch (st.alloc [("L1", .none), ("L2", .none)]).1 "L1" L1 runG' (st'.alloc [("L1", .none), ("L2", .none)]).2 with
  | mk o' s' =>
  rw [hr, hr'] at b1 b2
  cases o with
  | error e =>
    cases o' with
    | error e' => exact ⟨b1, b2⟩
    | ok _ => exact b1.elim
  | ok g =>
  cases o' with
  | error e' => exact b1.elim
  | ok g' =>
  simp only
  obtain ⟨c1, c2⟩ := branch_same (st.alloc [("L1", .none), ("L2", .none)]).1 "L2" L2 hC b2
  simp only at c1 c2
  cases hq : generalBranch (st.alloc [("L1", .none), ("L2", .none)]).1 "L2" L2 runC s with
  | mk o2 s2 =>
  cases hq' : generalBranch (st.alloc [("L1", .none), ("L2", .none)]).1 "L2" L2 runC' s' with
  | mk o2' s2' =>
  rw [hq, hq'] at c1 c2
  cases o2 with
  | error e =>
    cases o2' with
    | error e' => exact ⟨c1, c2⟩
    | ok _ => exact c1.elim
  | ok c =>
  cases o2' with
  | error e' => exact c1.elim
  | ok c' =>
  refine ⟨⟨fun k => ?_, c1, b1⟩, rfl, c2.2⟩
  have e1 : g' (σ k) = g k := b1 k
  have e2 : c' (σ k) = c k := c1 k
  simp only [Pi.sub_apply, hf, e1, e2]

/-- C131: the general least-squares filter: the three returned flows and the nested history. -/
theorem C131_ls_general (r : Renumbered sc sc' π σ τ) (h : sc.OnSimpleGraph) (hb : sc'.Built) (lib : NumLib)
    {f : Fin sc.E → ℝ} {f' : Fin sc'.E → ℝ} (hf : ∀ k, f' (σ k) = f k) {st : FilterSt sc.E} {st' : FilterSt sc'.E}
    (hst : SameState (E := sc.E) (E' := sc'.E) σ st st') (L1 L2 : Int) (tol : ℝ) :
    SameCall (E := sc.E) (E' := sc'.E) σ (SameFlows (E := sc.E) (E' := sc'.E) σ)
      (LSFilter.generalFilter lib sc st f L1 L2 tol) (LSFilter.generalFilter lib sc' st' f' L1 L2 tol) :=
  general_same (E := sc.E) (E' := sc'.E) hf L1 L2 (fun _ _ hs => C131_ls_type_two r h hb lib hf hs _ _ _)
    (fun _ _ hs => C131_ls_type_two r h hb lib hf hs _ _ _) hst.reset

private theorem applyF_same (lib : NumLib) (σ : Fin E ≃ Fin E') {P U : Matrix (Fin E) (Fin E) ℝ}
    {P' U' : Matrix (Fin E') (Fin E') ℝ} (hP : ∀ i j, P' (σ i) (σ j) = P i j) {f t : Fin E → ℝ} {f' t' : Fin E' → ℝ}
    (hf : ∀ k, f' (σ k) = f k) (ht : ∀ k, t' (σ k) = t k) {w : Fin E → ℝ} {w' : Fin E' → ℝ} (h : IsEig P U w)
    (h' : IsEig P' U' w') (hw : List.ofFn w = List.ofFn w') (data : Option (List ℝ × List ℝ)) (L : Int) :
    SameOutcome (SameApplied σ) (GridFilter.applyFilterF lib f t P U data L)
      (GridFilter.applyFilterF lib f' t' P' U' data L) := by
  unfold GridFilter.applyFilterF
  cases data with
  | some d => exact applyFilter_renumber lib σ hP hf ht h h' hw _ _ _ L rfl fun _ => rfl
  | none =>
    simp only
    split_ifs <;> rfl

private theorem sampled_same {σ : Fin E ≃ Fin E'} {M : Matrix (Fin E) (Fin E) ℝ} {M' : Matrix (Fin E') (Fin E') ℝ}
    (h : ∀ i j, M' (σ i) (σ j) = M i j) (num : Int) (mu : ℝ) :
    GridFilter.sampledResponse M' num mu = GridFilter.sampledResponse M num mu := by
  unfold GridFilter.sampledResponse GridFilter.sampleGridPoints
  rw [lambdaMax_same h]

/-- C131: the grid-based filters: denoising, extraction of a component and the general filter. -/
theorem C131_grid (r : Renumbered sc sc' π σ τ) (h : sc.OnSimpleGraph) (hb : sc'.Built) (lib : NumLib)
    {f t : Fin sc.E → ℝ} {f' t' : Fin sc'.E → ℝ} (hf : ∀ k, f' (σ k) = f k) (ht : ∀ k, t' (σ k) = t k)
    {st : FilterSt sc.E} {st' : FilterSt sc'.E} (hst : SameState (E := sc.E) (E' := sc'.E) σ st st')
    (component pChoice : String) (L L1 L2 num : Int) (mu cutOff steep : ℝ) :
    SameCall (E := sc.E) (E' := sc'.E) σ Eq (GridFilter.denoise lib sc st f t pChoice L mu)
      (GridFilter.denoise lib sc' st' f' t' pChoice L mu) ∧
    SameCall (E := sc.E) (E' := sc'.E) σ Eq
      (GridFilter.subcomponentExtraction lib sc st f component pChoice L num mu cutOff steep)
      (GridFilter.subcomponentExtraction lib sc' st' f' component pChoice L num mu cutOff steep) ∧
    SameCall (E := sc.E) (E' := sc'.E) σ (SameFlows (E := sc.E) (E' := sc'.E) σ)
      (GridFilter.generalFilter lib sc st f L1 L2) (GridFilter.generalFilter lib sc' st' f' L1 L2) := by
  have ext : ∀ (st : FilterSt sc.E) (st' : FilterSt sc'.E), SameState (E := sc.E) (E' := sc'.E) σ st st' →
      ∀ (component pChoice : String) (L num : Int) (mu cutOff steep : ℝ),
      SameCall (E := sc.E) (E' := sc'.E) σ Eq
        (GridFilter.subcomponentExtraction lib sc st f component pChoice L num mu cutOff steep)
        (GridFilter.subcomponentExtraction lib sc' st' f' component pChoice L num mu cutOff steep) := by
    intro st st' hst component pChoice L num mu cutOff steep
    refine hst.record ?_
    unfold GridFilter.extractionDesign
    refine SameOutcome.bind (pMatrix_same r h hb pChoice) fun P P' ⟨h1, h2, h3⟩ => ?_
    refine SameOutcome.bind (eig_same lib (n := sc.E) (n' := sc'.E) σ h1 h2 h3 _) ?_
    rintro ⟨U, v⟩ ⟨U', v'⟩ ⟨-, w, w', e1, e2, hw⟩
    rw [sampled_same (E := sc.E) (E' := sc'.E) h3]
    refine SameOutcome.bind (SameOutcome.refl _) ?_
    rintro s _ rfl
    refine SameOutcome.bind (signal_same r h hb lib hf component) fun t t' ht => ?_
    exact applyF_same (E := sc.E) (E' := sc'.E) lib σ h3 hf ht e1 e2 hw _ L
  refine ⟨?_, ext st st' hst component pChoice L num mu cutOff steep, ?_⟩
  · refine hst.record ?_
    unfold GridFilter.denoiseDesign
    refine SameOutcome.bind (pMatrix_same r h hb pChoice) fun P P' ⟨h1, h2, h3⟩ => ?_
    refine SameOutcome.bind (eig_same lib (n := sc.E) (n' := sc'.E) σ h1 h2 h3 _) ?_
    rintro ⟨U, v⟩ ⟨U', v'⟩ ⟨-, w, w', e1, e2, hw⟩
    have hN : ((sc'.E : ℕ) : Int) = ((sc.E : ℕ) : Int) := by rw [numE σ]
    rw [sampled_same (E := sc.E) (E' := sc'.E) h3]
    refine SameOutcome.bind (R := Eq) (by rw [hN]; exact SameOutcome.refl _) ?_
    rintro s _ rfl
    exact applyF_same (E := sc.E) (E' := sc'.E) lib σ h3 hf ht e1 e2 hw _ L
  · exact general_same (E := sc.E) (E' := sc'.E) hf L1 L2 (fun _ _ hs => ext _ _ hs _ _ _ _ _ _ _)
      (fun _ _ hs => ext _ _ hs _ _ _ _ _ _ _) hst

/-- one pass of edge-flow denoising with the same results -/
private def SamePass (σ : Fin E ≃ Fin E') (a : MuPass E) (a' : MuPass E') : Prop :=
  (∀ i j, a'.H (σ i) (σ j) = a.H i j) ∧ (∀ k, a'.fEst (σ k) = a.fEst k) ∧
    List.ofFn a.resp = List.ofFn a'.resp ∧ a.err = a'.err

private theorem muPass_same (σ : Fin E ≃ Fin E') {P U : Matrix (Fin E) (Fin E) ℝ}
    {P' U' : Matrix (Fin E') (Fin E') ℝ} (hP : ∀ i j, P' (σ i) (σ j) = P i j) {f t : Fin E → ℝ} {f' t' : Fin E' → ℝ}
    (hf : ∀ k, f' (σ k) = f k) (ht : ∀ k, t' (σ k) = t k) {w : Fin E → ℝ} {w' : Fin E' → ℝ} (h : IsEig P U w)
    (h' : IsEig P' U' w') (hw : List.ofFn w = List.ofFn w') (mu : ℝ) :
    SameOutcome (SamePass σ) (muPass P U f t mu) (muPass P' U' f' t' mu) := by
  have hM : ∀ i j, (1 + mu • P') (σ i) (σ j) = (1 + mu • P) i j := by
    intro i j
    rw [Matrix.add_apply, Matrix.add_apply, one_same, Matrix.smul_apply, Matrix.smul_apply, hP]
  have hdet : (1 + mu • P').det = (1 + mu • P).det := by
    rw [mat_eq hM]
    exact Matrix.det_submatrix_equiv_self σ.symm _
  unfold muPass npInv
  rw [hdet]
  split_ifs with h0
  · rfl
  have hI : ∀ i j, (1 + mu • P')⁻¹ (σ i) (σ j) = (1 + mu • P)⁻¹ i j := by
    intro i j
    rw [mat_eq hM, Matrix.inv_submatrix_equiv]
    simp
  have diag : ∀ {n : ℕ} {Q V : Matrix (Fin n) (Fin n) ℝ} {v : Fin n → ℝ}, IsEig Q V v → (1 + mu • Q).det ≠ 0 →
      (fun k => (V.transpose * (1 + mu • Q)⁻¹ * V) k k) = fun k => (1 + mu * v k)⁻¹ := by
    intro n Q V v hV hd
    funext k
    have h1 : (1 + mu • Q) * V = V * diagonal (fun i => 1 + mu * v i) := by
      rw [add_mul, one_mul, smul_mul_assoc, hV.eig]
      ext i j
      simp [Matrix.mul_diagonal]; ring
    have h2 : V.transpose * (1 + mu • Q)⁻¹ * V * diagonal (fun i => 1 + mu * v i) = 1 := by
      rw [mul_assoc, ← h1, ← mul_assoc, mul_assoc V.transpose, Matrix.nonsing_inv_mul _ (isUnit_iff_ne_zero.2 hd),
        mul_one, hV.orth]
    have h3 := congrFun (congrFun h2 k) k
    rw [Matrix.mul_diagonal, Matrix.one_apply_eq] at h3
    exact eq_inv_of_mul_eq_one_left h3
  refine ⟨hI, mulVec_same hI hf, ?_, (nrmse_same (mulVec_same hI hf) ht).symm⟩
  have hl := congrArg (List.map fun x => (1 + mu * x)⁻¹) hw
  rw [List.map_ofFn, List.map_ofFn] at hl
  simp only
  rw [diag h h0, diag h' (hdet ▸ h0)]
  exact hl

private theorem mapM_same {R : β → γ → Prop} {k : α → Py β} {k' : α → Py γ} (l : List α)
    (h : ∀ a, SameOutcome R (k a) (k' a)) : SameOutcome (List.Forall₂ R) (l.mapM k) (l.mapM k') := by
  induction l with
  | nil => exact .nil
  | cons a l ih =>
    rw [List.mapM_cons, List.mapM_cons]
    exact (h a).bind fun b c hbc => ih.bind fun bs cs hs => .cons hbc hs

/-- C131: edge-flow denoising. -/
theorem C131_edge_flow (r : Renumbered sc sc' π σ τ) (h : sc.OnSimpleGraph) (hb : sc'.Built) (lib : NumLib)
    {f t : Fin sc.E → ℝ} {f' t' : Fin sc'.E → ℝ} (hf : ∀ k, f' (σ k) = f k) (ht : ∀ k, t' (σ k) = t k)
    {st : FilterSt sc.E} {st' : FilterSt sc'.E} (hst : SameState (E := sc.E) (E' := sc'.E) σ st st')
    (pChoice : String) (muVals : List ℝ) :
    SameCall (E := sc.E) (E' := sc'.E) σ Eq (edgeFlowDenoise lib sc st f t pChoice muVals)
      (edgeFlowDenoise lib sc' st' f' t' pChoice muVals) := by
  have key : SameOutcome (SameDesign (E := sc.E) (E' := sc'.E) σ) (edgeFlowDesign lib sc f t pChoice muVals)
      (edgeFlowDesign lib sc' f' t' pChoice muVals) := by
    unfold edgeFlowDesign
    refine SameOutcome.bind (pMatrix_same r h hb pChoice) fun P P' ⟨h1, h2, h3⟩ => ?_
    refine SameOutcome.bind (eig_same lib (n := sc.E) (n' := sc'.E) σ h1 h2 h3 _) ?_
    rintro ⟨U, v⟩ ⟨U', v'⟩ ⟨-, w, w', e1, e2, hw⟩
    refine SameOutcome.bind (mapM_same muVals fun mu =>
      muPass_same (E := sc.E) (E' := sc'.E) σ h3 hf ht e1 e2 hw mu) fun ps ps' hps => ?_
    have h4 : ps.map (fun p => List.ofFn p.resp) = ps'.map (fun p => List.ofFn p.resp) := by
      induction hps with
      | nil => rfl
      | cons a _ ih => rw [List.map_cons, List.map_cons, a.2.2.1, ih]
    have h5 : ps.map (·.err) = ps'.map (·.err) := by
      clear h4
      induction hps with
      | nil => rfl
      | cons a _ ih => rw [List.map_cons, List.map_cons, a.2.2.2, ih]
    have h6 : (ps.getLast? = none ∧ ps'.getLast? = none) ∨ ∃ p p', ps.getLast? = some p ∧ ps'.getLast? = some p' ∧
        SamePass (E := sc.E) (E' := sc'.E) σ p p' := by
      clear h4 h5
      induction hps with
      | nil => exact .inl ⟨rfl, rfl⟩
      | @cons a b l l' hab hl ih =>
        rw [List.getLast?_cons, List.getLast?_cons]
        right
        rcases ih with ⟨i1, i2⟩ | ⟨p, p', i1, i2, i3⟩
        · rw [i1, i2]; exact ⟨_, _, rfl, rfl, hab⟩
        · rw [i1, i2]; exact ⟨_, _, rfl, rfl, i3⟩
    rcases h6 with ⟨i1, i2⟩ | ⟨p, p', i1, i2, i3⟩
    · simp only [i1, i2]; rfl
    · simp only [i1, i2]
      refine ⟨i3.1, i3.2.1, ?_, h5, rfl⟩
      change (ps.map (·.resp)).map List.ofFn = (ps'.map (·.resp)).map List.ofFn
      rw [List.map_map, List.map_map]
      exact h4
  unfold edgeFlowDenoise
  cases hd : edgeFlowDesign lib sc f t pChoice muVals <;> cases hd' : edgeFlowDesign lib sc' f' t' pChoice muVals <;>
    rw [hd, hd'] at key
  · exact ⟨key, hst⟩
  · exact key.elim
  · exact key.elim
  · exact ⟨rfl, hst.set key⟩

/-- C131: the points of the plotted frequency response are the same. -/
theorem C131_plot (r : Renumbered sc sc' π σ τ) (h : sc.OnSimpleGraph) (hb : sc'.Built) (lib : NumLib)
    {st : FilterSt sc.E} {st' : FilterSt sc'.E} (hst : SameState (E := sc.E) (E' := sc'.E) σ st st')
    (pChoice : String) : SameOutcome Eq (edgeFlowPlotData lib sc st pChoice) (edgeFlowPlotData lib sc' st' pChoice) := by
  unfold edgeFlowPlotData
  rcases hst.history.get "frequency_responses" with ⟨g1, g2⟩ | ⟨v, v', g1, g2, g3⟩
  · rw [g1, g2]; rfl
  rw [g1, g2]
  cases v <;> cases v' <;> first
    | exact g3.elim
    | rfl
    | skip
  rename_i r1 r2
  have hr : r1.map List.ofFn = r2.map List.ofFn := g3
  refine SameOutcome.bind (pMatrix_same r h hb pChoice) fun P P' ⟨h1, h2, h3⟩ => ?_
  refine SameOutcome.bind (eig_same lib (n := sc.E) (n' := sc'.E) σ h1 h2 h3 _) ?_
  rintro ⟨U, v⟩ ⟨U', v'⟩ ⟨hv, -⟩
  have hl := congrArg List.getLast? hr
  rw [List.getLast?_map, List.getLast?_map] at hl
  have hz : ∀ {n : ℕ} (a b : Fin n → ℝ), List.ofFn (fun k => (a k, b k)) = (List.ofFn a).zip (List.ofFn b) := by
    intro n a b
    apply List.ext_getElem <;> simp
  cases q1 : r1.getLast? <;> cases q2 : r2.getLast? <;> rw [q1, q2] at hl
  · rfl
  · simp at hl
  · simp at hl
  · simp only [Option.map_some, Option.some.injEq] at hl
    simp only [hz] at hv ⊢
    change _ = _
    rw [hl, hv]

/-- triangles keep their orientation when nodes are renumbered -/
theorem Renumbered.wellFormed (r : Renumbered sc sc' π σ τ) (hw : sc.WellFormed) (h : sc.OnSimpleGraph)
    (hb : sc'.Built) : sc'.WellFormed := by
  have hs := r.reoriented.onSimpleGraph h hb
  refine ⟨hb, hs.inRange, hs.noLoops, fun t' ht' => ?_⟩
  obtain ⟨n, hn, rfl⟩ := List.getElem_of_mem ht'
  obtain ⟨t, ht⟩ := τ.surjective ⟨n, hn⟩
  obtain ⟨i, j, l, hijl⟩ := tri_fin h t
  have h1 := r.triangle t i j l hijl
  have h2 : ∀ q : Fin sc'.triangles.length, q = ⟨n, hn⟩ → sc'.triangles[q] = sc'.triangles[n] := by
    rintro q rfl; rfl
  have edge : ∀ a b : Fin sc.nodes.length, (((a : ℕ) : Int), ((b : ℕ) : Int)) ∈ sc.edges →
      (((π a : ℕ) : Int), ((π b : ℕ) : Int)) ∈ sc'.edges := by
    intro a b hab
    obtain ⟨k, hk, hk'⟩ := List.getElem_of_mem hab
    rw [← r.edge ⟨k, hk⟩ a b hk']
    exact List.getElem_mem _
  obtain ⟨x, y, z, h3, h4, h5, h6⟩ := hw.oriented sc.triangles[t] (List.getElem_mem _)
  rw [hijl] at h3
  injection h3 with q1 h3
  injection h3 with q2 h3
  injection h3 with q3 h3
  subst q1 q2 q3
  exact ⟨_, _, _, (h2 _ ht) ▸ h1, edge _ _ h4, edge _ _ h5, edge _ _ h6⟩

/-- C131: the least-squares filter of the first type. -/
theorem C131_ls_type_one (r : Renumbered sc sc' π σ τ) (h : sc.OnSimpleGraph) (hw : sc.WellFormed) (hb : sc'.Built)
    (lib : NumLib)
    {f : Fin sc.E → ℝ} {f' : Fin sc'.E → ℝ} (hf : ∀ k, f' (σ k) = f k) {st : FilterSt sc.E} {st' : FilterSt sc'.E}
    (hst : SameState (E := sc.E) (E' := sc'.E) σ st st') (component : String) (L : Int) :
    SameCall (E := sc.E) (E' := sc'.E) σ Eq (LSFilter.typeOne lib sc st f component L)
      (LSFilter.typeOne lib sc' st' f' component L) := by
  have hw' := r.wellFormed hw h hb
  obtain ⟨-, -, -, l3, -⟩ := C99_laplacians r h hb
  refine hst.reset.record ?_
  unfold LSFilter.typeOneDesign
  have hN := numE σ
  rcases Nat.eq_zero_or_pos sc.E with h0 | h0
  · simp only [getEigendecomposition, h0, hN ▸ h0, bind, Except.bind]
    rfl
  have h0' : 0 < sc'.E := hN ▸ h0
  have hv := eigh_renumber lib (n := sc.E) (n' := sc'.E) (symmPSD_L1 sc).1 σ l3
  have hv2 := congrArg (List.map fun x => if |x| < machineEps then 0 else x) hv
  rw [List.map_ofFn, List.map_ofFn] at hv2
  simp only [Function.comp_def] at hv2
  rw [getEigendecomposition_dense lib h0, getEigendecomposition_dense lib h0']
  simp only [bind, Except.bind]
  refine SameOutcome.bind (signal_same r h hb lib hf component) fun t t' ht => ?_
  by_cases hc : component = "harmonic" ∨ component = "curl" ∨ component = "gradient"
  · obtain ⟨eh, ec, eg, hp⟩ := EigParts.exists lib sc (1 / 1000) h0
    obtain ⟨eh', hh', nh, vh⟩ := (C99_spectrum r h hb lib).2 _ _ _ hp.harm
    obtain ⟨ec', hc', nc, vc⟩ := (C99_spectrum r h hb lib).2 _ _ _ hp.curl
    obtain ⟨eg', hg', ng, vg⟩ := (C99_spectrum r h hb lib).2 _ _ _ hp.grad
    obtain ⟨al, ha, la, ma⟩ := coeffs_moment hw hp component hc
    obtain ⟨al', ha', la', ma'⟩ := coeffs_moment hw' ⟨hh', hc', hg'⟩ component hc
    rw [ha, ha']
    simp only
    rw [hv2]
    refine applyFilter_renumber (E := sc.E) (E' := sc'.E) lib σ l3 hf ht (lib.isEig (symmPSD_L1 sc))
      (lib.isEig (symmPSD_L1 sc')) hv.symm _ _ _ L (by rw [la, la', hN]) fun k => ?_
    have conv : ∀ {n : ℕ} (w : Fin n → ℝ) (l b : List ℝ), l = List.ofFn w → (∑ i : Fin l.length, l[i] ^ k * b[(i : ℕ)]?.getD 0) =
        ((List.finRange n).map fun i : Fin n => w i ^ k * b[(i : ℕ)]?.getD 0).sum := by
      rintro n w l b rfl
      rw [← List.ofFn_eq_map, List.sum_ofFn]
      refine Fintype.sum_equiv (finCongr (by simp)) _ _ fun i => ?_
      simp only [Fin.getElem_fin, List.getElem_ofFn, finCongr_apply, Fin.val_cast]
      rfl
    have hall : allVals eh' ec' eg' = allVals eh ec eg := by
      unfold allVals; rw [vh, vc, vg]
    have hR : List.range sc'.E = List.range sc.E := by rw [hN]
    rw [conv _ _ al rfl, conv _ _ al' hv2.symm, ma, ma', hall, nh, nc, hR]
  · push Not at hc
    rw [C49_names component hc.1 hc.2.1 hc.2.2, C49_names component hc.1 hc.2.1 hc.2.2]
    rfl

private abbrev SameMat (σ : Fin E ≃ Fin E') (M : Matrix (Fin E) (Fin E) ℝ) (M' : Matrix (Fin E') (Fin E') ℝ) : Prop :=
  ∀ i j, M' (σ i) (σ j) = M i j

private theorem slot_same {σ : Fin E ≃ Fin E'} {P : Matrix (Fin E) (Fin E) ℝ} {P' : Matrix (Fin E') (Fin E') ℝ}
    (hP : SameMat σ P P') (alpha : ℝ) (k : ℕ) : SameMat σ (Cheb.slot P alpha k) (Cheb.slot P' alpha k) := by
  have hq : ∀ c : ℝ, SameMat σ (c • (P - alpha • (1 : Matrix (Fin E) (Fin E) ℝ)))
      (c • (P' - alpha • (1 : Matrix (Fin E') (Fin E') ℝ))) := by
    intro c i j
    simp only [Matrix.smul_apply, Matrix.sub_apply, hP i j, one_same]
  have both : SameMat σ (Cheb.slot P alpha k) (Cheb.slot P' alpha k) ∧
      SameMat σ (Cheb.slot P alpha (k + 1)) (Cheb.slot P' alpha (k + 1)) := by
    induction k with
    | zero => exact ⟨one_same σ, hq _⟩
    | succ k ih =>
      refine ⟨ih.2, fun i j => ?_⟩
      simp only [Cheb.slot, Matrix.sub_apply, ih.1 i j, Matrix.mul_apply]
      congr 1
      exact (Fintype.sum_equiv σ _ _ fun l => by rw [hq _ i l, ih.2 l j]).symm
  exact both.1

private theorem sum_same {σ : Fin E ≃ Fin E'} (l : List ℕ) {g : ℕ → Matrix (Fin E) (Fin E) ℝ}
    {g' : ℕ → Matrix (Fin E') (Fin E') ℝ} (h : ∀ k, SameMat σ (g k) (g' k)) :
    SameMat σ (l.map g).sum (l.map g').sum := by
  intro i j
  induction l with
  | nil => rfl
  | cons a l ih => simp only [List.map_cons, List.sum_cons, Matrix.add_apply, h a i j, ih]

private theorem approx_same {σ : Fin E ≃ Fin E'} {P : Matrix (Fin E) (Fin E) ℝ} {P' : Matrix (Fin E') (Fin E') ℝ}
    (hP : SameMat σ P P') (co : List ℝ) (alpha : ℝ) (order : ℕ) :
    SameOutcome (SameMat σ) (Cheb.approximate P co alpha order) (Cheb.approximate P' co alpha order) := by
  have hs : ∀ (c : ℝ) (K k : ℕ), SameMat σ (c • (if k < K then Cheb.slot P alpha k else 0))
      (c • (if k < K then Cheb.slot P' alpha k else 0)) := by
    intro c K k i j
    split_ifs
    · simp only [Matrix.smul_apply, slot_same hP alpha k i j]
    · simp
  unfold Cheb.approximate
  simp only
  split_ifs
  · rfl
  · exact sum_same _ fun k => hs _ _ k
  · exact sum_same _ fun k => hs _ _ k
  · refine sum_same _ fun k i j => ?_
    simp only [Matrix.smul_apply, Cheb.slot, one_same]
  · refine sum_same _ fun k i j => ?_
    simp
  · rfl

private theorem fold_same {σ : Fin E ≃ Fin E'} {g : ℕ → Py (Matrix (Fin E) (Fin E) ℝ)}
    {g' : ℕ → Py (Matrix (Fin E') (Fin E') ℝ)} (h : ∀ k, SameOutcome (SameMat σ) (g k) (g' k)) (l : List ℕ) :
    ∀ (H : List (Matrix (Fin E) (Fin E) ℝ)) (H' : List (Matrix (Fin E') (Fin E') ℝ)), List.Forall₂ (SameMat σ) H H' →
    SameOutcome (List.Forall₂ (SameMat σ))
      (l.foldlM (fun H k => do let M ← g k; pure (Cheb.assignFrom H k M)) H)
      (l.foldlM (fun H k => do let M ← g' k; pure (Cheb.assignFrom H k M)) H') := by
  induction l with
  | nil => exact fun H H' hH => hH
  | cons a l ih =>
    intro H H' hH
    rw [List.foldlM_cons, List.foldlM_cons]
    refine SameOutcome.bind ((h a).bind (S := List.Forall₂ (SameMat σ)) fun M M' hM => ?_) fun _ _ h1 => ih _ _ h1
    change List.Forall₂ (SameMat σ) (Cheb.assignFrom H a M) (Cheb.assignFrom H' a M')
    unfold Cheb.assignFrom
    rw [hH.length_eq]
    generalize (if a = 0 then H'.length - 1 else a - 1) = s
    clear ih
    simp only
    induction hH generalizing s with
    | nil => simp
    | cons hp _ ih2 =>
      rw [List.mapIdx_cons, List.mapIdx_cons]
      refine .cons ?_ ?_
      · split_ifs
        · exact hM
        · exact hp
      · have := ih2 (s - 1)
        simpa only [Nat.sub_le_iff_le_add] using this

/-- C131: the Chebyshev filters: filters of every order, their estimates and the errors of the estimates.  (The
frequency responses and the filter errors refer to the eigenvectors, see C129.) -/
theorem C131_chebyshev (r : Renumbered sc sc' π σ τ) (h : sc.OnSimpleGraph) (hb : sc'.Built) (lib : NumLib)
    (series : ChebSeries) {f : Fin sc.E → ℝ} {f' : Fin sc'.E → ℝ} (hf : ∀ k, f' (σ k) = f k)
    (pChoice component : String) (L : ℕ) (n : Option ℕ) (cutOff steep : ℝ) (d : Design sc.E)
    (hd : Cheb.applyDesign lib series sc f pChoice component L n cutOff steep = .ok d) :
    ∃ d', Cheb.applyDesign lib series sc' f' pChoice component L n cutOff steep = .ok d' ∧
      ∃ (H : List (Matrix (Fin sc.E) (Fin sc.E) ℝ)) (H' : List (Matrix (Fin sc'.E) (Fin sc'.E) ℝ))
        (e : List (Option ℝ)), d.filter = .mats H ∧ d'.filter = .mats H' ∧
        List.Forall₂ (fun M M' => ∀ i j, M' (σ i) (σ j) = M i j) H H' ∧
        d.fEstimated = .rows (H.map fun M => M.mulVec f) ∧ d'.fEstimated = .rows (H'.map fun M => M.mulVec f') ∧
        List.Forall₂ (fun (g : Fin sc.E → ℝ) (g' : Fin sc'.E → ℝ) => ∀ k, g' (σ k) = g k)
          (H.map fun M => M.mulVec f) (H'.map fun M => M.mulVec f') ∧
        d.extractedComponentError = .errs e ∧ d'.extractedComponentError = .errs e := by
  have hN := numE σ
  unfold Cheb.applyDesign at hd ⊢
  simp only [bind, Except.bind] at hd ⊢
  obtain ⟨-, -, -, l3, -⟩ := C99_laplacians r h hb
  have s1 := eig_same lib (n := sc.E) (n' := sc'.E) σ (symmPSD_L1 sc) (symmPSD_L1 sc') l3 machineEps
  cases c1 : getEigendecomposition lib (.ndarray sc.L1) with
  | error x => rw [c1] at hd; cases hd
  | ok x =>
  cases c1' : getEigendecomposition lib (.ndarray sc'.L1) with
  | error x => rw [c1, c1'] at s1; exact s1.elim
  | ok x' =>
  rw [c1] at hd
  simp only at hd ⊢
  have s2 := pMatrix_same r h hb pChoice
  cases c2 : sc.getPMatrix pChoice with
  | error x => rw [c2] at hd; cases hd
  | ok P =>
  cases c2' : sc'.getPMatrix pChoice with
  | error x => rw [c2, c2'] at s2; exact s2.elim
  | ok P' =>
  rw [c2, c2'] at s2
  obtain ⟨p1, p2, p3⟩ := s2
  rw [c2] at hd
  simp only at hd ⊢
  have s3 := eig_same lib (n := sc.E) (n' := sc'.E) σ p1 p2 p3 machineEps
  cases c3 : getEigendecomposition lib (.ndarray P) with
  | error x => rw [c3] at hd; cases hd
  | ok y =>
  cases c3' : getEigendecomposition lib (.ndarray P') with
  | error x => rw [c3, c3'] at s3; exact s3.elim
  | ok y' =>
  rw [c3] at hd
  simp only at hd ⊢
  have s4 := signal_same r h hb lib hf component
  cases c4 : sc.getTrueSignal lib f component with
  | error x => rw [c4] at hd; cases hd
  | ok t =>
  cases c4' : sc'.getTrueSignal lib f' component with
  | error x => rw [c4, c4'] at s4; exact s4.elim
  | ok t' =>
  rw [c4, c4'] at s4
  rw [c4] at hd
  simp only at hd ⊢
  cases c5 : sc.getComponentCoefficients lib component with
  | error x => rw [c5] at hd; cases hd
  | ok al =>
  obtain ⟨al', c5', hlen⟩ := mask_transfer lib lib sc sc' hN
    (fun c e he => ((C99_spectrum r h hb lib).2 c _ e he).imp fun _ hx => ⟨hx.1, hx.2.2.symm⟩) component al c5
  rw [c5] at hd
  rw [c5']
  simp only at hd ⊢
  have hα : Cheb.getAlpha sc' pChoice = Cheb.getAlpha sc pChoice := by
    unfold Cheb.getAlpha
    rw [c2, c2']
    simp only [bind, Except.bind]
    rw [lambdaMax_same (E := sc.E) (E' := sc'.E) p3]
  rw [hα]
  cases c6 : Cheb.getAlpha sc pChoice with
  | error x => rw [c6] at hd; cases hd
  | ok p =>
  rw [c6] at hd
  simp only at hd ⊢
  cases c7 : series (if n.getD 0 = 0 then L else n.getD 0) 0 p.2 cutOff steep with
  | error x => rw [c7] at hd; cases hd
  | ok co =>
  rw [c7] at hd
  simp only at hd ⊢
  have hI : ∀ (s : SC ℝ) (a : List ℝ) (z : Matrix (Fin s.E) (Fin s.E) ℝ × (Fin s.E → ℝ)),
      getEigendecomposition lib (.ndarray s.L1) = .ok z → Cheb.getIdealFrequency lib s a =
        if a.length ≠ s.E then .error .valueError
        else .ok (z.1 * diagonal (fun i : Fin s.E => a[(i : ℕ)]?.getD 0) * z.1.transpose) := by
    intro s a z hz
    have hL1 : s.getPMatrix "L1" = .ok s.L1 := by simp [SC.getPMatrix]
    unfold Cheb.getIdealFrequency
    simp only [hL1, hz, bind, Except.bind, pure, Except.pure]
  rw [hI sc al x c1] at hd
  rw [hI sc' al' x' c1']
  by_cases c8 : al.length ≠ sc.E
  · rw [if_pos c8] at hd; cases hd
  rw [if_neg c8] at hd
  rw [if_neg (by rw [hlen, ← hN]; exact c8)]
  simp only at hd ⊢
  have s9 : SameOutcome (List.Forall₂ (SameMat (E := sc.E) (E' := sc'.E) σ)) (Cheb.frequencyApprox sc pChoice co p.1 L)
      (Cheb.frequencyApprox sc' pChoice co p.1 L) := by
    unfold Cheb.frequencyApprox
    rw [c2, c2']
    refine fold_same (E := sc.E) (E' := sc'.E) (fun k => approx_same p3 co p.1 (k + 1)) _ _ _ ?_
    rw [List.forall₂_iff_get]
    refine ⟨by simp, fun i h1 h2 a b => by simp⟩
  cases c9 : Cheb.frequencyApprox sc pChoice co p.1 L with
  | error x => rw [c9] at hd; cases hd
  | ok H =>
  cases c9' : Cheb.frequencyApprox sc' pChoice co p.1 L with
  | error x => rw [c9, c9'] at s9; exact s9.elim
  | ok H' =>
  rw [c9, c9'] at s9
  rw [c9] at hd
  simp only at hd ⊢
  by_cases c10 : sc.E = 1 ∧ 1 ≤ L
  · rw [if_pos c10] at hd; cases hd
  rw [if_neg c10] at hd
  rw [if_neg (by rw [← hN]; exact c10)]
  simp only [pure, Except.pure] at hd ⊢
  have hd2 := (Except.ok.inj hd).symm
  subst hd2
  refine ⟨_, rfl, H, H', H.map fun M => calculateErrorNRMSE (M.mulVec f) t, rfl, rfl, s9, rfl, rfl, ?_, rfl, ?_⟩
  · rw [List.forall₂_map_left_iff, List.forall₂_map_right_iff]
    exact s9.imp fun M M' hM k => mulVec_same (E := sc.E) (E' := sc'.E) hM hf k
  · simp only [HVal.errs.injEq]
    clear c9 c9' hd
    have s9' : List.Forall₂ (SameMat (E := sc.E) (E' := sc'.E) σ) H H' := s9
    clear s9
    induction s9' with
    | nil => rfl
    | cons hM _ ih =>
      rw [List.map_cons, List.map_cons, ih, nrmse_same (E := sc.E) (E' := sc'.E)
        (fun k => mulVec_same (E := sc.E) (E' := sc'.E) hM hf k) s4]

/-! ## The hypotheses can be met -/

/-- new filter objects are in the same state; the sample complex and its mirror image are renumbered -/
example : ∃ (sc sc' : SC ℝ) (π : Fin sc.nodes.length ≃ Fin sc'.nodes.length)
    (σ : Fin sc.edges.length ≃ Fin sc'.edges.length) (τ : Fin sc.triangles.length ≃ Fin sc'.triangles.length)
    (f : Fin sc.E → ℝ) (f' : Fin sc'.E → ℝ), Renumbered sc sc' π σ τ ∧ sc.OnSimpleGraph ∧ sc'.Built ∧
    sc.edges ≠ sc'.edges ∧ (∀ k, f' (σ k) = f k) ∧ f ≠ 0 ∧ ∀ lib : NumLib,
      SameCall (E := sc.E) (E' := sc'.E) σ (SameFlows (E := sc.E) (E' := sc'.E) σ)
        (LSFilter.generalFilter lib sc (initFilter _) f 2 2) (LSFilter.generalFilter lib sc' (initFilter _) f' 2 2) := by
  obtain ⟨sc, sc', π, σ, τ, r, hs, hb, e1, e2⟩ := exists_renumbered
  have hlen : 0 < sc.edges.length := by rw [e1]; decide
  refine ⟨sc, sc', π, σ, τ, fun _ => 1, fun _ => 1, r, hs, hb, by rw [e1, e2]; decide, fun _ => rfl, ?_, fun lib => ?_⟩
  · intro h0
    have := congrFun h0 ⟨0, hlen⟩
    simp at this
  · exact C131_ls_general (f := fun _ => 1) (f' := fun _ => 1) r hs hb lib (fun _ => rfl)
      (SameState.init (E := sc.E) (E' := sc'.E) σ) 2 2 (1 / 1000)

/-- the filter of the first type: a filled and a hollow triangle with the edges listed backwards -/
example : ∃ (sc' : SC ℝ) (π : Fin twoTri.nodes.length ≃ Fin sc'.nodes.length)
    (σ : Fin twoTri.edges.length ≃ Fin sc'.edges.length) (τ : Fin twoTri.triangles.length ≃ Fin sc'.triangles.length),
    Renumbered twoTri sc' π σ τ ∧ twoTri.OnSimpleGraph ∧ twoTri.WellFormed ∧ sc'.Built ∧
    sc'.edges ≠ twoTri.edges := by
  obtain ⟨sc', h, hw⟩ := SC.exists_simple ℝ [0, 1, 2, 3, 4, 5] [(4, 5), (3, 5), (3, 4), (1, 2), (0, 2), (0, 1)]
    [[0, 1, 2]] [] [] (by decide) (by decide) (by decide) (by
      intro t ht
      simp only [List.mem_cons, List.not_mem_nil, or_false] at ht
      subst ht
      exact ⟨0, 1, 2, rfl, by decide, by decide, by decide⟩)
  obtain ⟨h1, h2, h3, -, -, -⟩ := SC.init_ok h
  obtain ⟨nodes, edges, triangles, nf, ef, B1, B2⟩ := sc'
  simp only at h1 h2 h3
  subst h1 h2 h3
  refine ⟨⟨[0, 1, 2, 3, 4, 5], [(4, 5), (3, 5), (3, 4), (1, 2), (0, 2), (0, 1)], [[0, 1, 2]], nf, ef, B1, B2⟩,
    Equiv.refl (Fin 6), (Fin.revPerm : Fin 6 ≃ Fin 6), Equiv.refl (Fin 1), ⟨?_, ?_⟩,
    ⟨twoTri_wellFormed.built, twoTri_wellFormed.inRange, twoTri_wellFormed.noLoops, ?_⟩, twoTri_wellFormed,
    hw.built, ?_⟩
  · change ∀ (k : Fin 6) (i j : Fin 6), ([(0, 1), (0, 2), (1, 2), (3, 4), (3, 5), (4, 5)] : List Edge)[k] =
      (((i : ℕ) : Int), ((j : ℕ) : Int)) →
      ([(4, 5), (3, 5), (3, 4), (1, 2), (0, 2), (0, 1)] : List Edge)[Fin.rev k] = (((i : ℕ) : Int), ((j : ℕ) : Int))
    decide +kernel
  · exact fun _ _ _ _ h => h
  · change NoRepeats [(0, 1), (0, 2), (1, 2), (3, 4), (3, 5), (4, 5)]
    decide
  · change ([(4, 5), (3, 5), (3, 4), (1, 2), (0, 2), (0, 1)] : List Edge) ≠ [(0, 1), (0, 2), (1, 2), (3, 4), (3, 5), (4, 5)]
    decide

end Pytspl
