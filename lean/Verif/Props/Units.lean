import Verif.Props.FilterEquivariance
import Verif.Props.Hodge
import Verif.Props.TrendFilter
import Verif.Props.GpTrainer

/-!
# C154, C155: flows in another unit, and what a designed filter depends on
-/

namespace Pytspl

open Matrix

variable {E : ℕ} {α β γ δ : Type}

/-! ## The specification -/

/-- A history entry with `p` applied to every flow in it and `q` to every error in it.  `which` are the keys whose arrays
are flows. -/
def mapEntry (p : (Fin E → ℝ) → Fin E → ℝ) (q : Option ℝ → Option ℝ) (which : List String) (key : String) :
    HVal E → HVal E
  | .vec v => if key ∈ which then .vec (p v) else .vec v
  | .rows r => if key ∈ which then .rows (r.map p) else .rows r
  | .errs e => if key = "extracted_component_error" then .errs (e.map q) else .errs e
  | v => v

/-- all dictionaries of a filter object, with `p` applied to the flows and `q` to the errors -/
def FilterSt.mapFlows (p : (Fin E → ℝ) → Fin E → ℝ) (q : Option ℝ → Option ℝ) (which : List String) (st : FilterSt E) :
    FilterSt E :=
  ⟨st.heap.map fun d => d.map fun kv => (kv.1, mapEntry p q which kv.1 kv.2), st.cur⟩

/-- A filter object whose stored estimates are in a unit `c` times smaller (so the numbers are `c` times as large);
everything else as before. -/
def FilterSt.inUnit (c : ℝ) (which : List String) (st : FilterSt E) : FilterSt E :=
  st.mapFlows (fun v => c • v) id which

/-- A filter object with its stored estimates and their errors made unrecognisable. -/
def FilterSt.forgetFlows (which : List String) (st : FilterSt E) : FilterSt E :=
  st.mapFlows (fun _ => 0) (fun _ => none) which

/-- the key of the estimates of the least-squares, grid and edge-flow filters -/
def estimateKeys : List String := ["f_estimated"]

/-- the Chebyshev filter also keeps a flow under `frequency_responses` -/
def chebyshevKeys : List String := ["f_estimated", "frequency_responses"]

/-! ## Related states -/

section related
variable (p p' : (Fin E → ℝ) → Fin E → ℝ) (q q' : Option ℝ → Option ℝ) (w : List String)

private def Rel (st st' : FilterSt E) : Prop := st.mapFlows p q w = st'.mapFlows p' q' w

variable {p p' q q' w}

private theorem mapEntry_id (key : String) (v : HVal E) : mapEntry id id w key v = v := by
  cases v <;> simp [mapEntry]

private theorem mapFlows_id (st : FilterSt E) : st.mapFlows id id w = st := by
  unfold FilterSt.mapFlows
  simp only [mapEntry_id, Prod.mk.eta, List.map_id']

private theorem set_map (d : HDict E) (key : String) (v : HVal E) :
    (d.set key v).map (fun kv => (kv.1, mapEntry p q w kv.1 kv.2)) =
      Dict.set (d.map fun kv => (kv.1, mapEntry p q w kv.1 kv.2)) key (mapEntry p q w key v) := by
  induction d with
  | nil => rfl
  | cons a d ih =>
    obtain ⟨k, x⟩ := a
    rw [List.map_cons]
    unfold Dict.set
    split_ifs with h
    · subst h; rfl
    · rw [List.map_cons, ih]

private theorem get_map (d : HDict E) (key : String) :
    Dict.get? (d.map fun kv => (kv.1, mapEntry p q w kv.1 kv.2)) key = (d.get? key).map (mapEntry p q w key) := by
  induction d with
  | nil => rfl
  | cons a d ih =>
    obtain ⟨k, x⟩ := a
    rw [List.map_cons]
    unfold Dict.get?
    split_ifs with h
    · subst h; rfl
    · exact ih

private theorem mapFlows_setKey (st : FilterSt E) (a : ℕ) (key : String) (v : HVal E) :
    (st.setKey a key v).mapFlows p q w = (st.mapFlows p q w).setKey a key (mapEntry p q w key v) := by
  unfold FilterSt.setKey FilterSt.mapFlows
  simp only [FilterSt.mk.injEq, and_true]
  apply List.ext_getElem?
  intro n
  rw [List.getElem?_map, List.getElem?_modify, List.getElem?_modify, List.getElem?_map]
  cases st.heap[n]? with
  | none => rfl
  | some d =>
    simp only [Option.map_some, Option.map_eq_map]
    split_ifs
    · rw [set_map]
    · rfl

private theorem Rel.setKey {st st' : FilterSt E} (h : Rel p p' q q' w st st') (a : ℕ) (key : String) {v v' : HVal E}
    (hv : mapEntry p q w key v = mapEntry p' q' w key v') :
    Rel p p' q q' w (st.setKey a key v) (st'.setKey a key v') := by
  unfold Rel at *
  rw [mapFlows_setKey, mapFlows_setKey, h, hv]

private theorem Rel.cur {st st' : FilterSt E} (h : Rel p p' q q' w st st') : st.cur = st'.cur := by
  have : (st.mapFlows p q w).cur = (st'.mapFlows p' q' w).cur := by rw [h]
  exact this

private theorem Rel.alloc {st st' : FilterSt E} (h : Rel p p' q q' w st st') (d : HDict E)
    (hd : d.map (fun kv => (kv.1, mapEntry p q w kv.1 kv.2)) = d.map fun kv => (kv.1, mapEntry p' q' w kv.1 kv.2)) :
    (st.alloc d).1 = (st'.alloc d).1 ∧ Rel p p' q q' w (st.alloc d).2 (st'.alloc d).2 := by
  have hl := congrArg (fun s => s.heap.length) h
  have hh := congrArg FilterSt.heap h
  have hc := h.cur
  unfold FilterSt.mapFlows at hl hh
  simp only [List.length_map] at hl hh
  refine ⟨hl, ?_⟩
  unfold Rel FilterSt.mapFlows FilterSt.alloc
  simp only [List.map_append, hh, hc, List.map_cons, List.map_nil, hd]

private theorem Rel.withCur {st st' : FilterSt E} (h : Rel p p' q q' w st st') (a : ℕ) :
    Rel p p' q q' w { st with cur := a } { st' with cur := a } := by
  have hh := congrArg FilterSt.heap h
  unfold Rel FilterSt.mapFlows at *
  simp only at hh
  simp only [hh]

private theorem Rel.reset {st st' : FilterSt E} (h : Rel p p' q q' w st st') :
    Rel p p' q q' w (resetHistory st) (resetHistory st') := by
  unfold resetHistory
  obtain ⟨h1, h2⟩ := h.alloc [("filter", .none), ("f_estimated", .none), ("extracted_component_error", .none),
    ("filter_error", .none)] rfl
  have := h2.withCur (st.alloc [("filter", .none), ("f_estimated", .none), ("extracted_component_error", .none),
    ("filter_error", .none)]).1
  simp only
  rw [← h1]
  exact this

private structure RelDesign (p p' : (Fin E → ℝ) → Fin E → ℝ) (q q' : Option ℝ → Option ℝ) (w : List String)
    (d d' : Design E) : Prop where
  filter : mapEntry p q w "filter" d.filter = mapEntry p' q' w "filter" d'.filter
  est : mapEntry p q w "f_estimated" d.fEstimated = mapEntry p' q' w "f_estimated" d'.fEstimated
  resp : mapEntry p q w "frequency_responses" d.frequencyResponses =
    mapEntry p' q' w "frequency_responses" d'.frequencyResponses
  errs : mapEntry p q w "extracted_component_error" d.extractedComponentError =
    mapEntry p' q' w "extracted_component_error" d'.extractedComponentError
  ferr : mapEntry p q w "filter_error" d.filterError = mapEntry p' q' w "filter_error" d'.filterError

private theorem Rel.set {st st' : FilterSt E} (h : Rel p p' q q' w st st') {d d' : Design E}
    (hd : RelDesign p p' q q' w d d') : Rel p p' q q' w (setHistory st d) (setHistory st' d') := by
  unfold setHistory
  rw [← h.cur]
  exact ((((h.setKey _ _ hd.filter).setKey _ _ hd.est).setKey _ _ hd.resp).setKey _ _ hd.errs).setKey _ _ hd.ferr

/-- outcome and state of two calls -/
private def RelCall (p p' : (Fin E → ℝ) → Fin E → ℝ) (q q' : Option ℝ → Option ℝ) (w : List String) (R : α → β → Prop)
    (c : Py α × FilterSt E) (c' : Py β × FilterSt E) : Prop := SameOutcome R c.1 c'.1 ∧ Rel p p' q q' w c.2 c'.2

private structure RelApplied (p p' : (Fin E → ℝ) → Fin E → ℝ) (q q' : Option ℝ → Option ℝ) (a a' : Applied E) : Prop where
  H : a.H = a'.H
  est : p a.fEst = p' a'.fEst
  resp : a.resp = a'.resp
  errs : a.errs.map q = a'.errs.map q'

private theorem RelApplied.design {a a' : Applied E} (h : RelApplied p p' q q' a a') :
    RelDesign p p' q q' estimateKeys a.design a'.design := by
  refine ⟨?_, ?_, ?_, ?_, ?_⟩
  · simp [mapEntry, Applied.design, h.H]
  · simp [mapEntry, Applied.design, estimateKeys, h.est]
  · simp [mapEntry, Applied.design, estimateKeys, h.resp]
  · simp [mapEntry, Applied.design, h.errs]
  · simp [mapEntry, Applied.design]

private theorem Rel.record {st st' : FilterSt E} (h : Rel p p' q q' estimateKeys st st') {r r' : Py (Applied E)}
    (hr : SameOutcome (RelApplied p p' q q') r r') :
    RelCall p p' q q' estimateKeys Eq (recordDesign st r) (recordDesign st' r') := by
  cases r <;> cases r'
  · exact ⟨hr, h⟩
  · exact hr.elim
  · exact hr.elim
  · exact ⟨rfl, h.set hr.design⟩

private theorem Rel.read {st st' : FilterSt E} (h : Rel p p' q q' w st st') (hw : "f_estimated" ∈ w) :
    SameOutcome (fun v v' => p v = p' v') (readEstimate st) (readEstimate st') := by
  have hg : (st.history.get? "f_estimated").map (mapEntry p q w "f_estimated") =
      (st'.history.get? "f_estimated").map (mapEntry p' q' w "f_estimated") := by
    rw [← get_map, ← get_map]
    have : ∀ (p : (Fin E → ℝ) → Fin E → ℝ) (q : Option ℝ → Option ℝ) (s : FilterSt E),
        (s.history.map fun kv => (kv.1, mapEntry p q w kv.1 kv.2)) = (s.mapFlows p q w).history := by
      intro p q s
      unfold FilterSt.history FilterSt.deref FilterSt.mapFlows
      simp only [List.getElem?_map]
      cases s.heap[s.cur]? <;> rfl
    rw [this, this, h]
  unfold readEstimate
  generalize st.history.get? "f_estimated" = x at hg
  generalize st'.history.get? "f_estimated" = y at hg
  rcases x with _ | x <;> rcases y with _ | y
  · rfl
  · simp at hg
  · simp at hg
  · simp only [Option.map_some, Option.some.injEq] at hg
    cases x <;> cases y <;> simp [mapEntry, hw] at hg <;> first | rfl | exact hg

/-- `general_filter` for related designs -/
private theorem branch_rel (hist : ℕ) (key : String) (size : Int)
    {run run' : FilterSt E → Py Unit × FilterSt E} (h0 : p 0 = p' 0) (hw : "f_estimated" ∈ w)
    (hrun : ∀ st st', Rel p p' q q' w st st' → RelCall p p' q q' w Eq (run st) (run' st')) {st st' : FilterSt E}
    (hst : Rel p p' q q' w st st') :
    RelCall p p' q q' w (fun g g' => p g = p' g') (generalBranch hist key size run st)
      (generalBranch hist key size run' st') := by
  unfold generalBranch
  split_ifs
  · have hr := hrun st st' hst
    generalize run st = x at hr ⊢
    generalize run' st' = x' at hr ⊢
    obtain ⟨r, s⟩ := x
    obtain ⟨r', s'⟩ := x'
    obtain ⟨h1, h2⟩ := hr
    cases r <;> cases r'
    · exact ⟨h1, h2⟩
    · exact h1.elim
    · exact h1.elim
    · simp only at h2 ⊢
      have hr := h2.read hw
      cases e : readEstimate s <;> cases e' : readEstimate s' <;> rw [e, e'] at hr
      · exact ⟨hr, h2⟩
      · exact hr.elim
      · exact hr.elim
      · refine ⟨hr, ?_⟩
        rw [h2.cur]
        exact h2.setKey _ _ rfl
  · exact ⟨h0, hst⟩

/-- the three flows of two general filters -/
private def RelFlows (p p' : (Fin E → ℝ) → Fin E → ℝ) (x x' : (Fin E → ℝ) × (Fin E → ℝ) × (Fin E → ℝ)) : Prop :=
  p x.1 = p' x'.1 ∧ p x.2.1 = p' x'.2.1 ∧ p x.2.2 = p' x'.2.2

private theorem general_rel {f f' : Fin E → ℝ} (L1 L2 : Int)
    {runG runC runG' runC' : FilterSt E → Py Unit × FilterSt E} (h0 : p 0 = p' 0) (hw : "f_estimated" ∈ w)
    (hsub : ∀ g g' c c', p g = p' g' → p c = p' c' → p (f - g - c) = p' (f' - g' - c'))
    (hG : ∀ st st', Rel p p' q q' w st st' → RelCall p p' q q' w Eq (runG st) (runG' st'))
    (hC : ∀ st st', Rel p p' q q' w st st' → RelCall p p' q q' w Eq (runC st) (runC' st')) {st st' : FilterSt E}
    (hst : Rel p p' q q' w st st') :
    RelCall p p' q q' w (RelFlows p p') (generalFilter f L1 L2 runG runC st) (generalFilter f' L1 L2 runG' runC' st') := by
  unfold generalFilter
  obtain ⟨h1, h2⟩ := hst.alloc [("L1", .none), ("L2", .none)] rfl
  generalize st.alloc [("L1", .none), ("L2", .none)] = x at h1 h2 ⊢
  generalize st'.alloc [("L1", .none), ("L2", .none)] = x' at h1 h2 ⊢
  obtain ⟨a, s⟩ := x
  obtain ⟨a', s'⟩ := x'
  simp only at h1 h2 ⊢
  subst h1
  have hb := branch_rel a "L1" L1 h0 hw hG h2
  generalize generalBranch a "L1" L1 runG s = x at hb ⊢
  generalize generalBranch a "L1" L1 runG' s' = x' at hb ⊢
  obtain ⟨r, t⟩ := x
  obtain ⟨r', t'⟩ := x'
  obtain ⟨b1, b2⟩ := hb
  cases r <;> cases r'
  · exact ⟨b1, b2⟩
  · exact b1.elim
  · exact b1.elim
  rename_i g g'
  simp only at b1 b2 ⊢
  have hb := branch_rel a "L2" L2 h0 hw hC b2
  generalize generalBranch a "L2" L2 runC t = x at hb ⊢
  generalize generalBranch a "L2" L2 runC' t' = x' at hb ⊢
  obtain ⟨r, u⟩ := x
  obtain ⟨r', u'⟩ := x'
  obtain ⟨c1, c2⟩ := hb
  cases r <;> cases r'
  · exact ⟨c1, c2⟩
  · exact c1.elim
  · exact c1.elim
  exact ⟨⟨hsub _ _ _ _ b1 c1, c1, b1⟩, c2.withCur a⟩

/-! ## Related designs -/

private theorem apply_rel (lib : NumLib) {f f' t t' : Fin E → ℝ}
    (hp : ∀ H : Matrix (Fin E) (Fin E) ℝ, p (H.mulVec f) = p' (H.mulVec f'))
    (hq : ∀ H : Matrix (Fin E) (Fin E) ℝ, q (calculateErrorNRMSE (H.mulVec f) t) = q' (calculateErrorNRMSE (H.mulVec f') t'))
    (P U : Matrix (Fin E) (Fin E) ℝ) (ev al : List ℝ) (L : Int) :
    SameOutcome (RelApplied p p' q q') (applyFilter lib f t P U ev al L) (applyFilter lib f' t' P U ev al L) := by
  unfold applyFilter
  split_ifs
  · rfl
  · rfl
  · rfl
  simp only
  have key : ∀ (l : List (Fin L.toNat)) (s s' : LoopSt E ev.length L.toNat), s.sys = s'.sys →
      Option.Rel (fun a b => a.1 = b.1 ∧ p a.2 = p' b.2) s.out s'.out → s.resp = s'.resp →
      s.errs.map q = s'.errs.map q' →
      ∀ r r', r = l.foldl (applyStep lib f t P U (fun i => ev[i]) fun i => al[(i : ℕ)]?.getD 0) s →
        r' = l.foldl (applyStep lib f' t' P U (fun i => ev[i]) fun i => al[(i : ℕ)]?.getD 0) s' →
        Option.Rel (fun a b => a.1 = b.1 ∧ p a.2 = p' b.2) r.out r'.out ∧ r.resp = r'.resp ∧
          r.errs.map q = r'.errs.map q' := by
    intro l
    induction l with
    | nil =>
      rintro s s' - h2 h3 h4 r r' rfl rfl
      exact ⟨h2, h3, h4⟩
    | cons i l ih =>
      intro s s' h1 h2 h3 h4 r r' hr hr'
      refine ih _ _ ?_ ?_ ?_ ?_ r r' hr hr'
      · unfold applyStep; simp only [h1]
      · unfold applyStep; simp only [h1]; exact .some ⟨rfl, hp _⟩
      · unfold applyStep; simp only [h1, h3]
      · unfold applyStep; simp only [h1, List.map_append, h4, List.map_cons, List.map_nil, hq]
  obtain ⟨k1, k2, k3⟩ := key (List.finRange L.toNat) ⟨0, none, [], []⟩ ⟨0, none, [], []⟩ rfl .none rfl rfl _ _ rfl rfl
  generalize (List.finRange L.toNat).foldl (applyStep lib f t P U (fun i => ev[i]) fun i => al[(i : ℕ)]?.getD 0)
    ⟨0, none, [], []⟩ = r at *
  generalize (List.finRange L.toNat).foldl (applyStep lib f' t' P U (fun i => ev[i]) fun i => al[(i : ℕ)]?.getD 0)
    ⟨0, none, [], []⟩ = r' at *
  cases h1 : r.out <;> cases h2 : r'.out <;> rw [h1, h2] at k1
  · rfl
  · cases k1
  · cases k1
  · cases k1 with
    | some h => exact ⟨h.1, h.2, k2, k3⟩

/-- two flows for which every call below does related things -/
private structure FlowPair (p p' : (Fin E → ℝ) → Fin E → ℝ) (q q' : Option ℝ → Option ℝ) (f f' : Fin E → ℝ) : Prop where
  est : ∀ H : Matrix (Fin E) (Fin E) ℝ, p (H.mulVec f) = p' (H.mulVec f')
  zero : p 0 = p' 0
  sub : ∀ g g' c c', p g = p' g' → p c = p' c' → p (f - g - c) = p' (f' - g' - c')

/-- and two flows they are compared with -/
private def TruthPair (q q' : Option ℝ → Option ℝ) (f f' t t' : Fin E → ℝ) : Prop :=
  ∀ H : Matrix (Fin E) (Fin E) ℝ, q (calculateErrorNRMSE (H.mulVec f) t) = q' (calculateErrorNRMSE (H.mulVec f') t')

private theorem mapM_rel {R : β → γ → Prop} {k : α → Py β} {k' : α → Py γ} (l : List α)
    (h : ∀ a, SameOutcome R (k a) (k' a)) : SameOutcome (List.Forall₂ R) (l.mapM k) (l.mapM k') := by
  induction l with
  | nil => exact .nil
  | cons a l ih =>
    rw [List.mapM_cons, List.mapM_cons]
    exact (h a).bind fun b c hbc => ih.bind fun bs cs hs => .cons hbc hs

private theorem same_bind {R : β → γ → Prop} (x : Py α) {k : α → Py β} {k' : α → Py γ}
    (h : ∀ a, SameOutcome R (k a) (k' a)) : SameOutcome R (x >>= k) (x >>= k') :=
  (SameOutcome.refl x).bind fun a b hab => by subst hab; exact h a

end related

section calls
variable {sc : SC ℝ} {lib : NumLib} {p p' : (Fin sc.E → ℝ) → Fin sc.E → ℝ} {q q' : Option ℝ → Option ℝ}
  {f f' : Fin sc.E → ℝ} {st st' : FilterSt sc.E}

private theorem typeOne_rel (hf : FlowPair p p' q q' f f')
    (ht : ∀ c, SameOutcome (TruthPair q q' f f') (sc.getTrueSignal lib f c) (sc.getTrueSignal lib f' c))
    (hst : Rel p p' q q' estimateKeys st st') (component : String) (L : Int) :
    RelCall p p' q q' estimateKeys Eq (LSFilter.typeOne lib sc st f component L)
      (LSFilter.typeOne lib sc st' f' component L) := by
  refine hst.reset.record ?_
  unfold LSFilter.typeOneDesign
  refine same_bind _ fun a => ?_
  refine (ht component).bind fun t t' h => ?_
  refine same_bind _ fun al => ?_
  exact apply_rel lib hf.est h _ _ _ _ _

private theorem typeTwo_rel (hf : FlowPair p p' q q' f f')
    (ht : ∀ c, SameOutcome (TruthPair q q' f f') (sc.getTrueSignal lib f c) (sc.getTrueSignal lib f' c))
    (hst : Rel p p' q q' estimateKeys st st') (component : String) (L : Int) (tol : ℝ) :
    RelCall p p' q q' estimateKeys Eq (LSFilter.typeTwo lib sc st f component L tol)
      (LSFilter.typeTwo lib sc st' f' component L tol) := by
  refine hst.reset.record ?_
  unfold LSFilter.typeTwoDesign
  dsimp only
  split_ifs
  all_goals
    refine same_bind _ fun lap => ?_
    refine same_bind _ fun a => ?_
    refine (ht component).bind fun t t' h => ?_
    exact apply_rel lib hf.est h _ _ _ _ _

private theorem lsGeneral_rel (hf : FlowPair p p' q q' f f')
    (ht : ∀ c, SameOutcome (TruthPair q q' f f') (sc.getTrueSignal lib f c) (sc.getTrueSignal lib f' c))
    (hst : Rel p p' q q' estimateKeys st st') (L1 L2 : Int) (tol : ℝ) :
    RelCall p p' q q' estimateKeys (RelFlows p p') (LSFilter.generalFilter lib sc st f L1 L2 tol)
      (LSFilter.generalFilter lib sc st' f' L1 L2 tol) :=
  general_rel L1 L2 hf.zero (by simp [estimateKeys]) hf.sub (fun _ _ hs => typeTwo_rel hf ht hs _ _ _)
    (fun _ _ hs => typeTwo_rel hf ht hs _ _ _) hst.reset

private theorem applyF_rel (hf : FlowPair p p' q q' f f') {t t' : Fin sc.E → ℝ} (h : TruthPair q q' f f' t t')
    (P U : Matrix (Fin sc.E) (Fin sc.E) ℝ) (data : Option (List ℝ × List ℝ)) (L : Int) :
    SameOutcome (RelApplied p p' q q') (GridFilter.applyFilterF lib f t P U data L)
      (GridFilter.applyFilterF lib f' t' P U data L) := by
  unfold GridFilter.applyFilterF
  rcases data with _ | ⟨ev, al⟩
  · simp only
    split_ifs <;> rfl
  · exact apply_rel lib hf.est h _ _ _ _ _

private theorem gridDenoise_rel (hf : FlowPair p p' q q' f f') {t t' : Fin sc.E → ℝ} (h : TruthPair q q' f f' t t')
    (hst : Rel p p' q q' estimateKeys st st') (pChoice : String) (L : Int) (mu : ℝ) :
    RelCall p p' q q' estimateKeys Eq (GridFilter.denoise lib sc st f t pChoice L mu)
      (GridFilter.denoise lib sc st' f' t' pChoice L mu) := by
  refine hst.record ?_
  unfold GridFilter.denoiseDesign
  refine same_bind _ fun P => ?_
  refine same_bind _ fun a => ?_
  refine same_bind _ fun s => ?_
  exact applyF_rel hf h _ _ _ _

private theorem gridExtraction_rel (hf : FlowPair p p' q q' f f')
    (ht : ∀ c, SameOutcome (TruthPair q q' f f') (sc.getTrueSignal lib f c) (sc.getTrueSignal lib f' c))
    (hst : Rel p p' q q' estimateKeys st st') (component pChoice : String) (L num : Int) (mu cutOff steep : ℝ) :
    RelCall p p' q q' estimateKeys Eq (GridFilter.subcomponentExtraction lib sc st f component pChoice L num mu cutOff steep)
      (GridFilter.subcomponentExtraction lib sc st' f' component pChoice L num mu cutOff steep) := by
  refine hst.record ?_
  unfold GridFilter.extractionDesign
  refine same_bind _ fun P => ?_
  refine same_bind _ fun a => ?_
  refine same_bind _ fun s => ?_
  refine (ht component).bind fun t t' h => ?_
  exact applyF_rel hf h _ _ _ _

private theorem gridGeneral_rel (hf : FlowPair p p' q q' f f')
    (ht : ∀ c, SameOutcome (TruthPair q q' f f') (sc.getTrueSignal lib f c) (sc.getTrueSignal lib f' c))
    (hst : Rel p p' q q' estimateKeys st st') (L1 L2 : Int) :
    RelCall p p' q q' estimateKeys (RelFlows p p') (GridFilter.generalFilter lib sc st f L1 L2)
      (GridFilter.generalFilter lib sc st' f' L1 L2) :=
  general_rel L1 L2 hf.zero (by simp [estimateKeys]) hf.sub (fun _ _ hs => gridExtraction_rel hf ht hs _ _ _ _ _ _ _)
    (fun _ _ hs => gridExtraction_rel hf ht hs _ _ _ _ _ _ _) hst

private theorem edgeFlow_rel (hf : FlowPair p p' q q' f f') {t t' : Fin sc.E → ℝ} (h : TruthPair q q' f f' t t')
    (hst : Rel p p' q q' estimateKeys st st') (pChoice : String) (muVals : List ℝ) :
    RelCall p p' q q' estimateKeys Eq (edgeFlowDenoise lib sc st f t pChoice muVals)
      (edgeFlowDenoise lib sc st' f' t' pChoice muVals) := by
  have key : SameOutcome (RelDesign p p' q q' estimateKeys) (edgeFlowDesign lib sc f t pChoice muVals)
      (edgeFlowDesign lib sc f' t' pChoice muVals) := by
    unfold edgeFlowDesign
    refine same_bind _ fun P => ?_
    refine same_bind _ fun a => ?_
    refine (mapM_rel (R := fun a b : MuPass sc.E => a.H = b.H ∧ p a.fEst = p' b.fEst ∧ q a.err = q' b.err ∧
      a.resp = b.resp) muVals fun mu => ?_).bind fun ps ps' hps => ?_
    · unfold muPass
      refine same_bind _ fun H => ?_
      exact ⟨rfl, hf.est H, h H, rfl⟩
    · have hresp : ps.map (·.resp) = ps'.map (·.resp) := by
        induction hps with
        | nil => rfl
        | cons h1 _ ih => rw [List.map_cons, List.map_cons, h1.2.2.2, ih]
      have herr : (ps.map (·.err)).map q = (ps'.map (·.err)).map q' := by
        induction hps with
        | nil => rfl
        | cons h1 _ ih =>
          have := fun hr => ih hr
          simp only [List.map_cons, List.cons.injEq] at hresp ⊢
          exact ⟨h1.2.2.1, ih hresp.2⟩
      have hlast : Option.Rel (fun a b : MuPass sc.E => a.H = b.H ∧ p a.fEst = p' b.fEst ∧ q a.err = q' b.err ∧
          a.resp = b.resp) ps.getLast? ps'.getLast? := by
        have h' := List.forall₂_reverse_iff.2 hps
        rw [← List.head?_reverse, ← List.head?_reverse]
        generalize ps.reverse = a at h' ⊢
        generalize ps'.reverse = b at h' ⊢
        cases h' with
        | nil => exact .none
        | cons h1 _ => exact .some h1
      cases h1 : ps.getLast? <;> cases h2 : ps'.getLast? <;> rw [h1, h2] at hlast
      · rfl
      · cases hlast
      · cases hlast
      · cases hlast with
        | some hl =>
          refine ⟨?_, ?_, ?_, ?_, ?_⟩
          · simp [mapEntry, hl.1]
          · simp [mapEntry, estimateKeys, hl.2.1]
          · simp [mapEntry, estimateKeys, hresp]
          · simp only [mapEntry, if_true, herr]
          · simp [mapEntry]
  unfold edgeFlowDenoise
  cases e : edgeFlowDesign lib sc f t pChoice muVals <;> cases e' : edgeFlowDesign lib sc f' t' pChoice muVals <;>
    rw [e, e'] at key
  · exact ⟨key, hst⟩
  · exact key.elim
  · exact key.elim
  · exact ⟨rfl, hst.set key⟩

private theorem chebyshev_rel (series : ChebSeries) (hf : FlowPair p p' q q' f f')
    (ht : ∀ c, SameOutcome (TruthPair q q' f f') (sc.getTrueSignal lib f c) (sc.getTrueSignal lib f' c))
    (hst : Rel p p' q q' chebyshevKeys st st') (pChoice component : String) (L : ℕ) (n : Option ℕ) (cutOff steep : ℝ) :
    RelCall p p' q q' chebyshevKeys Eq (Cheb.apply lib series sc st f pChoice component L n cutOff steep)
      (Cheb.apply lib series sc st' f' pChoice component L n cutOff steep) := by
  have key : SameOutcome (RelDesign p p' q q' chebyshevKeys)
      (Cheb.applyDesign lib series sc f pChoice component L n cutOff steep)
      (Cheb.applyDesign lib series sc f' pChoice component L n cutOff steep) := by
    unfold Cheb.applyDesign
    refine same_bind _ fun a => ?_
    refine same_bind _ fun P => ?_
    refine same_bind _ fun b => ?_
    refine (ht component).bind fun t t' h => ?_
    refine same_bind _ fun hI => ?_
    refine same_bind _ fun al => ?_
    refine same_bind _ fun co => ?_
    refine same_bind _ fun HI => ?_
    refine same_bind _ fun H => ?_
    dsimp only
    split_ifs
    all_goals
      refine same_bind _ fun _ => ?_
      refine ⟨rfl, ?_, ?_, ?_, ?_⟩
      · simp only [mapEntry, chebyshevKeys, List.mem_cons, true_or, if_true, List.map_map, HVal.rows.injEq]
        exact List.map_congr_left fun M _ => hf.est M
      · simp only [mapEntry, chebyshevKeys, List.mem_cons, true_or, or_true, if_true, List.map_map, HVal.rows.injEq]
        refine List.map_congr_left fun M _ => ?_
        simp only [Function.comp_apply, mulVec_mulVec]
        exact hf.est _
      · simp only [mapEntry, if_true, List.map_map, HVal.errs.injEq]
        exact List.map_congr_left fun M _ => h M
      · simp [mapEntry]
  unfold Cheb.apply
  cases e : Cheb.applyDesign lib series sc f pChoice component L n cutOff steep <;>
    cases e' : Cheb.applyDesign lib series sc f' pChoice component L n cutOff steep <;> rw [e, e'] at key
  · exact ⟨key, hst⟩
  · exact key.elim
  · exact key.elim
  · exact ⟨rfl, hst.set key⟩

end calls

/-! ## Another unit -/

section units
variable {sc : SC ℝ} {lib : NumLib}

private theorem norm2_unit {n : ℕ} (c : ℝ) (v : Fin n → ℝ) : norm2 (c • v) = |c| * norm2 v := by
  unfold norm2
  rw [smul_dotProduct, dotProduct_smul, smul_eq_mul, smul_eq_mul, ← mul_assoc, Real.sqrt_mul (mul_self_nonneg c),
    Real.sqrt_mul_self_eq_abs]

private theorem nrmse_unit {n : ℕ} {c : ℝ} (hc : c ≠ 0) (x t : Fin n → ℝ) :
    calculateErrorNRMSE (c • x) (c • t) = calculateErrorNRMSE x t := by
  have h := abs_pos.2 hc
  unfold calculateErrorNRMSE fdiv
  rw [← smul_sub, norm2_unit, norm2_unit]
  by_cases h0 : norm2 t = 0
  · rw [if_pos h0, if_pos (by rw [h0, mul_zero])]
  · rw [if_neg h0, if_neg (mul_ne_zero h.ne' h0), mul_div_mul_left _ _ h.ne']

/-- C154: the components of a flow in another unit are the components in that unit. -/
theorem C154_components (c : ℝ) (f : Fin sc.E → ℝ) (component : String) :
    sc.getComponentFlow lib (c • f) component false = (sc.getComponentFlow lib f component false).map fun g => c • g := by
  obtain ⟨g, u, h, hp⟩ := HodgeParts.exists lib sc f
  have hq := C22_linear f f g g u u h h c 0 hp hp
  simp only [zero_smul, add_zero] at hq
  by_cases h1 : component = "gradient"
  · subst h1; rw [hq.grad, hp.grad]; rfl
  by_cases h2 : component = "curl"
  · subst h2; rw [hq.curl, hp.curl]; rfl
  by_cases h3 : component = "harmonic"
  · subst h3; rw [hq.harm, hp.harm]; rfl
  rw [(C25_component_flow_names (c • f) component false 2).1 ⟨h1, h2, h3⟩,
    (C25_component_flow_names f component false 2).1 ⟨h1, h2, h3⟩]
  rfl

private theorem unit_pair (c : ℝ) (f : Fin E → ℝ) : FlowPair (fun v => c • v) id id id f (c • f) where
  est H := (mulVec_smul H c f).symm
  zero := smul_zero c
  sub := by
    rintro g g' u u' rfl rfl
    simp only [id, smul_sub]

private theorem unit_truth {c : ℝ} (hc : c ≠ 0) (f t : Fin E → ℝ) : TruthPair id id f (c • f) t (c • t) := fun H => by
  rw [mulVec_smul, nrmse_unit hc]

private theorem unit_true {c : ℝ} (hc : c ≠ 0) (f : Fin sc.E → ℝ) (component : String) :
    SameOutcome (TruthPair id id f (c • f)) (sc.getTrueSignal lib f component) (sc.getTrueSignal lib (c • f) component) := by
  unfold SC.getTrueSignal
  rw [C154_components]
  cases sc.getComponentFlow lib f component false with
  | error e => rfl
  | ok t => exact unit_truth hc f t

private theorem unit_state (c : ℝ) (w : List String) (st : FilterSt E) :
    Rel (fun v => c • v) id id id w st (st.inUnit c w) := (mapFlows_id _).symm

private theorem unit_call {c : ℝ} {w : List String} {x x' : Py Unit × FilterSt E}
    (h : RelCall (fun v => c • v) id id id w Eq x x') : x' = (x.1, x.2.inUnit c w) := by
  obtain ⟨⟨r, s⟩, r', s'⟩ := x, x'
  obtain ⟨h1, h2⟩ := h
  have e2 : s' = s.inUnit c w := (mapFlows_id (w := w) s').symm.trans h2.symm
  rw [e2]
  cases r <;> cases r'
  · have h1 : _ = _ := h1
    subst h1; rfl
  · exact h1.elim
  · exact h1.elim
  · rfl

private theorem unit_flows {c : ℝ} {w : List String} {x x' : Py ((Fin E → ℝ) × (Fin E → ℝ) × (Fin E → ℝ)) × FilterSt E}
    (h : RelCall (fun v => c • v) id id id w (RelFlows (fun v => c • v) id) x x') :
    x' = (x.1.map fun y => (c • y.1, c • y.2.1, c • y.2.2), x.2.inUnit c w) := by
  obtain ⟨⟨r, s⟩, r', s'⟩ := x, x'
  obtain ⟨h1, h2⟩ := h
  have e2 : s' = s.inUnit c w := (mapFlows_id (w := w) s').symm.trans h2.symm
  rw [e2]
  cases r <;> cases r'
  · have h1 : _ = _ := h1
    subst h1; rfl
  · exact h1.elim
  · exact h1.elim
  · obtain ⟨a, b, d⟩ := h1
    refine Prod.ext ?_ rfl
    simp only [Except.map, Except.ok.injEq]
    exact Prod.ext a.symm (Prod.ext b.symm d.symm)

/-- C154: the least-squares filters of a flow in another unit. -/
theorem C154_ls (c : ℝ) (hc : c ≠ 0) (st : FilterSt sc.E) (f : Fin sc.E → ℝ) (component : String) (L L1 L2 : Int)
    (tol : ℝ) :
    LSFilter.typeOne lib sc (st.inUnit c estimateKeys) (c • f) component L =
      ((LSFilter.typeOne lib sc st f component L).1, (LSFilter.typeOne lib sc st f component L).2.inUnit c estimateKeys) ∧
    LSFilter.typeTwo lib sc (st.inUnit c estimateKeys) (c • f) component L tol =
      ((LSFilter.typeTwo lib sc st f component L tol).1,
        (LSFilter.typeTwo lib sc st f component L tol).2.inUnit c estimateKeys) ∧
    LSFilter.generalFilter lib sc (st.inUnit c estimateKeys) (c • f) L1 L2 tol =
      ((LSFilter.generalFilter lib sc st f L1 L2 tol).1.map fun y => (c • y.1, c • y.2.1, c • y.2.2),
        (LSFilter.generalFilter lib sc st f L1 L2 tol).2.inUnit c estimateKeys) :=
  ⟨unit_call (typeOne_rel (unit_pair c f) (unit_true hc f) (unit_state c _ st) _ _),
    unit_call (typeTwo_rel (unit_pair c f) (unit_true hc f) (unit_state c _ st) _ _ _),
    unit_flows (lsGeneral_rel (unit_pair c f) (unit_true hc f) (unit_state c _ st) _ _ _)⟩

/-- C154: the grid-based filters. -/
theorem C154_grid (c : ℝ) (hc : c ≠ 0) (st : FilterSt sc.E) (f t : Fin sc.E → ℝ) (component pChoice : String)
    (L L1 L2 num : Int) (mu cutOff steep : ℝ) :
    GridFilter.denoise lib sc (st.inUnit c estimateKeys) (c • f) (c • t) pChoice L mu =
      ((GridFilter.denoise lib sc st f t pChoice L mu).1,
        (GridFilter.denoise lib sc st f t pChoice L mu).2.inUnit c estimateKeys) ∧
    GridFilter.subcomponentExtraction lib sc (st.inUnit c estimateKeys) (c • f) component pChoice L num mu cutOff steep =
      ((GridFilter.subcomponentExtraction lib sc st f component pChoice L num mu cutOff steep).1,
        (GridFilter.subcomponentExtraction lib sc st f component pChoice L num mu cutOff steep).2.inUnit c estimateKeys) ∧
    GridFilter.generalFilter lib sc (st.inUnit c estimateKeys) (c • f) L1 L2 =
      ((GridFilter.generalFilter lib sc st f L1 L2).1.map fun y => (c • y.1, c • y.2.1, c • y.2.2),
        (GridFilter.generalFilter lib sc st f L1 L2).2.inUnit c estimateKeys) :=
  ⟨unit_call (gridDenoise_rel (unit_pair c f) (unit_truth hc f t) (unit_state c _ st) _ _ _),
    unit_call (gridExtraction_rel (unit_pair c f) (unit_true hc f) (unit_state c _ st) _ _ _ _ _ _ _),
    unit_flows (gridGeneral_rel (unit_pair c f) (unit_true hc f) (unit_state c _ st) _ _)⟩

/-- C154: edge-flow denoising and the Chebyshev filter. -/
theorem C154_edge_flow_chebyshev (c : ℝ) (hc : c ≠ 0) (st : FilterSt sc.E) (f t : Fin sc.E → ℝ)
    (component pChoice : String) (muVals : List ℝ) (series : ChebSeries) (L : ℕ) (n : Option ℕ) (cutOff steep : ℝ) :
    edgeFlowDenoise lib sc (st.inUnit c estimateKeys) (c • f) (c • t) pChoice muVals =
      ((edgeFlowDenoise lib sc st f t pChoice muVals).1,
        (edgeFlowDenoise lib sc st f t pChoice muVals).2.inUnit c estimateKeys) ∧
    Cheb.apply lib series sc (st.inUnit c chebyshevKeys) (c • f) pChoice component L n cutOff steep =
      ((Cheb.apply lib series sc st f pChoice component L n cutOff steep).1,
        (Cheb.apply lib series sc st f pChoice component L n cutOff steep).2.inUnit c chebyshevKeys) :=
  ⟨unit_call (edgeFlow_rel (unit_pair c f) (unit_truth hc f t) (unit_state c _ st) _ _),
    unit_call (chebyshev_rel series (unit_pair c f) (unit_true hc f) (unit_state c _ st) _ _ _ _ _ _)⟩

/-- C154: what `get_component_flow` returns by default, to two decimals, is not independent of the unit: a flow of length
below 0.005 in the chosen unit has no gradient and no curl component, and no harmonic component on well-formed
complexes. -/
theorem C154_default_rounding (f : Fin sc.E → ℝ) (hf : norm2 f < 1 / 200) :
    sc.getComponentFlow lib f "gradient" = .ok 0 ∧ sc.getComponentFlow lib f "curl" = .ok 0 ∧
    (sc.WellFormed → sc.getComponentFlow lib f "harmonic" = .ok 0) := by
  obtain ⟨g, u, h, hp⟩ := HodgeParts.exists lib sc f
  obtain ⟨rg, rc, rh, -, e1, e2, e3, hr⟩ := C24_defaults f g u h hp
  have entry : ∀ (v : Fin sc.E → ℝ) (i : Fin sc.E), |v i| ≤ norm2 v := by
    intro v i
    refine Real.le_sqrt_of_sq_le ?_
    rw [sq_abs, sq]
    exact Finset.single_le_sum (f := fun i => v i * v i) (fun _ _ => mul_self_nonneg _) (Finset.mem_univ i)
  have small : ∀ (r v : Fin sc.E → ℝ), (∀ i, (∃ z : ℤ, r i = z / 100) ∧ |r i - v i| ≤ 1 / 200) →
      v ⬝ᵥ v ≤ f ⬝ᵥ f → r = 0 := by
    intro r v hrv hle
    funext i
    obtain ⟨⟨z, hz⟩, hd⟩ := hrv i
    have h1 : |v i| < 1 / 200 := ((entry v i).trans (Real.sqrt_le_sqrt hle)).trans_lt hf
    have h2 : |(z : ℝ)| < 1 := by
      rw [hz] at hd
      rw [abs_lt] at h1 ⊢
      rw [abs_le] at hd
      constructor <;> linarith
    have h3 : z = 0 := Int.abs_lt_one_iff.1 (by exact_mod_cast h2)
    rw [hz, h3]
    simp
  have part : ∀ (a b : Fin sc.E → ℝ), a ⬝ᵥ b = 0 → a ⬝ᵥ a ≤ (a + b) ⬝ᵥ (a + b) := by
    intro a b hab
    rw [add_dotProduct, dotProduct_add, dotProduct_add, dotProduct_comm b a, hab]
    have : 0 ≤ b ⬝ᵥ b := Finset.sum_nonneg fun _ _ => mul_self_nonneg _
    linarith
  obtain ⟨⟨⟨a, ha⟩, p1⟩, ⟨⟨b, hb⟩, p2⟩, p3⟩ := hp.proj
  have hg : g ⬝ᵥ g ≤ f ⬝ᵥ f := by
    have := part g (f - g) (by
      rw [← ha, dotProduct_comm, dotProduct_mulVec, ← mulVec_transpose, ha, mulVec_sub, p1, sub_self, zero_dotProduct])
    rwa [add_sub_cancel] at this
  have hu : u ⬝ᵥ u ≤ f ⬝ᵥ f := by
    have := part u (f - u) (by
      rw [← hb, dotProduct_comm, dotProduct_mulVec, ← mulVec_transpose, hb, mulVec_sub, p2, sub_self, zero_dotProduct])
    rwa [add_sub_cancel] at this
  refine ⟨?_, ?_, fun hw => ?_⟩
  · rw [e1, small rg g (hr rg g (.inl ⟨rfl, rfl⟩)) hg]
  · rw [e2, small rc u (hr rc u (.inr (.inl ⟨rfl, rfl⟩))) hu]
  · rw [e3, small rh h (hr rh h (.inr (.inr ⟨rfl, rfl⟩))) ?_]
    obtain ⟨o1, o2, o3, -⟩ := C19_orthogonal hw f g u h hp
    have := part h (g + u) (by rw [dotProduct_add, dotProduct_comm h g, dotProduct_comm h u, o2, o3, add_zero])
    rwa [show h + (g + u) = f by rw [p3]; abel] at this

end units

/-! ## What a designed filter depends on -/

section independent
variable {sc : SC ℝ} {lib : NumLib}

private theorem forget_pair (f f' : Fin E → ℝ) :
    FlowPair (fun _ => (0 : Fin E → ℝ)) (fun _ => 0) (fun _ => none) (fun _ => none) f f' :=
  ⟨fun _ => rfl, rfl, fun _ _ _ _ _ _ => rfl⟩

private theorem forget_true (f f' : Fin sc.E → ℝ) (component : String) :
    SameOutcome (TruthPair (fun _ => none) (fun _ => none) f f') (sc.getTrueSignal lib f component)
      (sc.getTrueSignal lib f' component) := by
  unfold SC.getTrueSignal SC.getComponentFlow
  split_ifs
  · exact fun _ => rfl
  · exact fun _ => rfl
  · exact fun _ => rfl
  · rfl

private theorem forget_call {w : List String} {x x' : Py Unit × FilterSt E}
    (h : RelCall (fun _ => (0 : Fin E → ℝ)) (fun _ => 0) (fun _ => none) (fun _ => none) w Eq x x') :
    x.1 = x'.1 ∧ x.2.forgetFlows w = x'.2.forgetFlows w := by
  obtain ⟨⟨r, s⟩, r', s'⟩ := x, x'
  obtain ⟨h1, h2⟩ := h
  refine ⟨?_, h2⟩
  cases r <;> cases r'
  · have h1 : _ = _ := h1
    subst h1; rfl
  · exact h1.elim
  · exact h1.elim
  · rfl

/-- the exception of a call, if any -/
def raised : Py α → Option PyErr
  | .error e => some e
  | .ok _ => none

private theorem forget_flows {R : α → β → Prop} {w : List String} {x : Py α × FilterSt E} {x' : Py β × FilterSt E}
    (h : RelCall (fun _ => (0 : Fin E → ℝ)) (fun _ => 0) (fun _ => none) (fun _ => none) w R x x') :
    raised x.1 = raised x'.1 ∧ x.2.forgetFlows w = x'.2.forgetFlows w := by
  obtain ⟨⟨r, s⟩, r', s'⟩ := x, x'
  obtain ⟨h1, h2⟩ := h
  refine ⟨?_, h2⟩
  cases r <;> cases r'
  · have h1 : _ = _ := h1
    subst h1; rfl
  · exact h1.elim
  · exact h1.elim
  · rfl

/-- C155: the least-squares designs do not depend on the flow: the calls raise the same exception or none, and leave the
same histories but for estimates and their errors. -/
theorem C155_ls {st st' : FilterSt sc.E} (hst : st.forgetFlows estimateKeys = st'.forgetFlows estimateKeys)
    (f f' : Fin sc.E → ℝ) (component : String) (L L1 L2 : Int) (tol : ℝ) :
    ((LSFilter.typeOne lib sc st f component L).1 = (LSFilter.typeOne lib sc st' f' component L).1 ∧
      (LSFilter.typeOne lib sc st f component L).2.forgetFlows estimateKeys =
        (LSFilter.typeOne lib sc st' f' component L).2.forgetFlows estimateKeys) ∧
    ((LSFilter.typeTwo lib sc st f component L tol).1 = (LSFilter.typeTwo lib sc st' f' component L tol).1 ∧
      (LSFilter.typeTwo lib sc st f component L tol).2.forgetFlows estimateKeys =
        (LSFilter.typeTwo lib sc st' f' component L tol).2.forgetFlows estimateKeys) ∧
    (raised (LSFilter.generalFilter lib sc st f L1 L2 tol).1 = raised (LSFilter.generalFilter lib sc st' f' L1 L2 tol).1 ∧
      (LSFilter.generalFilter lib sc st f L1 L2 tol).2.forgetFlows estimateKeys =
        (LSFilter.generalFilter lib sc st' f' L1 L2 tol).2.forgetFlows estimateKeys) :=
  ⟨forget_call (typeOne_rel (forget_pair f f') (forget_true f f') hst _ _),
    forget_call (typeTwo_rel (forget_pair f f') (forget_true f f') hst _ _ _),
    forget_flows (lsGeneral_rel (forget_pair f f') (forget_true f f') hst _ _ _)⟩

/-- C155: the grid-based designs. -/
theorem C155_grid {st st' : FilterSt sc.E} (hst : st.forgetFlows estimateKeys = st'.forgetFlows estimateKeys)
    (f f' t t' : Fin sc.E → ℝ) (component pChoice : String) (L L1 L2 num : Int) (mu cutOff steep : ℝ) :
    ((GridFilter.denoise lib sc st f t pChoice L mu).1 = (GridFilter.denoise lib sc st' f' t' pChoice L mu).1 ∧
      (GridFilter.denoise lib sc st f t pChoice L mu).2.forgetFlows estimateKeys =
        (GridFilter.denoise lib sc st' f' t' pChoice L mu).2.forgetFlows estimateKeys) ∧
    ((GridFilter.subcomponentExtraction lib sc st f component pChoice L num mu cutOff steep).1 =
        (GridFilter.subcomponentExtraction lib sc st' f' component pChoice L num mu cutOff steep).1 ∧
      (GridFilter.subcomponentExtraction lib sc st f component pChoice L num mu cutOff steep).2.forgetFlows estimateKeys =
        (GridFilter.subcomponentExtraction lib sc st' f' component pChoice L num mu cutOff steep).2.forgetFlows
          estimateKeys) ∧
    (raised (GridFilter.generalFilter lib sc st f L1 L2).1 = raised (GridFilter.generalFilter lib sc st' f' L1 L2).1 ∧
      (GridFilter.generalFilter lib sc st f L1 L2).2.forgetFlows estimateKeys =
        (GridFilter.generalFilter lib sc st' f' L1 L2).2.forgetFlows estimateKeys) :=
  ⟨forget_call (gridDenoise_rel (forget_pair f f') (fun _ => rfl) hst _ _ _),
    forget_call (gridExtraction_rel (forget_pair f f') (forget_true f f') hst _ _ _ _ _ _ _),
    forget_flows (gridGeneral_rel (forget_pair f f') (forget_true f f') hst _ _)⟩

/-- C155: edge-flow denoising and the Chebyshev filter (whose recorded frequency responses are those of the flow, so they
are left out as well). -/
theorem C155_edge_flow_chebyshev {st st' : FilterSt sc.E} (f f' t t' : Fin sc.E → ℝ) (component pChoice : String)
    (muVals : List ℝ) (series : ChebSeries) (L : ℕ) (n : Option ℕ) (cutOff steep : ℝ) :
    (st.forgetFlows estimateKeys = st'.forgetFlows estimateKeys →
      (edgeFlowDenoise lib sc st f t pChoice muVals).1 = (edgeFlowDenoise lib sc st' f' t' pChoice muVals).1 ∧
      (edgeFlowDenoise lib sc st f t pChoice muVals).2.forgetFlows estimateKeys =
        (edgeFlowDenoise lib sc st' f' t' pChoice muVals).2.forgetFlows estimateKeys) ∧
    (st.forgetFlows chebyshevKeys = st'.forgetFlows chebyshevKeys →
      (Cheb.apply lib series sc st f pChoice component L n cutOff steep).1 =
        (Cheb.apply lib series sc st' f' pChoice component L n cutOff steep).1 ∧
      (Cheb.apply lib series sc st f pChoice component L n cutOff steep).2.forgetFlows chebyshevKeys =
        (Cheb.apply lib series sc st' f' pChoice component L n cutOff steep).2.forgetFlows chebyshevKeys) :=
  ⟨fun hst => forget_call (edgeFlow_rel (forget_pair f f') (fun _ => rfl) hst _ _),
    fun hst => forget_call (chebyshev_rel series (forget_pair f f') (forget_true f f') hst _ _ _ _ _ _)⟩

/-- C155: histories that differ in flows and their errors only have the same filter, the same error of the filter and,
for the first three classes, the same frequency responses. -/
theorem C155_entries {st st' : FilterSt E} (w : List String) (hst : st.forgetFlows w = st'.forgetFlows w) (key : String)
    (h1 : key ∉ w) (h2 : key ≠ "extracted_component_error") : st.history.get? key = st'.history.get? key := by
  have this : ∀ s : FilterSt E, (s.forgetFlows w).history.get? key = s.history.get? key := by
    intro s
    have e : (s.forgetFlows w).history =
        s.history.map fun kv => (kv.1, mapEntry (fun _ => 0) (fun _ => none) w kv.1 kv.2) := by
      unfold FilterSt.history FilterSt.deref FilterSt.forgetFlows FilterSt.mapFlows
      simp only [List.getElem?_map]
      cases s.heap[s.cur]? <;> rfl
    rw [e, get_map]
    cases s.history.get? key with
    | none => rfl
    | some v => cases v <;> simp [mapEntry, h1, h2]
  rw [← this st, ← this st', hst]

/-- C155: in particular the stored filter is the same whatever flow it was designed on. -/
theorem C155_filter (st : FilterSt sc.E) (f f' t t' : Fin sc.E → ℝ) (component pChoice : String) (L num : Int)
    (tol mu cutOff steep : ℝ) (muVals : List ℝ) (series : ChebSeries) (M : ℕ) (n : Option ℕ) :
    (LSFilter.typeOne lib sc st f component L).2.history.get? "filter" =
      (LSFilter.typeOne lib sc st f' component L).2.history.get? "filter" ∧
    (LSFilter.typeTwo lib sc st f component L tol).2.history.get? "filter" =
      (LSFilter.typeTwo lib sc st f' component L tol).2.history.get? "filter" ∧
    (GridFilter.denoise lib sc st f t pChoice L mu).2.history.get? "filter" =
      (GridFilter.denoise lib sc st f' t' pChoice L mu).2.history.get? "filter" ∧
    (GridFilter.subcomponentExtraction lib sc st f component pChoice L num mu cutOff steep).2.history.get? "filter" =
      (GridFilter.subcomponentExtraction lib sc st f' component pChoice L num mu cutOff steep).2.history.get? "filter" ∧
    (edgeFlowDenoise lib sc st f t pChoice muVals).2.history.get? "filter" =
      (edgeFlowDenoise lib sc st f' t' pChoice muVals).2.history.get? "filter" ∧
    (Cheb.apply lib series sc st f pChoice component M n cutOff steep).2.history.get? "filter" =
      (Cheb.apply lib series sc st f' pChoice component M n cutOff steep).2.history.get? "filter" := by
  have hl := C155_ls (lib := lib) (st := st) rfl f f' component L 0 0 tol
  have hg := C155_grid (lib := lib) (st := st) rfl f f' t t' component pChoice L 0 0 num mu cutOff steep
  have hc := C155_edge_flow_chebyshev (lib := lib) (st := st) (st' := st) f f' t t' component pChoice muVals series M n
    cutOff steep
  have k1 : "filter" ∉ estimateKeys := by decide
  have k2 : "filter" ∉ chebyshevKeys := by decide
  have k3 : "filter" ≠ "extracted_component_error" := by decide
  exact ⟨C155_entries _ hl.1.2 _ k1 k3, C155_entries _ hl.2.1.2 _ k1 k3, C155_entries _ hg.1.2 _ k1 k3,
    C155_entries _ hg.2.1.2 _ k1 k3, C155_entries _ (hc.1 rfl).2 _ k1 k3, C155_entries _ (hc.2 rfl).2 _ k2 k3⟩

end independent

end Pytspl
