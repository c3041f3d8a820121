import Verif.Props.FilterHistory
import Verif.Props.Chebyshev
import Verif.Model.EdgeFlowDenoising
import Verif.Model.TrendFilter

/-!
# C109: what a filter object remembers after any sequence of calls
-/

namespace Pytspl

/-- A call on a filter object that records its result: one of the methods of the grid based, the Chebyshev and
the edge-flow denoising filters (a sequence of calls on one object uses the methods of its class). -/
inductive DesignCall (E : ℕ)
  | gridDenoise (f fTrue : Fin E → ℝ) (pChoice : String) (L : Int) (mu : ℝ)
  | gridExtract (f : Fin E → ℝ) (component pChoice : String) (L num : Int) (mu cutOff steep : ℝ)
  | chebyshev (f : Fin E → ℝ) (pChoice component : String) (L : ℕ) (n : Option ℕ) (cutOff steep : ℝ)
  | edgeFlow (f fTrue : Fin E → ℝ) (pChoice : String) (muVals : List ℝ)

/-- making the call on an object in some state -/
noncomputable def DesignCall.run (lib : NumLib) (series : ChebSeries) (sc : SC ℝ) :
    DesignCall sc.E → FilterSt sc.E → Py Unit × FilterSt sc.E
  | .gridDenoise f fTrue p L mu, st => GridFilter.denoise lib sc st f fTrue p L mu
  | .gridExtract f c p L num mu cutOff steep, st =>
    GridFilter.subcomponentExtraction lib sc st f c p L num mu cutOff steep
  | .chebyshev f p c L n cutOff steep, st => Cheb.apply lib series sc st f p c L n cutOff steep
  | .edgeFlow f fTrue p mus, st => edgeFlowDenoise lib sc st f fTrue p mus

/-- the state after a sequence of calls, exceptions caught by the caller -/
noncomputable def runDesigns (lib : NumLib) (series : ChebSeries) (sc : SC ℝ) (calls : List (DesignCall sc.E))
    (st : FilterSt sc.E) : FilterSt sc.E :=
  calls.foldl (fun st c => (c.run lib series sc st).2) st

variable {lib : NumLib} {series : ChebSeries} {sc : SC ℝ}

private theorem design_of (c : DesignCall sc.E) : ∃ r : Py (Design sc.E), ∀ st, c.run lib series sc st =
    match r with
    | .error e => (.error e, st)
    | .ok d => (.ok (), setHistory st d) := by
  cases c with
  | gridDenoise f fTrue p L mu =>
    refine ⟨(GridFilter.denoiseDesign lib sc f fTrue p L mu).map Applied.design, fun st => ?_⟩
    simp only [DesignCall.run, GridFilter.denoise, recordDesign]
    cases GridFilter.denoiseDesign lib sc f fTrue p L mu <;> rfl
  | gridExtract f c p L num mu cutOff steep =>
    refine ⟨(GridFilter.extractionDesign lib sc f c p L num mu cutOff steep).map Applied.design, fun st => ?_⟩
    simp only [DesignCall.run, GridFilter.subcomponentExtraction, recordDesign]
    cases GridFilter.extractionDesign lib sc f c p L num mu cutOff steep <;> rfl
  | chebyshev f p c L n cutOff steep =>
    exact ⟨Cheb.applyDesign lib series sc f p c L n cutOff steep, fun st => rfl⟩
  | edgeFlow f fTrue p mus => exact ⟨edgeFlowDesign lib sc f fTrue p mus, fun st => rfl⟩

/-- C109: a call that raises changes nothing at all: neither the recorded results nor any dictionary the caller kept. -/
theorem C109_failure (c : DesignCall sc.E) (st : FilterSt sc.E) (e : PyErr)
    (h : (c.run lib series sc st).1 = .error e) : (c.run lib series sc st).2 = st := by
  obtain ⟨r, hr⟩ := design_of (lib := lib) (series := series) c
  rw [hr] at h ⊢
  cases r with
  | error e' => rfl
  | ok d => cases h

/-- C109: whether a call raises does not depend on what was called before. -/
theorem C109_outcome (c : DesignCall sc.E) (st st' : FilterSt sc.E) :
    (c.run lib series sc st).1 = (c.run lib series sc st').1 := by
  obtain ⟨r, hr⟩ := design_of (lib := lib) (series := series) c
  rw [hr, hr]
  cases r <;> rfl

private theorem full_set (a b c d e : HVal sc.E) (st : FilterSt sc.E) (hv : st.Valid)
    (h : st.history = [("filter", a), ("f_estimated", b), ("frequency_responses", c),
      ("extracted_component_error", d), ("filter_error", e)]) (D : Design sc.E) :
    (setHistory st D).history = [("filter", D.filter), ("f_estimated", D.fEstimated),
      ("frequency_responses", D.frequencyResponses), ("extracted_component_error", D.extractedComponentError),
      ("filter_error", D.filterError)] := by
  have := setHistory_deref st hv D
  unfold FilterSt.history at h ⊢
  rw [setHistory_cur, this, h]
  rfl

open Classical in
/-- C109: after any sequence of calls on a new object, in which any number may have raised, the object holds exactly
the record of the last call that returned, as if that were the only call ever made; it holds nothing if every call
raised. -/
theorem C109_last_success (lib : NumLib) (series : ChebSeries) (sc : SC ℝ) (calls : List (DesignCall sc.E)) :
    (runDesigns lib series sc calls (initFilter _)).history =
      match (calls.filter fun c => (c.run lib series sc (initFilter _)).1 = .ok ()).getLast? with
      | none => (initFilter sc.E).history
      | some c => (c.run lib series sc (initFilter _)).2.history := by
  have hinit : (initFilter sc.E).history = [("filter", .none), ("f_estimated", .none), ("frequency_responses", .none),
      ("extracted_component_error", .none), ("filter_error", .none)] := rfl
  have hval : (initFilter sc.E).Valid := by simp [FilterSt.Valid, initFilter]
  have key : ∀ calls : List (DesignCall sc.E), (runDesigns lib series sc calls (initFilter _)).Valid ∧
      (∃ a b c d e, (runDesigns lib series sc calls (initFilter _)).history = [("filter", a), ("f_estimated", b),
        ("frequency_responses", c), ("extracted_component_error", d), ("filter_error", e)]) ∧
      (runDesigns lib series sc calls (initFilter _)).history =
      match (calls.filter fun c => (c.run lib series sc (initFilter _)).1 = .ok ()).getLast? with
      | none => (initFilter sc.E).history
      | some c => (c.run lib series sc (initFilter _)).2.history := by
    intro calls
    induction calls using List.reverseRecOn with
    | nil => exact ⟨hval, ⟨_, _, _, _, _, hinit⟩, rfl⟩
    | append_singleton calls c ih =>
      obtain ⟨i1, ⟨a, b, c', d, e, i2⟩, i3⟩ := ih
      have hstep : runDesigns lib series sc (calls ++ [c]) (initFilter _) =
          (c.run lib series sc (runDesigns lib series sc calls (initFilter _))).2 := by
        simp [runDesigns]
      obtain ⟨r, hr⟩ := design_of (lib := lib) (series := series) c
      rw [hstep, hr, List.filter_append]
      cases r with
      | error er =>
        have : ¬ (c.run lib series sc (initFilter _)).1 = .ok () := by rw [hr]; simp
        have hf : [c].filter (fun c => (c.run lib series sc (initFilter _)).1 = .ok ()) = [] := by simp [this]
        rw [hf, List.append_nil]
        exact ⟨i1, ⟨a, b, c', d, e, i2⟩, i3⟩
      | ok D =>
        have : (c.run lib series sc (initFilter _)).1 = .ok () := by rw [hr]
        have hf : [c].filter (fun c => (c.run lib series sc (initFilter _)).1 = .ok ()) = [c] := by simp [this]
        rw [hf, List.getLast?_concat]
        have h1 := full_set a b c' d e _ i1 i2 D
        have h2 := full_set _ _ _ _ _ _ hval hinit D
        refine ⟨?_, ⟨_, _, _, _, _, h1⟩, ?_⟩
        · unfold FilterSt.Valid at i1 ⊢
          simpa using i1
        · simp only [hr]
          rw [h1, h2]
  exact (key calls).2.2

/-- A sequence in which a call with an unknown matrix name follows a successful one: the filter of the first survives. -/
example (f : Fin tri.E → ℝ) :
    ((DesignCall.edgeFlow f f "nope" [1]).run lib series tri (initFilter _)).1 = .error .valueError ∧
    (runDesigns lib series tri [.edgeFlow f f "L1" [1], .edgeFlow f f "nope" [1]] (initFilter _)).history =
      ((DesignCall.edgeFlow f f "L1" [1]).run lib series tri (initFilter _)).2.history := by
  have h : ((DesignCall.edgeFlow f f "nope" [1]).run lib series tri (initFilter _)).1 = .error .valueError := by
    simp [DesignCall.run, edgeFlowDenoise, edgeFlowDesign, SC.getPMatrix, bind, Except.bind]
  refine ⟨h, ?_⟩
  have h' : ∀ st, ((DesignCall.edgeFlow f f "nope" [1]).run lib series tri st).1 = .error .valueError := fun st =>
    (C109_outcome _ st _).trans h
  simp only [runDesigns, List.foldl_cons, List.foldl_nil]
  rw [C109_failure _ _ _ (h' _)]

/-! ## The trend filter -/

/-- a call on a trend filter -/
inductive TrendCall (E : ℕ)
  | l2 (flow : Fin E → ℝ) (component : String) (num : ℕ) (snrDb : List ℝ) (mu : ℝ) (noise : ℕ → ℕ → Fin E → ℝ)
  | l1 (flow : Fin E → ℝ) (component : String) (num : ℕ) (snrDb : List ℝ) (order : Int) (mu : ℝ)
      (noise : ℕ → ℕ → Fin E → ℝ)
  | interpolate (sampler : Sampler E) (flow : Fin E → ℝ) (component : String) (ratio : List ℝ) (num : ℕ)
      (order : Int) (mu : ℝ)

/-- making the call -/
noncomputable def TrendCall.run (cvx : CvxSolver) (sc : SC ℝ) :
    TrendCall sc.E → TrendHistory sc.E → Py Unit × TrendHistory sc.E
  | .l2 flow c num snr mu noise, st => sc.denoisingL2 st flow c num snr mu noise
  | .l1 flow c num snr order mu noise, st => sc.denoisingL1 cvx st flow c num snr order mu noise
  | .interpolate sampler flow c ratio num order mu, st => sc.interpolationL1 cvx sampler st flow c ratio num order mu

open Classical in
/-- C109: the same for trend filters, whatever noise and samples are drawn. -/
theorem C109_trend (cvx : CvxSolver) (sc : SC ℝ) (calls : List (TrendCall sc.E)) :
    (∀ (c : TrendCall sc.E) (st : TrendHistory sc.E) (e : PyErr), (c.run cvx sc st).1 = .error e →
      (c.run cvx sc st).2 = st) ∧
    calls.foldl (fun st c => (c.run cvx sc st).2) {} =
      match (calls.filter fun c => (c.run cvx sc {}).1 = .ok ()).getLast? with
      | none => {}
      | some c => (c.run cvx sc {}).2 := by
  have hd : ∀ c : TrendCall sc.E, ∃ r : Py (TrendHistory sc.E), ∀ st, c.run cvx sc st = SC.commitHistory st r := by
    intro c
    cases c with
    | l2 flow c num snr mu noise => exact ⟨_, fun st => rfl⟩
    | l1 flow c num snr order mu noise => exact ⟨_, fun st => rfl⟩
    | interpolate sampler flow c ratio num order mu => exact ⟨_, fun st => rfl⟩
  constructor
  · intro c st e h
    obtain ⟨r, hr⟩ := hd c
    rw [hr] at h ⊢
    cases r with
    | error e' => rfl
    | ok d => cases h
  · induction calls using List.reverseRecOn with
    | nil => rfl
    | append_singleton calls c ih =>
      obtain ⟨r, hr⟩ := hd c
      rw [List.foldl_append, List.filter_append, ih]
      simp only [List.foldl_cons, List.foldl_nil]
      cases r with
      | error er =>
        have : ¬ (c.run cvx sc {}).1 = .ok () := by rw [hr]; simp [SC.commitHistory]
        have hf : [c].filter (fun c => (c.run cvx sc {}).1 = .ok ()) = [] := by simp [this]
        rw [hf, List.append_nil, hr]
        rfl
      | ok D =>
        have : (c.run cvx sc {}).1 = .ok () := by rw [hr]; rfl
        have hf : [c].filter (fun c => (c.run cvx sc {}).1 = .ok ()) = [c] := by simp [this]
        rw [hf, List.getLast?_concat]
        simp only [hr]
        rfl

end Pytspl
