import Verif.Props.ExactFilters

/-!
# C55-C58, C87, C88: general_filter and the history of the polynomial filters
-/

namespace Pytspl

open Matrix Polynomial

variable {lib : NumLib} {sc : SC ℝ} {E : ℕ}

/-! ## One branch of general_filter -/

private theorem branch_skip (hist : ℕ) (key : String) (size : Int) (hs : size ≤ 0)
    (run : FilterSt E → Py Unit × FilterSt E) (st : FilterSt E) :
    generalBranch hist key size run st = (.ok 0, st) := by
  rw [generalBranch, if_neg (by omega)]

/-- a branch that runs a design recorded in the dictionary at `s0.cur`, where `s0` is the state the
design starts to write in -/
private theorem branch_run (hist : ℕ) (key : String) (size : Int) (hs : 0 < size)
    (pre : FilterSt E → FilterSt E) (r : Py (Applied E)) (st : FilterSt E) (hv : (pre st).Valid)
    {v : Fin E → ℝ} {st' : FilterSt E}
    (h : generalBranch hist key size (fun st => recordDesign (pre st) r) st = (.ok v, st')) :
    ∃ a, r = .ok a ∧ v = a.fEst ∧
      st' = (setHistory (pre st) a.design).setKey hist key (.ref (pre st).cur) := by
  rw [generalBranch, if_pos hs] at h
  cases r with
  | error e => simp [recordDesign] at h
  | ok a =>
    have hr : readEstimate (setHistory (pre st) a.design) = .ok a.fEst := by
      obtain ⟨-, g2, -⟩ := setHistory_get (pre st) hv a.design
      rw [readEstimate, FilterSt.history, setHistory_cur, g2]; rfl
    simp only [recordDesign, hr, Prod.mk.injEq, Except.ok.injEq] at h
    exact ⟨a, rfl, h.1.symm, h.2.symm⟩

private theorem general_inv {f : Fin E → ℝ} {L1 L2 : Int} {runG runC : FilterSt E → Py Unit × FilterSt E}
    {st st' : FilterSt E} {h c g : Fin E → ℝ}
    (hr : generalFilter f L1 L2 runG runC st = (.ok (h, c, g), st')) :
    ∃ s1 s2 : FilterSt E,
      generalBranch st.heap.length "L1" L1 runG (st.alloc [("L1", .none), ("L2", .none)]).2 = (.ok g, s1) ∧
      generalBranch st.heap.length "L2" L2 runC s1 = (.ok c, s2) ∧ h = f - g - c ∧
      st' = { s2 with cur := st.heap.length } := by
  unfold generalFilter at hr
  simp only [FilterSt.alloc] at hr
  cases h1 : generalBranch st.heap.length "L1" L1 runG
      { st with heap := st.heap ++ [[("L1", .none), ("L2", .none)]] } with
  | mk o s1 =>
    rw [h1] at hr
    cases o with
    | error e => simp at hr
    | ok g' =>
      simp only at hr
      cases h2 : generalBranch st.heap.length "L2" L2 runC s1 with
      | mk o2 s2 =>
        rw [h2] at hr
        cases o2 with
        | error e => simp at hr
        | ok c' =>
          simp only [Prod.mk.injEq, Except.ok.injEq] at hr
          obtain ⟨⟨e1, e2, e3⟩, e4⟩ := hr
          subst e2 e3
          exact ⟨s1, s2, h1, h2, e1.symm, e4.symm⟩

/-! ## C55 -/

/-- What a separate extraction call on any filter object of the class returns as its estimate. -/
def Estimates (run : FilterSt E → Py Unit × FilterSt E) (v : Fin E → ℝ) : Prop :=
  ∀ st : FilterSt E, st.Valid → ∃ st', run st = (.ok (), st') ∧
    st'.history.get? "f_estimated" = some (.vec v)

private theorem estimates_of (pre : FilterSt E → FilterSt E) (hpre : ∀ st, st.Valid → (pre st).Valid)
    {r : Py (Applied E)} {a : Applied E} (hr : r = .ok a) :
    Estimates (fun st => recordDesign (pre st) r) a.fEst := by
  intro st hst
  subst hr
  refine ⟨_, rfl, ?_⟩
  obtain ⟨-, g2, -⟩ := setHistory_get (pre st) (hpre st hst) a.design
  rw [FilterSt.history, setHistory_cur, g2]; rfl

private theorem C55_core {f : Fin E → ℝ} {L1 L2 : Int} (pre : FilterSt E → FilterSt E)
    (hpre : ∀ st, st.Valid → (pre st).Valid)
    (rg rc : Py (Applied E)) {st st' : FilterSt E} (hst : st.Valid) {h c g : Fin E → ℝ}
    (hr : generalFilter f L1 L2 (fun st => recordDesign (pre st) rg)
      (fun st => recordDesign (pre st) rc) st = (.ok (h, c, g), st')) :
    h + c + g = f ∧ (L1 ≤ 0 → g = 0) ∧ (L2 ≤ 0 → c = 0) ∧
    (0 < L1 → Estimates (fun st => recordDesign (pre st) rg) g) ∧
    (0 < L2 → Estimates (fun st => recordDesign (pre st) rc) c) := by
  obtain ⟨s1, s2, b1, b2, rfl, -⟩ := general_inv hr
  have hv0 : (st.alloc [("L1", .none), ("L2", .none)]).2.Valid := by
    unfold FilterSt.Valid at *; simp; omega
  have hs1 : s1.Valid := by
    by_cases h1 : 0 < L1
    · obtain ⟨a, -, -, rfl⟩ := branch_run _ _ _ h1 pre rg _ (hpre _ hv0) b1
      have := hpre _ hv0
      unfold FilterSt.Valid at *
      simpa using this
    · rw [branch_skip _ _ _ (by omega)] at b1
      simp only [Prod.mk.injEq, Except.ok.injEq] at b1
      rw [← b1.2]; exact hv0
  refine ⟨by abel, ?_, ?_, ?_, ?_⟩
  · intro h1
    rw [branch_skip _ _ _ h1] at b1
    simp only [Prod.mk.injEq, Except.ok.injEq] at b1
    exact b1.1.symm
  · intro h1
    rw [branch_skip _ _ _ h1] at b2
    simp only [Prod.mk.injEq, Except.ok.injEq] at b2
    exact b2.1.symm
  · intro h1
    obtain ⟨a, ha, rfl, -⟩ := branch_run _ _ _ h1 pre rg _ (hpre _ hv0) b1
    exact estimates_of pre hpre ha
  · intro h1
    obtain ⟨a, ha, rfl, -⟩ := branch_run _ _ _ h1 pre rc _ (hpre _ hs1) b2
    exact estimates_of pre hpre ha

/-- C55 for `LSFilterDesign.general_filter`: the returned components add up to the flow; a non-positive
size gives a zero component; a positive size gives what the type-two extraction gives. -/
theorem C55_ls (st st' : FilterSt sc.E) (f h c g : Fin sc.E → ℝ) (L1 L2 : Int) (tol : ℝ)
    (hr : LSFilter.generalFilter lib sc st f L1 L2 tol = (.ok (h, c, g), st')) :
    h + c + g = f ∧ (L1 ≤ 0 → g = 0) ∧ (L2 ≤ 0 → c = 0) ∧
    (0 < L1 → Estimates (fun s => LSFilter.typeTwo lib sc s f "gradient" L1 tol) g) ∧
    (0 < L2 → Estimates (fun s => LSFilter.typeTwo lib sc s f "curl" L2 tol) c) :=
  C55_core resetHistory (fun st _ => resetHistory_valid st) _ _
    (resetHistory_valid st) hr

/-- C55 for `GridBasedFilterDesign.general_filter`. -/
theorem C55_grid (st st' : FilterSt sc.E) (hst : st.Valid) (f h c g : Fin sc.E → ℝ) (L1 L2 : Int)
    (hr : GridFilter.generalFilter lib sc st f L1 L2 = (.ok (h, c, g), st')) :
    h + c + g = f ∧ (L1 ≤ 0 → g = 0) ∧ (L2 ≤ 0 → c = 0) ∧
    (0 < L1 → Estimates (fun s => GridFilter.subcomponentExtraction lib sc s f "gradient" "L1L" L1) g) ∧
    (0 < L2 → Estimates (fun s => GridFilter.subcomponentExtraction lib sc s f "curl" "L1U" L2) c) :=
  C55_core (fun st => st) (fun _ h => h) _ _ hst hr

/-- C55: with both sizes non-positive the call always returns the flow as harmonic component. -/
theorem C55_skip (st : FilterSt sc.E) (f : Fin sc.E → ℝ) (L1 L2 : Int) (h1 : L1 ≤ 0) (h2 : L2 ≤ 0)
    (tol : ℝ) :
    (∃ st', LSFilter.generalFilter lib sc st f L1 L2 tol = (.ok (f, 0, 0), st')) ∧
    (∃ st', GridFilter.generalFilter lib sc st f L1 L2 = (.ok (f, 0, 0), st')) := by
  constructor
  · simp only [LSFilter.generalFilter, generalFilter, branch_skip _ _ _ h1, branch_skip _ _ _ h2,
      sub_zero]
    exact ⟨_, rfl⟩
  · simp only [GridFilter.generalFilter, generalFilter, branch_skip _ _ _ h1, branch_skip _ _ _ h2,
      sub_zero]
    exact ⟨_, rfl⟩

/-! ## C56 -/

/-- C56: after `LSFilterDesign.general_filter` with positive sizes the two entries of the history are two
different dictionaries, equal to what separate type-two calls for the gradient and the curl record, and
their estimates are the returned components - whatever happened before. -/
theorem C56_ls_history (st st' : FilterSt sc.E) (f h c g : Fin sc.E → ℝ) (L1 L2 : Int) (tol : ℝ)
    (h1 : 0 < L1) (h2 : 0 < L2)
    (hr : LSFilter.generalFilter lib sc st f L1 L2 tol = (.ok (h, c, g), st')) :
    ∃ a1 a2, st'.history.get? "L1" = some (.ref a1) ∧ st'.history.get? "L2" = some (.ref a2) ∧
      a1 ≠ a2 ∧
      (∀ s, ∃ s', LSFilter.typeTwo lib sc s f "gradient" L1 tol = (.ok (), s') ∧
        st'.deref a1 = s'.history) ∧
      (∀ s, ∃ s', LSFilter.typeTwo lib sc s f "curl" L2 tol = (.ok (), s') ∧
        st'.deref a2 = s'.history) ∧
      (st'.deref a1).get? "f_estimated" = some (.vec g) ∧
      (st'.deref a2).get? "f_estimated" = some (.vec c) := by
  unfold LSFilter.generalFilter at hr
  obtain ⟨s1, s2, b1, b2, -, rfl⟩ := general_inv hr
  obtain ⟨a, ha, rfl, rfl⟩ := branch_run _ _ _ h1 resetHistory _ _ (resetHistory_valid _) b1
  obtain ⟨b, hb, rfl, rfl⟩ := branch_run _ _ _ h2 resetHistory _ _ (resetHistory_valid _) b2
  clear b1 b2 hr
  set t0 := resetHistory st with ht0
  set t1 := (t0.alloc [("L1", .none), ("L2", .none)]).2 with ht1
  have l1 : t1.heap.length = t0.heap.length + 1 := by rw [ht1]; simp
  set t2 := (setHistory (resetHistory t1) a.design).setKey t0.heap.length "L1"
    (.ref (resetHistory t1).cur) with ht2
  have l2 : t2.heap.length = t0.heap.length + 2 := by rw [ht2]; simp [l1]
  have c1 : (resetHistory t1).cur = t0.heap.length + 1 := by rw [resetHistory_cur, l1]
  have c2 : (resetHistory t2).cur = t0.heap.length + 2 := by rw [resetHistory_cur, l2]
  -- the dictionary of a fresh reset does not depend on the state
  have hfresh : ∀ (s : FilterSt sc.E) (d : Design sc.E), (setHistory (resetHistory s) d).history =
      (setHistory (resetHistory t0) d).history := by
    intro s d
    have e : ∀ s : FilterSt sc.E, (setHistory (resetHistory s) d).history =
        (((((resetHistory s).history.set "filter" d.filter).set "f_estimated" d.fEstimated).set
        "frequency_responses" d.frequencyResponses).set
        "extracted_component_error" d.extractedComponentError).set "filter_error" d.filterError := by
      intro s
      rw [FilterSt.history, setHistory_cur, setHistory_deref _ (resetHistory_valid s)]; rfl
    rw [e, e, resetHistory_history, resetHistory_history]
  -- contents of the three dictionaries at the end
  have dh2 : t2.deref t0.heap.length =
      Dict.set [("L1", .none), ("L2", .none)] "L1" (.ref (t0.heap.length + 1)) := by
    rw [ht2, FilterSt.deref_setKey_self (by simp [l1]), setHistory_deref_ne _ _ (by rw [c1]; omega),
      resetHistory_deref_old _ (by rw [l1]; omega), ht1, FilterSt.alloc_deref_new, c1]
  have d1 : t2.deref (t0.heap.length + 1) = (setHistory (resetHistory t0) a.design).history := by
    rw [ht2, FilterSt.deref_setKey_ne (by omega), ← hfresh t1, FilterSt.history, setHistory_cur, c1]
  set t3 := (setHistory (resetHistory t2) b.design).setKey t0.heap.length "L2"
    (.ref (resetHistory t2).cur) with ht3
  have dh3 : t3.deref t0.heap.length = Dict.set
      (Dict.set [("L1", .none), ("L2", .none)] "L1" (.ref (t0.heap.length + 1))) "L2"
        (.ref (t0.heap.length + 2)) := by
    rw [ht3, FilterSt.deref_setKey_self (by simp [l2]), setHistory_deref_ne _ _ (by rw [c2]; omega),
      resetHistory_deref_old _ (by rw [l2]; omega), dh2, c2]
  have d13 : t3.deref (t0.heap.length + 1) = (setHistory (resetHistory t0) a.design).history := by
    rw [ht3, FilterSt.deref_setKey_ne (by omega), setHistory_deref_ne _ _ (by rw [c2]; omega),
      resetHistory_deref_old _ (by rw [l2]; omega), d1]
  have d23 : t3.deref (t0.heap.length + 2) = (setHistory (resetHistory t0) b.design).history := by
    rw [ht3, FilterSt.deref_setKey_ne (by omega), ← hfresh t2, FilterSt.history, setHistory_cur, c2]
  refine ⟨t0.heap.length + 1, t0.heap.length + 2, ?_, ?_, by omega, ?_, ?_, ?_, ?_⟩
  · show (t3.deref t0.heap.length).get? "L1" = _
    rw [dh3, Dict.get?_set_ne _ (by decide), Dict.get?_set_self]
  · show (t3.deref t0.heap.length).get? "L2" = _
    rw [dh3, Dict.get?_set_self]
  · intro s
    refine ⟨setHistory (resetHistory s) a.design, by rw [LSFilter.typeTwo, ha]; rfl, ?_⟩
    show t3.deref _ = _
    rw [d13, hfresh s]
  · intro s
    refine ⟨setHistory (resetHistory s) b.design, by rw [LSFilter.typeTwo, hb]; rfl, ?_⟩
    show t3.deref _ = _
    rw [d23, hfresh s]
  · show (t3.deref _).get? _ = _
    rw [d13]
    exact (setHistory_get _ (resetHistory_valid t0) a.design).2.1
  · show (t3.deref _).get? _ = _
    rw [d23]
    exact (setHistory_get _ (resetHistory_valid t0) b.design).2.1

/-- type-two calls with a proper component and size always succeed on a complex with an edge -/
theorem typeTwo_total (lib : NumLib) (sc : SC ℝ) (hE : 0 < sc.E) (f : Fin sc.E → ℝ) (component : String)
    (hc : component = "gradient" ∨ component = "curl") (L : Int) (hL : 0 < L) (tol : ℝ) :
    ∃ a, LSFilter.typeTwoDesign lib sc f component L tol = .ok a := by
  obtain ⟨g, c, h, hp⟩ := HodgeParts.exists lib sc f
  have key : ∀ (P : Matrix (Fin sc.E) (Fin sc.E) ℝ) (w fTrue : Fin sc.E → ℝ), ∃ a,
      applyFilter lib f fTrue P (lib.eigh _ P).2
        (npUnique ((List.ofFn w).map fun x => if |x| < tol then 0 else x))
        ([0] ++ List.replicate
          ((npUnique ((List.ofFn w).map fun x => if |x| < tol then 0 else x)).length - 1) 1) L =
        .ok a := by
    intro P w fTrue
    refine ⟨_, applyFilter_eq lib _ _ _ _ _ _ L hL ?_⟩
    have : 0 < (npUnique ((List.ofFn w).map fun x => if |x| < tol then 0 else x)).length := by
      have : (if |w ⟨0, hE⟩| < tol then 0 else w ⟨0, hE⟩) ∈
          npUnique ((List.ofFn w).map fun x => if |x| < tol then 0 else x) := by
        simp only [npUnique, Finset.mem_sort, List.mem_toFinset, List.mem_map, List.mem_ofFn]
        exact ⟨w ⟨0, hE⟩, ⟨_, rfl⟩, rfl⟩
      exact List.length_pos_of_mem this
    simp only [List.length_append, List.length_cons, List.length_nil, List.length_replicate]
    omega
  unfold LSFilter.typeTwoDesign
  rcases hc with rfl | rfl
  · obtain ⟨a, ha⟩ := key sc.L1l
      (fun i => if |(lib.eigh sc.E sc.L1l).1 i| < machineEps then 0 else (lib.eigh sc.E sc.L1l).1 i) g
    refine ⟨a, ?_⟩
    simp only [if_true, bind, Except.bind, getEigendecomposition_dense lib hE, SC.getTrueSignal, hp.grad]
    exact ha
  · obtain ⟨a, ha⟩ := key sc.L1u
      (fun i => if |(lib.eigh sc.E sc.L1u).1 i| < machineEps then 0 else (lib.eigh sc.E sc.L1u).1 i) c
    refine ⟨a, ?_⟩
    simp only [if_true, if_neg (show ¬ ("curl" = "gradient") by decide), bind, Except.bind,
      getEigendecomposition_dense lib hE, SC.getTrueSignal, hp.curl]
    exact ha

/-- so `general_filter` of the least-squares design always succeeds on a complex with an edge, and the
hypotheses of C55 and C56 are met by every such complex, flow and pair of sizes -/
theorem C55_ls_total (lib : NumLib) (sc : SC ℝ) (hE : 0 < sc.E) (st : FilterSt sc.E)
    (f : Fin sc.E → ℝ) (L1 L2 : Int) (tol : ℝ) :
    ∃ h c g st', LSFilter.generalFilter lib sc st f L1 L2 tol = (.ok (h, c, g), st') := by
  have hb : ∀ (hist : ℕ) (key : String) (size : Int) (component : String),
      (component = "gradient" ∨ component = "curl") → ∀ s : FilterSt sc.E, ∃ v s',
      generalBranch hist key size (fun st => LSFilter.typeTwo lib sc st f component size tol) s =
        (.ok v, s') := by
    intro hist key size component hc s
    by_cases hs : 0 < size
    · obtain ⟨a, ha⟩ := typeTwo_total lib sc hE f component hc size hs tol
      have hr : readEstimate (setHistory (resetHistory s) a.design) = .ok a.fEst := by
        obtain ⟨-, g2, -⟩ := setHistory_get _ (resetHistory_valid s) a.design
        rw [readEstimate, FilterSt.history, setHistory_cur, g2]; rfl
      refine ⟨a.fEst, (setHistory (resetHistory s) a.design).setKey hist key
        (.ref (setHistory (resetHistory s) a.design).cur), ?_⟩
      rw [generalBranch, if_pos hs]
      simp only [LSFilter.typeTwo, ha, recordDesign, hr]
    · exact ⟨0, s, branch_skip _ _ _ (by omega) _ _⟩
  unfold LSFilter.generalFilter generalFilter
  simp only [FilterSt.alloc]
  obtain ⟨g, s1, e1⟩ := hb (resetHistory st).heap.length "L1" L1 "gradient" (.inl rfl)
    { resetHistory st with heap := (resetHistory st).heap ++ [[("L1", .none), ("L2", .none)]] }
  rw [e1]
  obtain ⟨c, s2, e2⟩ := hb (resetHistory st).heap.length "L2" L2 "curl" (.inr rfl) s1
  simp only [e2]
  exact ⟨_, _, _, _, rfl⟩

example (lib : NumLib) : ∃ h c g st',
    LSFilter.generalFilter lib k4Tri (initFilter _) (fun _ => 1) 2 3 = (.ok (h, c, g), st') :=
  C55_ls_total lib k4Tri (by decide) _ _ _ _ _

/-! ## C87: exact general filter -/

/-- C87: if the lower and the upper Laplacian have the eigenvalue 0 and none strictly between 0 and the
tolerance, then `LSFilterDesign.general_filter` with sizes at least the numbers of distinct eigenvalues
returns exactly the Hodge decomposition of the flow. -/
theorem C87_general_filter_exact (st : FilterSt sc.E) (f g c h : Fin sc.E → ℝ)
    (hp : HodgeParts lib sc f g c h) (tol : ℝ) (ht : machineEps ≤ tol)
    (h0 : IsEigenvalue sc.L1l 0) (h0' : IsEigenvalue sc.L1u 0)
    (hgap : ∀ lam, IsEigenvalue sc.L1l lam ∨ IsEigenvalue sc.L1u lam → ¬ (0 < lam ∧ lam < tol))
    (L1 L2 : Int) (hL1 : (sc.L1l.charpoly.roots.toFinset.card : Int) ≤ L1)
    (hL2 : (sc.L1u.charpoly.roots.toFinset.card : Int) ≤ L2) :
    ∃ st', LSFilter.generalFilter lib sc st f L1 L2 tol = (.ok (h, c, g), st') := by
  have hE : 0 < sc.E := by
    obtain ⟨v, hv, -⟩ := h0
    by_contra h
    apply hv; funext i; exact absurd i.isLt (by omega)
  obtain ⟨h', c', g', st', hr⟩ := C55_ls_total lib sc hE st f L1 L2 tol
  have hpos : ∀ {P : Matrix (Fin sc.E) (Fin sc.E) ℝ}, SymmPSD P → 0 < P.charpoly.roots.toFinset.card := by
    intro P hP
    rw [Finset.card_pos]
    exact ⟨(lib.eigh _ P).1 ⟨0, hE⟩, by rw [(lib.isEig hP).roots_eq]; simp⟩
  have p1 := hpos (symmPSD_L1l sc)
  have p2 := hpos (symmPSD_L1u sc)
  obtain ⟨e0, -, -, e1, e2⟩ := C55_ls st st' f h' c' g' L1 L2 tol hr
  obtain ⟨s1, r1, r2⟩ := e1 (by omega) (initFilter _) (by simp [FilterSt.Valid, initFilter])
  obtain ⟨s2, r3, r4⟩ := e2 (by omega) (initFilter _) (by simp [FilterSt.Valid, initFilter])
  obtain ⟨t1, q1, q2, -⟩ := C53_gradient (initFilter _) f g hp.grad tol ht h0
    (fun lam hl => hgap lam (.inl hl)) L1 hL1
  obtain ⟨t2, q3, q4, -⟩ := C53_curl (initFilter _) f c hp.curl tol ht h0'
    (fun lam hl => hgap lam (.inr hl)) L2 hL2
  have q1 := r1.symm.trans q1
  have q3 := r3.symm.trans q3
  have a1 : s1 = t1 := congrArg Prod.snd q1
  have a2 : s2 = t2 := congrArg Prod.snd q3
  rw [← a1, r2] at q2
  rw [← a2, r4] at q4
  simp only [Option.some.injEq, HVal.vec.injEq] at q2 q4
  subst q2 q4
  have hs := C18_components_sum f g' c' h hp
  have : h' = h := by
    have : h' = f - c' - g' := by rw [← e0]; abel
    rw [this, ← hs]; abel
  rw [← this]
  exact ⟨st', hr⟩

example (lib : NumLib) (f : Fin k4Tri.E → ℝ) : ∃ g c h st' L1 L2, HodgeParts lib k4Tri f g c h ∧
    LSFilter.generalFilter lib k4Tri (initFilter _) f L1 L2 = (.ok (h, c, g), st') := by
  obtain ⟨g, c, h, hp⟩ := HodgeParts.exists lib k4Tri f
  obtain ⟨st', hr⟩ := C87_general_filter_exact (initFilter _) f g c h hp (1 / 1000) machineEps_le
    k4Tri_lower_zero k4Tri_upper_zero (fun lam hl hh => by
      rcases hl with hl | hl
      · rcases k4Tri_lower hl with rfl | rfl
        · linarith [hh.1]
        · linarith [hh.2]
      · rcases k4Tri_upper hl with rfl | rfl
        · linarith [hh.1]
        · linarith [hh.2]) _ _ le_rfl le_rfl
  exact ⟨g, c, h, st', _, _, hp, hr⟩

/-! ## C57 -/

/-- C57, what the code does: after `GridBasedFilterDesign.general_filter` with positive sizes both
entries of the history refer to one dictionary, and it records the curl design. -/
theorem C57_aliasing (st st' : FilterSt sc.E) (hst : st.Valid) (f h c g : Fin sc.E → ℝ) (L1 L2 : Int)
    (h1 : 0 < L1) (h2 : 0 < L2)
    (hr : GridFilter.generalFilter lib sc st f L1 L2 = (.ok (h, c, g), st')) :
    ∃ a, st'.history.get? "L1" = some (.ref a) ∧ st'.history.get? "L2" = some (.ref a) ∧
      (st'.deref a).get? "f_estimated" = some (.vec c) ∧
      ∃ resp, (st'.deref a).get? "frequency_responses" = some (.rows resp) ∧ (resp.length : Int) = L2 := by
  unfold GridFilter.generalFilter at hr
  obtain ⟨s1, s2, b1, b2, -, rfl⟩ := general_inv hr
  have hv0 : (st.alloc [("L1", .none), ("L2", .none)]).2.Valid := by
    unfold FilterSt.Valid at *; simp; omega
  obtain ⟨a, ha, rfl, rfl⟩ := branch_run _ _ _ h1 (fun st => st) _ _ hv0 b1
  have hv1 : ((setHistory (st.alloc [("L1", .none), ("L2", .none)]).2 a.design).setKey
      st.heap.length "L1" (.ref (st.alloc [("L1", .none), ("L2", .none)]).2.cur)).Valid := by
    unfold FilterSt.Valid at *; simp; omega
  obtain ⟨b, hb, rfl, rfl⟩ := branch_run _ _ _ h2 (fun st => st) _ _ hv1 b2
  clear b1 b2 hr
  set t1 := (st.alloc [("L1", .none), ("L2", .none)]).2 with ht1
  have c1 : t1.cur = st.cur := rfl
  have l1 : t1.heap.length = st.heap.length + 1 := by rw [ht1]; simp
  have hlt : st.cur < st.heap.length := hst
  set t2 := (setHistory t1 a.design).setKey st.heap.length "L1" (.ref t1.cur) with ht2
  have c2 : t2.cur = st.cur := rfl
  have l2 : t2.heap.length = st.heap.length + 1 := by rw [ht2]; simp [l1]
  set t3 := (setHistory t2 b.design).setKey st.heap.length "L2" (.ref t2.cur) with ht3
  have dh2 : t2.deref st.heap.length =
      Dict.set [("L1", .none), ("L2", .none)] "L1" (.ref st.cur) := by
    rw [ht2, FilterSt.deref_setKey_self (by simp [l1]), setHistory_deref_ne _ _ (by rw [c1]; omega), ht1,
      FilterSt.alloc_deref_new]
    rfl
  have dh3 : t3.deref st.heap.length = Dict.set
      (Dict.set [("L1", .none), ("L2", .none)] "L1" (.ref st.cur)) "L2" (.ref st.cur) := by
    rw [ht3, FilterSt.deref_setKey_self (by simp [l2]), setHistory_deref_ne _ _ (by rw [c2]; omega), dh2]
    rfl
  have d3 : t3.deref st.cur = (setHistory t2 b.design).deref t2.cur := by
    rw [ht3, FilterSt.deref_setKey_ne (by omega), c2]
  obtain ⟨-, g2, g3, -⟩ := setHistory_get t2 hv1 b.design
  refine ⟨st.cur, ?_, ?_, ?_, b.resp, ?_, ?_⟩
  · show (t3.deref st.heap.length).get? "L1" = _
    rw [dh3, Dict.get?_set_ne _ (by decide), Dict.get?_set_self]
  · show (t3.deref st.heap.length).get? "L2" = _
    rw [dh3, Dict.get?_set_self]
  · show (t3.deref st.cur).get? _ = _
    rw [d3, g2]; rfl
  · show (t3.deref st.cur).get? _ = _
    rw [d3, g3]; rfl
  · obtain ⟨P, t, resp, pts, -, -, -, h4⟩ := extraction_inv hb
    obtain ⟨hL, hlen⟩ := applyFilter_pos lib h4
    rw [applyFilter_eq lib _ _ _ _ _ _ _ hL hlen] at h4
    rw [← Except.ok.inj h4]
    simp [hL.le]

/-- C57, the part that holds: if only one of the sizes is positive, its entry of the history records
its design (the estimate is the returned component, one frequency response per coefficient) and the
other entry is `None`. -/
theorem C57_single_design_partial (st st' : FilterSt sc.E) (hst : st.Valid) (f h c g : Fin sc.E → ℝ)
    (L1 L2 : Int) (hr : GridFilter.generalFilter lib sc st f L1 L2 = (.ok (h, c, g), st')) :
    (0 < L1 → L2 ≤ 0 → st'.history.get? "L2" = some .none ∧
      ∃ a, st'.history.get? "L1" = some (.ref a) ∧ (st'.deref a).get? "f_estimated" = some (.vec g) ∧
        ∃ s', GridFilter.subcomponentExtraction lib sc st f "gradient" "L1L" L1 = (.ok (), s') ∧
          st'.deref a = s'.history) ∧
    (L1 ≤ 0 → 0 < L2 → st'.history.get? "L1" = some .none ∧
      ∃ a, st'.history.get? "L2" = some (.ref a) ∧ (st'.deref a).get? "f_estimated" = some (.vec c) ∧
        ∃ s', GridFilter.subcomponentExtraction lib sc st f "curl" "L1U" L2 = (.ok (), s') ∧
          st'.deref a = s'.history) := by
  unfold GridFilter.generalFilter at hr
  obtain ⟨s1, s2, b1, b2, -, rfl⟩ := general_inv hr
  have hlt : st.cur < st.heap.length := hst
  have hv0 : (st.alloc [("L1", .none), ("L2", .none)]).2.Valid := by
    unfold FilterSt.Valid at *; simp; omega
  have hsame : ∀ d : Design sc.E,
      (setHistory (st.alloc [("L1", .none), ("L2", .none)]).2 d).deref st.cur =
        (setHistory st d).history := by
    intro d
    have e1 := setHistory_deref _ hv0 d
    have e2 := setHistory_deref _ hst d
    rw [FilterSt.alloc_cur, FilterSt.alloc_deref_old _ _ hlt, ← e2] at e1
    exact e1
  constructor
  · intro h1 h2
    obtain ⟨a, ha, rfl, rfl⟩ := branch_run _ _ _ h1 (fun st => st) _ _ hv0 b1
    rw [branch_skip _ _ _ h2] at b2
    simp only [Prod.mk.injEq, Except.ok.injEq] at b2
    obtain ⟨-, rfl⟩ := b2
    have dh : ((setHistory (st.alloc [("L1", .none), ("L2", .none)]).2 a.design).setKey st.heap.length
        "L1" (.ref (st.alloc [("L1", .none), ("L2", .none)]).2.cur)).deref st.heap.length =
        Dict.set [("L1", .none), ("L2", .none)] "L1" (.ref st.cur) := by
      rw [FilterSt.deref_setKey_self (by simp), setHistory_deref_ne _ _ (by
        rw [FilterSt.alloc_cur]; omega), FilterSt.alloc_deref_new]
      rfl
    have dd : ((setHistory (st.alloc [("L1", .none), ("L2", .none)]).2 a.design).setKey st.heap.length
        "L1" (.ref (st.alloc [("L1", .none), ("L2", .none)]).2.cur)).deref st.cur =
        (setHistory st a.design).history := by
      rw [FilterSt.deref_setKey_ne (by omega), hsame]
    refine ⟨?_, st.cur, ?_, ?_, setHistory st a.design, ?_, dd⟩
    · exact (congrArg (fun d => Dict.get? d "L2") dh).trans
        (by rw [Dict.get?_set_ne _ (by decide)]; simp [Dict.get?])
    · exact (congrArg (fun d => Dict.get? d "L1") dh).trans (Dict.get?_set_self _ _ _)
    · refine (congrArg (fun d => Dict.get? d "f_estimated") dd).trans ?_
      exact (setHistory_get st hst a.design).2.1
    · rw [GridFilter.subcomponentExtraction, ha]; rfl
  · intro h1 h2
    rw [branch_skip _ _ _ h1] at b1
    simp only [Prod.mk.injEq, Except.ok.injEq] at b1
    obtain ⟨-, rfl⟩ := b1
    obtain ⟨a, ha, rfl, rfl⟩ := branch_run _ _ _ h2 (fun st => st) _ _ hv0 b2
    have dh : ((setHistory (st.alloc [("L1", .none), ("L2", .none)]).2 a.design).setKey st.heap.length
        "L2" (.ref (st.alloc [("L1", .none), ("L2", .none)]).2.cur)).deref st.heap.length =
        Dict.set [("L1", .none), ("L2", .none)] "L2" (.ref st.cur) := by
      rw [FilterSt.deref_setKey_self (by simp), setHistory_deref_ne _ _ (by
        rw [FilterSt.alloc_cur]; omega), FilterSt.alloc_deref_new]
      rfl
    have dd : ((setHistory (st.alloc [("L1", .none), ("L2", .none)]).2 a.design).setKey st.heap.length
        "L2" (.ref (st.alloc [("L1", .none), ("L2", .none)]).2.cur)).deref st.cur =
        (setHistory st a.design).history := by
      rw [FilterSt.deref_setKey_ne (by omega), hsame]
    refine ⟨?_, st.cur, ?_, ?_, setHistory st a.design, ?_, dd⟩
    · exact (congrArg (fun d => Dict.get? d "L1") dh).trans
        (by rw [Dict.get?_set_ne _ (by decide)]; simp [Dict.get?])
    · exact (congrArg (fun d => Dict.get? d "L2") dh).trans (Dict.get?_set_self _ _ _)
    · refine (congrArg (fun d => Dict.get? d "f_estimated") dd).trans ?_
      exact (setHistory_get st hst a.design).2.1
    · rw [GridFilter.subcomponentExtraction, ha]; rfl

/-- the estimate of the largest eigenvalue is finite when no entry of the iterate is tiny -/
theorem lambdaMax_finite {n : ℕ} (hn : 0 < n) (P : Matrix (Fin n) (Fin n) ℝ) (d : Fin n → ℝ) (s c : ℝ)
    (hs : 0 < s) (hc : 0 < c) (h1 : P.mulVec (fun _ => 1) = s • d) (h2 : P.mulVec d = c • d)
    (hd : ∀ i, machineEps ^ 2 * (d ⬝ᵥ d) < d i ^ 2) : ∃ lam, lambdaMax P = some lam := by
  have hpow : ∀ k : ℕ, (P ^ (k + 1)).mulVec (fun _ => 1) = (s * c ^ k) • d := by
    intro k
    induction k with
    | zero => simpa using h1
    | succ k ih =>
      rw [pow_succ', ← mulVec_mulVec, ih, mulVec_smul, h2, smul_smul]
      congr 1; ring
  set t := s * c ^ 49 with htdef
  have ht : 0 < t := by positivity
  have hx : (P ^ 50).mulVec (fun _ => 1) = t • d := hpow 49
  have hdd : 0 < d ⬝ᵥ d := by
    refine lt_of_le_of_ne (dot_self_nonneg d) fun h0 => ?_
    have := dotProduct_self_eq_zero.1 h0.symm
    have h3 := hd ⟨0, hn⟩
    rw [this] at h3
    simp at h3
  have hne : (P ^ 50).mulVec (fun _ => 1) ≠ 0 := by
    rw [hx]
    intro h0
    rcases smul_eq_zero.1 h0 with h | h
    · exact ht.ne' h
    · rw [h] at hdd; simp at hdd
  have hp := (C50_power_iteration P 50 (by norm_num)).2 hne
  rw [lambdaMax, hp]
  simp only [Option.bind_eq_bind, Option.bind_some]
  rw [if_neg]
  · exact ⟨_, rfl⟩
  · rintro (⟨i, hi⟩ | h0)
    · rw [hx, smul_dotProduct, dotProduct_smul, smul_eq_mul, smul_eq_mul, ← mul_assoc, ← sq,
        Real.sqrt_mul (sq_nonneg t), Real.sqrt_sq ht.le, Pi.smul_apply, smul_eq_mul,
        mul_div_mul_left _ _ ht.ne'] at hi
      have hq : 0 < Real.sqrt (d ⬝ᵥ d) := Real.sqrt_pos.2 hdd
      have e : d i = -machineEps * Real.sqrt (d ⬝ᵥ d) := by
        have : d i / Real.sqrt (d ⬝ᵥ d) = -machineEps := by linarith
        rw [← this]; field_simp
      have := hd i
      rw [e, mul_pow, Real.sq_sqrt hdd.le, neg_sq] at this
      exact lt_irrefl _ this
    · omega

theorem tri_lambdaMax_lower : ∃ lam, lambdaMax tri.L1l = some lam := by
  rw [tri, SC.ofInt_L1l]
  refine lambdaMax_finite (n := 3) (by norm_num) ((triB1.transpose * triB1).map (Int.cast : ℤ → ℝ))
    (fun k => ((![1, 2, 1] : Fin 3 → ℤ) k : ℝ)) 2 3 (by norm_num) (by norm_num) ?_ ?_ ?_
  · have := mulVec_int (triB1.transpose * triB1) (fun _ => 1) (2 • ![1, 2, 1]) (by decide +kernel)
    have h1 : (fun _ : Fin 3 => ((1 : ℤ) : ℝ)) = fun _ => 1 := by funext; simp
    rw [h1] at this
    rw [this]
    funext k; fin_cases k <;> norm_num
  · have := mulVec_int (triB1.transpose * triB1) ![1, 2, 1] (3 • ![1, 2, 1]) (by decide +kernel)
    rw [this]
    funext k; fin_cases k <;> norm_num
  · intro i
    have : machineEps ^ 2 * 6 < 1 := by unfold machineEps; norm_num
    fin_cases i <;> simp [dotProduct, Fin.sum_univ_three] <;> linarith

theorem tri_lambdaMax_upper : ∃ lam, lambdaMax tri.L1u = some lam := by
  rw [tri, SC.ofInt_L1u]
  refine lambdaMax_finite (n := 3) (by norm_num) ((triB2 * triB2.transpose).map (Int.cast : ℤ → ℝ))
    (fun k => ((![1, -1, 1] : Fin 3 → ℤ) k : ℝ)) 1 3 (by norm_num) (by norm_num) ?_ ?_ ?_
  · have := mulVec_int (triB2 * triB2.transpose) (fun _ => 1) ![1, -1, 1] (by decide +kernel)
    have h1 : (fun _ : Fin 3 => ((1 : ℤ) : ℝ)) = fun _ => 1 := by funext; simp
    rw [h1] at this
    rw [this]
    funext k; fin_cases k <;> norm_num
  · have := mulVec_int (triB2 * triB2.transpose) ![1, -1, 1] (3 • ![1, -1, 1]) (by decide +kernel)
    rw [this]
    funext k; fin_cases k <;> norm_num
  · intro i
    have : machineEps ^ 2 * 3 < 1 := by unfold machineEps; norm_num
    fin_cases i <;> simp [dotProduct, Fin.sum_univ_three] <;> linarith

/-- a grid extraction succeeds when the estimate of the largest eigenvalue is finite -/
theorem extraction_total (lib : NumLib) (sc : SC ℝ) (hE : 0 < sc.E) (f : Fin sc.E → ℝ)
    (component pChoice : String) {t : Fin sc.E → ℝ} {P : Matrix (Fin sc.E) (Fin sc.E) ℝ} {lam : ℝ}
    (h1 : sc.getComponentFlow lib f component false = .ok t) (h2 : sc.getPMatrix pChoice = .ok P)
    (h3 : lambdaMax P = some lam) (L : Int) (hL : 0 < L) :
    ∃ a, GridFilter.extractionDesign lib sc f component pChoice L = .ok a := by
  unfold GridFilter.extractionDesign
  simp only [h2, bind, Except.bind, getEigendecomposition_dense lib hE, GridFilter.sampledResponse,
    GridFilter.sampleGridPoints, h3, GridFilter.linspace0, SC.getTrueSignal, h1]
  norm_num [GridFilter.applyFilterF, pure, Except.pure]
  exact ⟨_, applyFilter_eq lib _ _ _ _ _ _ L hL (by simp)⟩

private theorem grid_branch_ok (hist : ℕ) (key : String) (size : Int) (hs : 0 < size)
    {r : Py (Applied E)} {a : Applied E} (hr : r = .ok a) (st : FilterSt E) (hst : st.Valid) :
    generalBranch hist key size (fun st => recordDesign st r) st =
      (.ok a.fEst, (setHistory st a.design).setKey hist key (.ref st.cur)) := by
  have hr' : readEstimate (setHistory st a.design) = .ok a.fEst := by
    obtain ⟨-, g2, -⟩ := setHistory_get st hst a.design
    rw [readEstimate, FilterSt.history, setHistory_cur, g2]; rfl
  rw [generalBranch, if_pos hs]
  simp only [hr, recordDesign, hr', setHistory_cur]

/-- C57 is false: on a filled triangle `general_filter(f, L1, L2)` returns for all positive sizes, but
whenever the sizes differ `history["L1"]` is not what the gradient design records. -/
theorem C57_counterexample (lib : NumLib) (f : Fin tri.E → ℝ) (L1 L2 : Int) (h1 : 0 < L1) (h2 : 0 < L2)
    (hne : L1 ≠ L2) :
    ∃ r st' a, GridFilter.generalFilter lib tri (initFilter _) f L1 L2 = (.ok r, st') ∧
      st'.history.get? "L1" = some (.ref a) ∧
      ∀ s, s.Valid → ∃ s', GridFilter.subcomponentExtraction lib tri s f "gradient" "L1L" L1 = (.ok (), s') ∧
        (st'.deref a).get? "frequency_responses" ≠ s'.history.get? "frequency_responses" := by
  obtain ⟨g, c, h, hp⟩ := HodgeParts.exists lib tri f
  obtain ⟨l1, e1⟩ := tri_lambdaMax_lower
  obtain ⟨l2, e2⟩ := tri_lambdaMax_upper
  obtain ⟨a, ha⟩ := extraction_total lib tri (by decide) f "gradient" "L1L" hp.grad
    (by simp [SC.getPMatrix]) e1 L1 h1
  obtain ⟨b, hb⟩ := extraction_total lib tri (by decide) f "curl" "L1U" hp.curl
    (by simp [SC.getPMatrix]) e2 L2 h2
  have hv : (initFilter tri.E).Valid := by simp [FilterSt.Valid, initFilter]
  have hr : ∃ r st', GridFilter.generalFilter lib tri (initFilter _) f L1 L2 = (.ok r, st') := by
    unfold GridFilter.generalFilter generalFilter GridFilter.subcomponentExtraction
    simp only [FilterSt.alloc]
    rw [grid_branch_ok _ _ _ h1 ha _ (by simp [FilterSt.Valid, initFilter])]
    simp only
    rw [grid_branch_ok _ _ _ h2 hb _ (by simp [FilterSt.Valid, initFilter])]
    exact ⟨_, _, rfl⟩
  obtain ⟨⟨h', c', g'⟩, st', hr⟩ := hr
  obtain ⟨ad, q1, q2, -, resp, q3, q4⟩ := C57_aliasing _ st' hv f h' c' g' L1 L2 h1 h2 hr
  refine ⟨_, st', ad, hr, q1, fun s hs => ⟨setHistory s a.design, ?_, ?_⟩⟩
  · rw [GridFilter.subcomponentExtraction, ha]; rfl
  · rw [q3, FilterSt.history, setHistory_cur, (setHistory_get s hs a.design).2.2.1]
    intro heq
    simp only [Applied.design, Option.some.injEq, HVal.rows.injEq] at heq
    obtain ⟨P, t, rsp, pts, -, -, -, h4⟩ := extraction_inv ha
    obtain ⟨hL, hlen⟩ := applyFilter_pos lib h4
    rw [applyFilter_eq lib _ _ _ _ _ _ _ hL hlen] at h4
    have hl : (a.resp.length : Int) = L1 := by
      rw [← Except.ok.inj h4]
      simp [hL.le]
    rw [heq, hl] at q4
    exact hne q4

/-! ## C58 -/

/-- an extraction call on an `LSFilterDesign` object -/
inductive LSCall (E : ℕ)
  | typeOne (f : Fin E → ℝ) (component : String) (L : Int)
  | typeTwo (f : Fin E → ℝ) (component : String) (L : Int) (tol : ℝ)

/-- the flow a call was made for -/
def LSCall.flow {E : ℕ} : LSCall E → Fin E → ℝ
  | .typeOne f _ _ => f
  | .typeTwo f _ _ _ => f

/-- the filter size of a call -/
def LSCall.size {E : ℕ} : LSCall E → Int
  | .typeOne _ _ L => L
  | .typeTwo _ _ L _ => L

/-- whether the component is one the method accepts -/
def LSCall.knownComponent {E : ℕ} : LSCall E → Prop
  | .typeOne _ c _ => c = "harmonic" ∨ c = "curl" ∨ c = "gradient"
  | .typeTwo _ c _ _ => c = "gradient" ∨ c = "curl"

noncomputable def LSCall.run (lib : NumLib) (sc : SC ℝ) :
    LSCall sc.E → FilterSt sc.E → Py Unit × FilterSt sc.E
  | .typeOne f c L, st => LSFilter.typeOne lib sc st f c L
  | .typeTwo f c L tol, st => LSFilter.typeTwo lib sc st f c L tol

/-- the state after a sequence of calls, exceptions caught by the caller -/
noncomputable def runCalls (lib : NumLib) (sc : SC ℝ) (calls : List (LSCall sc.E)) (st : FilterSt sc.E) :
    FilterSt sc.E :=
  calls.foldl (fun st c => (c.run lib sc st).2) st

private theorem call_design (c : LSCall sc.E) : ∃ r : Py (Applied sc.E),
    (∀ st, c.run lib sc st = recordDesign (resetHistory st) r) ∧
    (∀ a, r = .ok a → a.fEst = a.H.mulVec c.flow ∧ 0 < c.size ∧ c.knownComponent) := by
  have key : ∀ {f fTrue : Fin sc.E → ℝ} {P U : Matrix (Fin sc.E) (Fin sc.E) ℝ} {ev al : List ℝ} {L : Int}
      {a : Applied sc.E}, applyFilter lib f fTrue P U ev al L = .ok a →
      a.fEst = a.H.mulVec f ∧ 0 < L := by
    intro f fTrue P U ev al L a h
    obtain ⟨hL, hlen⟩ := applyFilter_pos lib h
    rw [applyFilter_eq lib _ _ _ _ _ _ _ hL hlen] at h
    rw [← Except.ok.inj h]
    exact ⟨rfl, hL⟩
  cases c with
  | typeOne f comp L =>
    refine ⟨_, fun st => rfl, fun a ha => ?_⟩
    obtain ⟨w, t, al, -, -, h3, h4⟩ := typeOne_inv ha
    obtain ⟨k1, k2⟩ := key h4
    refine ⟨k1, k2, ?_⟩
    by_contra hc
    simp only [LSCall.knownComponent, not_or] at hc
    rw [C49_names comp hc.1 hc.2.1 hc.2.2] at h3
    cases h3
  | typeTwo f comp L tol =>
    refine ⟨_, fun st => rfl, fun a ha => ?_⟩
    obtain ⟨P, w, t, h1, -, -, h4⟩ := typeTwo_inv ha
    obtain ⟨k1, k2⟩ := key h4
    exact ⟨k1, k2, h1.elim (fun h => .inl h.1) fun h => .inr h.1⟩

private theorem record_history (st : FilterSt E) (r : Py (Applied E)) :
    (recordDesign (resetHistory st) r).2.history = match r with
      | .error _ => [("filter", .none), ("f_estimated", .none), ("extracted_component_error", .none),
          ("filter_error", .none)]
      | .ok a => ((((Dict.set [("filter", .none), ("f_estimated", .none),
          ("extracted_component_error", .none), ("filter_error", .none)] "filter" a.design.filter).set
          "f_estimated" a.design.fEstimated).set
        "frequency_responses" a.design.frequencyResponses).set
        "extracted_component_error" a.design.extractedComponentError).set
          "filter_error" a.design.filterError := by
  cases r with
  | error e => exact resetHistory_history st
  | ok a =>
    simp only [recordDesign]
    rw [FilterSt.history, setHistory_cur, setHistory_deref _ (resetHistory_valid st)]
    have := resetHistory_history st
    unfold FilterSt.history at this
    rw [this]

private theorem none_dict (k : String) (v : HVal E)
    (hv : Dict.get? [("filter", .none), ("f_estimated", .none), ("extracted_component_error", .none),
      ("filter_error", .none)] k = some v) : v = .none := by
  have key : ∀ (l : HDict E), (∀ p ∈ l, p.2 = .none) → l.get? k = some v → v = .none := by
    intro l
    induction l with
    | nil => intro _ h; cases h
    | cons p l ih =>
      intro h1 h2
      rw [Dict.get?] at h2
      by_cases hk : p.1 = k
      · rw [if_pos hk] at h2
        rw [← Option.some.inj h2]
        exact h1 p (by simp)
      · rw [if_neg hk] at h2
        exact ih (fun q hq => h1 q (by simp [hq])) h2
  refine key _ ?_ hv
  intro p hp
  simp only [List.mem_cons, List.not_mem_nil, or_false] at hp
  rcases hp with rfl | rfl | rfl | rfl <;> rfl

/-- C58: after any sequence of extraction calls on an `LSFilterDesign` object, whatever their outcome
and whatever the state before, the history depends on the last call only; it holds a filter together
with the filtered flow of that call if it returned, and nothing but `None` if it raised.  A call with an
unknown component or a non-positive size raises. -/
theorem C58_history (lib : NumLib) (sc : SC ℝ) (st : FilterSt sc.E) (calls : List (LSCall sc.E))
    (c : LSCall sc.E) :
    (runCalls lib sc (calls ++ [c]) st).history = (c.run lib sc (initFilter _)).2.history ∧
    (∀ e, (c.run lib sc (runCalls lib sc calls st)).1 = .error e →
      AllNone (runCalls lib sc (calls ++ [c]) st).history) ∧
    ((c.run lib sc (runCalls lib sc calls st)).1 = .ok () →
      0 < c.size ∧ c.knownComponent ∧
      ∃ H, (runCalls lib sc (calls ++ [c]) st).history.get? "filter" = some (.mat H) ∧
        (runCalls lib sc (calls ++ [c]) st).history.get? "f_estimated" =
          some (.vec (H.mulVec c.flow))) := by
  obtain ⟨r, hr, ha⟩ := call_design (lib := lib) c
  have hfold : runCalls lib sc (calls ++ [c]) st = (c.run lib sc (runCalls lib sc calls st)).2 := by
    simp [runCalls]
  rw [hfold, hr, hr]
  refine ⟨?_, ?_, ?_⟩
  · rw [record_history, record_history]
  · intro e he
    cases r with
    | ok a => simp [recordDesign] at he
    | error e' =>
      rw [record_history]
      intro k v hv
      exact none_dict k v hv
  · intro he
    cases r with
    | error e' => simp [recordDesign] at he
    | ok a =>
      obtain ⟨h1, h2, h3⟩ := ha a rfl
      refine ⟨h2, h3, a.H, ?_, ?_⟩
      · simp only [recordDesign]
        rw [FilterSt.history, setHistory_cur]
        exact (setHistory_get _ (resetHistory_valid _) a.design).1
      · simp only [recordDesign]
        rw [FilterSt.history, setHistory_cur, ← h1]
        exact (setHistory_get _ (resetHistory_valid _) a.design).2.1

/-- both outcomes occur: a proper type-two call returns, one of size 0 raises -/
example (lib : NumLib) (st : FilterSt k4Tri.E) (f : Fin k4Tri.E → ℝ) :
    ((LSCall.typeTwo f "gradient" 2 0).run lib k4Tri st).1 = .ok () ∧
    ∃ e, ((LSCall.typeTwo f "gradient" 0 0).run lib k4Tri st).1 = .error e := by
  constructor
  · obtain ⟨a, ha⟩ := typeTwo_total lib k4Tri (by decide) f "gradient" (.inl rfl) 2 (by norm_num) 0
    simp [LSCall.run, LSFilter.typeTwo, ha, recordDesign]
  · cases h : ((LSCall.typeTwo f "gradient" 0 0).run lib k4Tri st).1 with
    | error e => exact ⟨e, rfl⟩
    | ok u =>
      have := (C58_history lib k4Tri st [] (LSCall.typeTwo f "gradient" 0 0)).2.2 h
      exact absurd this.1 (by simp [LSCall.size])

/-! ## C88 -/

/-- C88: a history dictionary saved by the caller is never modified by later extraction calls on an
`LSFilterDesign` object: they bind a new dictionary first. -/
theorem C88_saved_history (lib : NumLib) (sc : SC ℝ) (st : FilterSt sc.E) (calls : List (LSCall sc.E))
    (a : ℕ) (ha : a < st.heap.length) :
    (runCalls lib sc calls st).deref a = st.deref a := by
  induction calls generalizing st with
  | nil => rfl
  | cons c calls ih =>
    obtain ⟨r, hr, -⟩ := call_design (lib := lib) c
    have h1 : runCalls lib sc (c :: calls) st = runCalls lib sc calls (c.run lib sc st).2 := by
      simp [runCalls]
    have hl : st.heap.length < (c.run lib sc st).2.heap.length := by
      rw [hr]
      cases r <;> simp [recordDesign]
    rw [h1, ih _ (by omega), hr]
    cases r with
    | error e => exact resetHistory_deref_old st ha
    | ok d =>
      simp only [recordDesign]
      rw [setHistory_deref_ne _ _ (by rw [resetHistory_cur]; omega), resetHistory_deref_old st ha]

/-- C88: `GridBasedFilterDesign` does modify it: every successful extraction overwrites the dictionary
that `history` referred to before the call. -/
theorem C88_grid_overwrites (st st' : FilterSt sc.E) (hst : st.Valid) (f : Fin sc.E → ℝ)
    (component pChoice : String) (L num : Int) (mu cutOff steep : ℝ)
    (h : GridFilter.subcomponentExtraction lib sc st f component pChoice L num mu cutOff steep =
      (.ok (), st')) :
    st'.cur = st.cur ∧ ∃ H, (st'.deref st.cur).get? "filter" = some (.mat H) ∧
      (st'.deref st.cur).get? "f_estimated" = some (.vec (H.mulVec f)) := by
  obtain ⟨a, ha, rfl⟩ := record_ok h
  obtain ⟨P, t, resp, pts, -, -, -, h4⟩ := extraction_inv ha
  obtain ⟨hL, hlen⟩ := applyFilter_pos lib h4
  rw [applyFilter_eq lib _ _ _ _ _ _ _ hL hlen] at h4
  refine ⟨rfl, a.H, (setHistory_get _ hst a.design).1, ?_⟩
  rw [(setHistory_get _ hst a.design).2.1, ← Except.ok.inj h4]
  rfl

end Pytspl
