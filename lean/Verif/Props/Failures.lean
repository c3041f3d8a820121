import Verif.Props.Loaders
import Verif.Props.DatasetContents
import Verif.Props.PlotColors
import Verif.Props.PlotPanels
import Verif.Props.PolyFilters
import Verif.Props.BaseFilter
import Verif.Props.ExactFilters

/-!
# Which exception a bad input raises (C128)
-/

namespace Pytspl

open Matrix

/-! ## Tables -/

private theorem getItem_in {t : Table} {row : Dict String Cell} (hr : row ∈ t.rows) {c : String} (hc : c ∈ t.cols) :
    ∃ v, row.get? c = some v := by
  cases h : row.get? c with
  | some v => exact ⟨v, rfl⟩
  | none =>
    rw [Dict.get?_eq_none, t.rect row hr] at h
    exact absurd hc h

private theorem rowIds_text {src dst : String} {zero : Bool} {row : Dict String Cell} {u v : Cell}
    (hu : row.get? src = some u) (hv : row.get? dst = some v) :
    ((∃ a, IdOf u a) ∧ (∃ a, IdOf v a) ∧ ∃ l, rowIds src dst zero row = .ok l) ∨
    rowIds src dst zero row = .error .valueError := by
  unfold rowIds
  rw [Dict.getItem_eq, Dict.getItem_eq, hu, hv]
  simp only [bind, Except.bind]
  cases h1 : u.toInt with
  | error e => exact .inr (by rw [(toInt_error.1 h1).1])
  | ok a =>
    cases h2 : v.toInt with
    | error e => exact .inr (by simp only [(toInt_error.1 h2).1])
    | ok b => exact .inl ⟨⟨a, toInt_ok.1 h1⟩, ⟨b, toInt_ok.1 h2⟩, _, rfl⟩

/-- C128, node ids: a table that has both columns but some node id that is missing, or is a text other than an integer,
is rejected with `ValueError`. -/
theorem C128_text_id (t : Table) (src dst : String) (zero : Bool) (hs : src ∈ t.cols) (hd : dst ∈ t.cols)
    (htext : ∃ row ∈ t.rows, ∃ c, (row.get? src = some c ∨ row.get? dst = some c) ∧
      (c = .nan ∨ ∃ s, c = .str s ∧ ∀ a, ¬ IntText s a))
    (fc : Option (List String)) : readCsv (some t) src dst fc zero = .error .valueError := by
  have hbad : ∀ c, (c = .nan ∨ ∃ s, c = .str s ∧ ∀ a, ¬ IntText s a) → ∀ a, ¬ IdOf c a := by
    rintro c (rfl | ⟨s, rfl, h⟩) a (⟨q, hq, -⟩ | ⟨s', hs', ha⟩)
    · cases hq
    · cases hs'
    · cases hq
    · cases hs'; exact h a ha
  have key : ∀ (rows : List (Dict String Cell)) (st : List Int × List Edge), (∀ r ∈ rows, r ∈ t.rows) →
      (∃ row ∈ rows, ∃ c, (row.get? src = some c ∨ row.get? dst = some c) ∧ ∀ a, ¬ IdOf c a) →
      rows.foldlM (extractStep src dst zero) st = .error .valueError := by
    intro rows
    induction rows with
    | nil => rintro st - ⟨row, h, -⟩; cases h
    | cons r rows ih =>
      rintro st hm ⟨row, hr, c, h, hc⟩
      obtain ⟨u, hu⟩ := getItem_in (hm r (by simp)) hs
      obtain ⟨v, hv⟩ := getItem_in (hm r (by simp)) hd
      rw [List.foldlM_cons]
      unfold extractStep
      rcases rowIds_text (zero := zero) hu hv with ⟨⟨a, ha⟩, ⟨b, hb⟩, l, hl⟩ | hl
      · simp only [hl, bind, Except.bind]
        have hrest : ∃ row ∈ rows, ∃ c, (row.get? src = some c ∨ row.get? dst = some c) ∧ ∀ a, ¬ IdOf c a := by
          rcases List.mem_cons.1 hr with rfl | hr
          · rw [hu, hv] at h
            rcases h with h | h <;> cases h
            · exact absurd ha (hc a)
            · exact absurd hb (hc b)
          · exact ⟨row, hr, c, h, hc⟩
        have := fun st => ih st (fun r h => hm r (by simp [h])) hrest
        unfold extractStep at this
        split_ifs <;> exact this _
      · simp only [hl, bind, Except.bind]
  have he : extractNodesEdges t src dst zero = .error .valueError := by
    unfold extractNodesEdges
    obtain ⟨row, hr, c, h, hc⟩ := htext
    rw [key t.rows _ (fun _ h => h) ⟨row, hr, c, h, hbad c hc⟩]
    rfl
  unfold readCsv
  simp only [he, bind, Except.bind]

private theorem column_in {t : Table} {c : String} (hc : c ∈ t.cols) :
    ∃ l, t.column c = .ok l ∧ ∀ x, x ∈ l ↔ ∃ row ∈ t.rows, row.get? c = some x := by
  unfold Table.column
  rw [if_pos hc]
  have : ∀ rows : List (Dict String Cell), (∀ r ∈ rows, r ∈ t.rows) →
      ∃ l, (rows.mapM fun r => Dict.getItem r c) = (.ok l : Py (List Cell)) ∧
        ∀ x, x ∈ l ↔ ∃ row ∈ rows, row.get? c = some x := by
    intro rows
    induction rows with
    | nil => intro _; exact ⟨[], rfl, by simp⟩
    | cons r rows ih =>
      intro hm
      obtain ⟨l, h1, h2⟩ := ih fun r h => hm r (by simp [h])
      obtain ⟨v, hv⟩ := getItem_in (hm r (by simp)) hc
      refine ⟨v :: l, ?_, ?_⟩
      · rw [List.mapM_cons, h1, Dict.getItem_eq, hv]
        rfl
      · intro x
        simp only [List.mem_cons, h2, exists_eq_or_imp, hv, Option.some.injEq]
        exact or_congr ⟨Eq.symm, Eq.symm⟩ Iff.rfl
  exact this t.rows fun _ h => h

private theorem column_notin {t : Table} {c : String} (hc : c ∉ t.cols) : t.column c = .error .keyError := by
  unfold Table.column
  rw [if_neg hc]

private theorem subOne_text {l : List Cell} {s : String} (h : Cell.str s ∈ l) : l.mapM Cell.subOne = .error .typeError := by
  induction l with
  | nil => cases h
  | cons c l ih =>
    rw [List.mapM_cons]
    cases c with
    | str s' => rfl
    | num q =>
      have : Cell.str s ∈ l := by simpa using h
      rw [ih this]
      rfl
    | nan =>
      have : Cell.str s ∈ l := by simpa using h
      rw [ih this]
      rfl

private theorem subOne_nums {l : List Cell} (h : ∀ s, Cell.str s ∉ l) : ∃ l', l.mapM Cell.subOne = .ok l' := by
  induction l with
  | nil => exact ⟨[], rfl⟩
  | cons c l ih =>
    obtain ⟨l', hl⟩ := ih fun s hs => h s (by simp [hs])
    cases c with
    | str s' => exact absurd (by simp) (h s')
    | num q =>
      refine ⟨.num (q - 1) :: l', ?_⟩
      rw [List.mapM_cons, hl]
      rfl
    | nan =>
      refine ⟨.nan :: l', ?_⟩
      rw [List.mapM_cons, hl]
      rfl

/-- C128, coordinates (labels are compared without surrounding blanks).  A table without the id column raises
`KeyError`; one with a text as id raises `TypeError` if the ids have to be lowered by one; otherwise a table without one
of the coordinate columns raises `KeyError`. -/
theorem C128_coordinates (t : Table) (idCol xCol yCol : String) (zero : Bool) :
    (idCol ∉ t.cols.map pyStrip → readCoordinates (some t) idCol xCol yCol zero = .error .keyError) ∧
    (idCol ∈ t.cols.map pyStrip → zero = false →
      (∃ row ∈ (t.rename pyStrip).rows, ∃ s, row.get? idCol = some (.str s)) →
      readCoordinates (some t) idCol xCol yCol zero = .error .typeError) ∧
    ((zero = true ∨ ∀ row ∈ (t.rename pyStrip).rows, ∀ s, row.get? idCol ≠ some (.str s)) →
      (xCol ∉ t.cols.map pyStrip ∨ yCol ∉ t.cols.map pyStrip) →
      readCoordinates (some t) idCol xCol yCol zero = .error .keyError) := by
  have h1 : idCol ∉ t.cols.map pyStrip → readCoordinates (some t) idCol xCol yCol zero = .error .keyError := by
    intro h
    have hc : (t.rename pyStrip).column idCol = .error .keyError := column_notin h
    unfold readCoordinates
    simp only [hc, bind, Except.bind]
  refine ⟨h1, fun hid hz htext => ?_, fun hnum hxy => ?_⟩
  · obtain ⟨l, hl, hmem⟩ := column_in (t := t.rename pyStrip) hid
    obtain ⟨row, hr, s, hs⟩ := htext
    have := (hmem (.str s)).2 ⟨row, hr, hs⟩
    subst hz
    unfold readCoordinates
    simp only [hl, bind, Except.bind, Bool.false_eq_true, if_false, subOne_text this]
  · by_cases hid : idCol ∈ t.cols.map pyStrip
    · obtain ⟨l, hl, hmem⟩ := column_in (t := t.rename pyStrip) hid
      obtain ⟨l', hl'⟩ : ∃ l', (if zero then Except.ok l else l.mapM Cell.subOne : Py _) = .ok l' := by
        cases zero with
        | true => exact ⟨l, rfl⟩
        | false =>
          refine subOne_nums fun s hs => ?_
          obtain ⟨row, hr, hs⟩ := (hmem _).1 hs
          rcases hnum with h | h
          · cases h
          · exact h row hr s hs
      have hrest : (do
          let xs ← (t.rename pyStrip).column xCol
          let ys ← (t.rename pyStrip).column yCol
          pure (some (coordDict (l'.zip (xs.zip ys)))) : Py _) = .error .keyError := by
        by_cases hx : xCol ∈ t.cols.map pyStrip
        · obtain ⟨xs, hxs, -⟩ := column_in (t := t.rename pyStrip) hx
          have hy : yCol ∉ (t.rename pyStrip).cols := hxy.resolve_left (not_not.2 hx)
          simp only [hxs, column_notin hy, bind, Except.bind]
        · rw [show (t.rename pyStrip).column xCol = .error .keyError from column_notin hx]
          rfl
      unfold readCoordinates
      simp only [hl, bind, Except.bind] at hrest ⊢
      cases zero with
      | true => cases hl'; exact hrest
      | false =>
        simp only [Bool.false_eq_true, if_false] at hl' ⊢
        rw [hl']
        exact hrest
    · exact h1 hid

/-- C128, flows of the transportation networks: a flow table with rows that lacks one of its three columns raises
`KeyError`, provided there is an edge to look up. -/
theorem C128_flow_columns (t : Table) (edges : List Edge) (hr : t.rows ≠ []) (hc : t.cols ≠ []) (he : edges ≠ [])
    (h : "From " ∉ t.cols ∨ "To " ∉ t.cols ∨ "Volume " ∉ t.cols) :
    loadFlowTransportation (some t) edges = .error .keyError := by
  have hv : ∀ a b, firstVolume t a b = .error .keyError := by
    intro a b
    unfold firstVolume
    by_cases h1 : "From " ∈ t.cols
    · obtain ⟨l1, e1, -⟩ := column_in h1
      by_cases h2 : "To " ∈ t.cols
      · obtain ⟨l2, e2, -⟩ := column_in h2
        have h3 : "Volume " ∉ t.cols := (h.resolve_left (not_not.2 h1)).resolve_left (not_not.2 h2)
        simp only [e1, e2, column_notin h3, bind, Except.bind]
      · simp only [e1, column_notin h2, bind, Except.bind]
    · simp only [column_notin h1, bind, Except.bind]
  obtain ⟨e, es, rfl⟩ := List.exists_cons_of_ne_nil he
  unfold loadFlowTransportation readFlow
  simp only [hr, hc, or_self, if_false]
  rw [List.foldlM_cons]
  unfold flowStep
  simp [hv, bind, Except.bind]

/-- C128, water network: resistances and flow rates that do not go together raise `ValueError`, a single resistance
raises `IndexError`. -/
theorem C128_wsn (flowRate head hr : List ℝ) :
    (hr.length ≠ 1 → flowRate.length ≠ 1 → hr.length ≠ flowRate.length →
      wsnFlow flowRate head hr = .error .valueError) ∧
    (hr.length = 1 → wsnFlow flowRate head hr = .error .indexError) := by
  constructor
  · intro h1 h2 h3
    unfold wsnFlow
    rw [if_neg h1, if_neg h3]
    split
    · simp at h2
    · rfl
  · intro h
    unfold wsnFlow
    rw [if_pos h]

/-! ## Plots -/

/-- C128, colours: edges that are to be coloured by an empty list of numbers (an empty flow) raise `ValueError` unless
both ends of the colour scale are given. -/
theorem C128_no_colours (g : GraphLib) (p : SCPlot) (ax : ℕ) (dir : Bool) (kw : Kw) (s : String)
    (hpos : p.pos ≠ some []) (hcm : kw.arg "edge_cmap" (.obj "Blues") = .obj s)
    (hlim : kw.arg "edge_vmin" .none = .none ∨ kw.arg "edge_vmax" .none = .none) :
    (p.drawScEdges g ax (some []) dir kw).1 = .error .valueError := by
  obtain ⟨r, hr⟩ : ∃ r, (p.initAxes g ax).1 = .ok r := by
    cases hp : p.pos with
    | none => unfold SCPlot.initAxes; rw [hp]; exact ⟨_, rfl⟩
    | some pos =>
      obtain ⟨x0, x1, y0, y1, h, -⟩ := C86_bounding_box (g := g) (ax := ax) pos hp (fun h => hpos (by rw [hp, h]))
      rw [h]
      exact ⟨_, rfl⟩
  unfold SCPlot.drawScEdges
  rw [hr]
  have : drawEdgesOn g p.sc r.1 ax (some []) dir kw = .error .valueError := by
    unfold drawEdgesOn
    simp only [hcm, checkCmap, colorLimits, KwVal.numbers, Dict.values, List.map_nil, bind, Except.bind]
    by_cases h1 : kw.arg "edge_vmin" .none = .none
    · rw [h1]
      rfl
    · have h2 := hlim.resolve_left h1
      have : defaultVmin (kw.arg "edge_vmin" .none) [] = .ok (kw.arg "edge_vmin" .none) := by
        cases hk : kw.arg "edge_vmin" .none <;> first | rfl | exact absurd hk h1
      rw [this, h2]
      rfl
  simp only [Except.bind, this, Except.map]

/-! ## Filters -/

variable (lib : NumLib) (sc : SC ℝ)

private theorem poly_size {E : ℕ} (f fTrue : Fin E → ℝ) (P U : Matrix (Fin E) (Fin E) ℝ) (ev al : List ℝ) (L : Int) :
    (L < 0 → applyFilter lib f fTrue P U ev al L = .error .valueError) ∧
    (L = 0 → applyFilter lib f fTrue P U ev al L = .error .unboundLocalError) := by
  unfold applyFilter
  refine ⟨fun h => by rw [if_pos h], fun h => by rw [if_neg (by omega), if_pos h]⟩

private theorem poly_sizeF {E : ℕ} (f fTrue : Fin E → ℝ) (P U : Matrix (Fin E) (Fin E) ℝ)
    (data : Option (List ℝ × List ℝ)) (L : Int) :
    (L < 0 → GridFilter.applyFilterF lib f fTrue P U data L = .error .valueError) ∧
    (L = 0 → GridFilter.applyFilterF lib f fTrue P U data L = .error .unboundLocalError) ∧
    (0 < L → data = none → GridFilter.applyFilterF lib f fTrue P U data L = .error .nonFinite) := by
  cases data with
  | some d =>
    exact ⟨(poly_size lib f fTrue P U d.1 d.2 L).1, (poly_size lib f fTrue P U d.1 d.2 L).2, fun _ h => by cases h⟩
  | none =>
    unfold GridFilter.applyFilterF
    exact ⟨fun h => by simp only [if_pos h], fun h => by simp only [if_neg (show ¬ L < 0 by omega), if_pos h],
      fun h _ => by simp only [if_neg (show ¬ L < 0 by omega), if_neg (show ¬ L = 0 by omega)]⟩

private theorem eig_returns {n : ℕ} (hn : 0 < n) (P : Matrix (Fin n) (Fin n) ℝ) :
    ∃ r, getEigendecomposition lib (.ndarray P) = .ok r := by
  unfold getEigendecomposition
  simp [hn.ne']

/-- C128, filter sizes: on a complex with edges and with a known matrix name, the grid-based `denoise` with a negative
size raises `ValueError` and with size zero `UnboundLocalError`; nothing is recorded. -/
theorem C128_grid_size (hE : 0 < sc.E) (st : FilterSt sc.E) (f fTrue : Fin sc.E → ℝ) (pChoice : String)
    (hp : pChoice = "L1" ∨ pChoice = "L1L" ∨ pChoice = "L1U") (L : Int) (mu : ℝ) :
    (L < 0 → GridFilter.denoise lib sc st f fTrue pChoice L mu = (.error .valueError, st)) ∧
    (L = 0 → GridFilter.denoise lib sc st f fTrue pChoice L mu = (.error .unboundLocalError, st)) ∧
    (0 < L → ∀ P, sc.getPMatrix pChoice = .ok P → P.mulVec (fun _ => 1) = 0 →
      GridFilter.denoise lib sc st f fTrue pChoice L mu = (.error .nonFinite, st)) := by
  obtain ⟨P, hP, hpsd⟩ : ∃ P, sc.getPMatrix pChoice = .ok P ∧ SymmPSD P := by
    rcases hp with rfl | rfl | rfl
    · exact ⟨_, rfl, symmPSD_L1 sc⟩
    · exact ⟨_, rfl, symmPSD_L1l sc⟩
    · exact ⟨_, rfl, symmPSD_L1u sc⟩
  obtain ⟨⟨U, w⟩, hU⟩ := eig_returns lib hE P
  have hnum : ∀ mu, ∃ s, GridFilter.sampledResponse P sc.E mu = .ok s ∧ (P.mulVec (fun _ => 1) = 0 → s = none) := by
    intro mu
    have h0 : ¬ (sc.E : Int) < 0 := by omega
    unfold GridFilter.sampledResponse GridFilter.sampleGridPoints
    rw [if_neg h0]
    cases hl : lambdaMax P with
    | none => exact ⟨none, rfl, fun _ => rfl⟩
    | some lam =>
      unfold GridFilter.linspace0
      simp only [if_neg h0]
      refine ⟨_, rfl, fun h => ?_⟩
      have := ((C50_finite_iff P hpsd 50 (by norm_num)).1).2 h
      rw [lambdaMax, this] at hl
      cases hl
  obtain ⟨s, hs, hs0⟩ := hnum mu
  have hd : ∀ e, GridFilter.applyFilterF lib f fTrue P U (do
      let (g, pts) ← s
      let g ← g.mapM id
      pure (pts, g)) L = .error e → GridFilter.denoise lib sc st f fTrue pChoice L mu = (.error e, st) := by
    intro e he
    unfold GridFilter.denoise GridFilter.denoiseDesign
    simp only [hP, hU, hs, bind, Except.bind] at he ⊢
    rw [he]
    rfl
  refine ⟨fun h => hd _ ((poly_sizeF lib f fTrue P U _ L).1 h), fun h => hd _ ((poly_sizeF lib f fTrue P U _ L).2.1 h),
    fun h P' hP' h0 => hd _ ((poly_sizeF lib f fTrue P U _ L).2.2 h ?_)⟩
  rw [hP] at hP'
  cases hP'
  rw [hs0 h0]
  rfl

/-- C128, filter sizes: the least-squares designs with a negative size raise `ValueError` and with size zero
`UnboundLocalError`; the history has been reset by then. -/
theorem C128_least_squares_size (hE : 0 < sc.E) (st : FilterSt sc.E) (f : Fin sc.E → ℝ) (component : String)
    (hc : component = "gradient" ∨ component = "curl") (L : Int) (tol : ℝ) :
    (L < 0 → LSFilter.typeTwo lib sc st f component L tol = (.error .valueError, resetHistory st)) ∧
    (L = 0 → LSFilter.typeTwo lib sc st f component L tol = (.error .unboundLocalError, resetHistory st)) := by
  obtain ⟨g, c, h, hp⟩ := HodgeParts.exists lib sc f
  rcases hc with rfl | rfl
  · obtain ⟨⟨U, w⟩, hU⟩ := eig_returns lib hE sc.L1l
    have key : ∀ e, (∀ fT ev al, applyFilter lib f fT sc.L1l U ev al L = .error e) →
        LSFilter.typeTwo lib sc st f "gradient" L tol = (.error e, resetHistory st) := by
      intro e he
      unfold LSFilter.typeTwo LSFilter.typeTwoDesign SC.getTrueSignal
      simp [hU, hp.grad, bind, Except.bind, recordDesign, he]
    exact ⟨fun h => key _ fun fT ev al => (poly_size lib f fT _ U ev al L).1 h,
      fun h => key _ fun fT ev al => (poly_size lib f fT _ U ev al L).2 h⟩
  · obtain ⟨⟨U, w⟩, hU⟩ := eig_returns lib hE sc.L1u
    have key : ∀ e, (∀ fT ev al, applyFilter lib f fT sc.L1u U ev al L = .error e) →
        LSFilter.typeTwo lib sc st f "curl" L tol = (.error e, resetHistory st) := by
      intro e he
      unfold LSFilter.typeTwo LSFilter.typeTwoDesign SC.getTrueSignal
      simp [hU, hp.curl, bind, Except.bind, recordDesign, he]
    exact ⟨fun h => key _ fun fT ev al => (poly_size lib f fT _ U ev al L).1 h,
      fun h => key _ fun fT ev al => (poly_size lib f fT _ U ev al L).2 h⟩

/-! ## The hypotheses are met -/

/-- a table with a text as node id -/
def textTable : Table where
  cols := ["a", "b", " x "]
  rows := [[("a", .num 1), ("b", .num 2), (" x ", .num 5)], [("a", .num 2), ("b", .str "n/a"), (" x ", .num 6)]]
  rect := by decide

example : (∀ fc, readCsv (some textTable) "a" "b" fc false = .error .valueError) ∧
    readCoordinates (some textTable) "b" "x" "x" false = .error .typeError ∧
    readCoordinates (some textTable) "a" "x" "y" false = .error .keyError ∧
    readCoordinates (some textTable) "id" "x" "x" true = .error .keyError ∧
    loadFlowTransportation (some textTable) [(0, 1)] = .error .keyError := by
  refine ⟨fun fc => C128_text_id textTable "a" "b" false (by decide) (by decide)
      ⟨[("a", .num 2), ("b", .str "n/a"), (" x ", .num 6)], by simp [textTable], .str "n/a", .inr (by decide),
        .inr ⟨_, rfl, fun a h => by rw [intText_iff, show pyIntText "n/a" = none by decide] at h; cases h⟩⟩ fc,
    (C128_coordinates textTable _ _ _ _).2.1 (by decide) rfl
      ⟨[("a", .num 2), ("b", .str "n/a"), ("x", .num 6)], by decide, "n/a", by decide⟩,
    (C128_coordinates textTable _ _ _ _).2.2 (.inr ?_) (.inr (by decide)),
    (C128_coordinates textTable _ _ _ _).1 (by decide),
    C128_flow_columns textTable _ (by simp [textTable]) (by simp [textTable]) (by simp) (.inl (by decide))⟩
  have : ∀ row ∈ (textTable.rename pyStrip).rows, row.get? "a" = some (.num 1) ∨ row.get? "a" = some (.num 2) := by decide
  intro row hr s hs
  rcases this row hr with h | h <;> rw [h] at hs <;> cases hs

/-- an empty flow with the default colour scale, on the sample complex -/
example (g : GraphLib) (ax : ℕ) : (twoTriPlot.drawScEdges g ax (some []) true []).1 = .error .valueError := by
  exact C128_no_colours g twoTriPlot ax true [] "Blues" (by simp [twoTriPlot]) rfl (.inl rfl)

/-- a filter of negative size on the sample complex -/
example (lib : NumLib) (st : FilterSt twoTri.E) (f : Fin twoTri.E → ℝ) :
    GridFilter.denoise lib twoTri st f f "L1" (-1) = (.error .valueError, st) :=
  (C128_grid_size lib twoTri (by decide) st f f "L1" (.inl rfl) (-1) _).1 (by decide)

/-- the path with two edges has no triangle, so its upper Laplacian gives no finite grid -/
example (lib : NumLib) (st : FilterSt path2.E) (f : Fin path2.E → ℝ) :
    GridFilter.denoise lib path2 st f f "L1U" 3 = (.error .nonFinite, st) := by
  refine (C128_grid_size lib path2 (by decide) st f f "L1U" (.inr (.inr rfl)) 3 _).2.2 (by decide) _ rfl ?_
  rw [SC.L1u, ← Matrix.mulVec_mulVec]
  funext i
  have : ∀ y : Fin path2.T → ℝ, (path2.B2.mulVec y) i = ∑ j, path2.B2 i j * y j := fun y => rfl
  rw [this]
  have : IsEmpty (Fin path2.T) := ⟨fun x => Nat.not_lt_zero _ x.2⟩
  rw [Finset.univ_eq_empty, Finset.sum_empty]
  rfl

end Pytspl
