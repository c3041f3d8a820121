import Verif.Props.PlotNetwork
import Verif.Props.Hodge
import Verif.Props.Eigen
import Verif.Props.Loaders
import Verif.Props.GaussianProcess

/-!
# Properties of figures with several drawings: C85, C93, C96
-/

namespace Pytspl

variable {g : GraphLib} {lib : NumLib} {p : SCPlot} {ax cur : ℕ}

/-! ## C85: the grid -/

/-- C85: a positive number of plots gets at most three columns, enough cells and no empty row; the columns are
three as soon as there are three plots. -/
theorem C85_grid (n : ℕ) (hn : 1 ≤ n) :
    ∃ rows cols, gridSize n = .ok (rows, cols) ∧ cols ≤ 3 ∧ (3 ≤ n → cols = 3) ∧ (n ≤ 3 → rows = 1 ∧ cols = n) ∧
      n ≤ rows * cols ∧ (rows - 1) * cols < n := by
  have h0 : min n 3 ≠ 0 := by omega
  refine ⟨_, _, by unfold gridSize; rw [if_neg h0], by omega, by omega, ?_, ?_⟩
  · intro h
    have : min n 3 = n := by omega
    rw [this, Nat.div_self (by omega), Nat.mod_self]
    exact ⟨rfl, rfl⟩
  · rcases le_total n 3 with h | h
    · have : min n 3 = n := by omega
      rw [this, Nat.div_self (by omega), Nat.mod_self]
      simp
      omega
    · have : min n 3 = 3 := by omega
      rw [this]
      split_ifs <;> omega

/-- C85: no plots, no grid. -/
theorem C85_empty : gridSize 0 = .error .zeroDivisionError := rfl

/-- C85: so a component without eigenvectors cannot be drawn; nothing is drawn and nothing changes. -/
theorem C85_no_eigenvectors (component : String) (pairs : EigPairs p.sc.E)
    (h : p.sc.getComponentEigenpair lib component = .ok pairs) (h0 : pairs.num = 0) (roundFig wl : Bool) (sig : ℤ)
    (figsize : ℝ × ℝ) :
    p.drawEigenvectors g lib component [] roundFig sig wl figsize = (.error .zeroDivisionError, p) := by
  unfold SCPlot.drawEigenvectors
  rw [h]
  simp only [List.length_nil, if_true, List.length_map, List.length_range, h0, C85_empty]

/-! ## What a panel shows -/

/-- The panel is cell `index` of a grid, draws only in that cell, and shows the flow: every edge once, coloured by its
value; if `labels`, the values are written too, edge by edge. -/
structure Panel.Shows (sc : SC ℝ) (P : Panel) (rows cols index : ℕ) (labels : Bool) (f : Fin sc.E → ℝ) : Prop where
  grid : P.rows = rows ∧ P.cols = cols ∧ P.index = index
  cell : 1 ≤ index ∧ index ≤ rows * cols
  axes : ∀ c ∈ P.cmds, c.ax = index
  colors : (P.cmds.filterMap Cmd.edge?).Perm (List.ofFn fun e => (sc.edges[(e : ℕ)]'e.2, KwVal.num (f e)))
  values : (P.cmds.filterMap Cmd.edgeLabel?).map Prod.snd = if labels then List.ofFn f else []

private theorem zip_ofFn {l : List Edge} (f : Fin l.length → ℝ) :
    l.zip (List.ofFn f) = List.ofFn fun e : Fin l.length => (l[(e : ℕ)]'e.2, f e) := by
  apply List.ext_getElem
  · simp
  · intro i h1 h2
    simp

private theorem flow_dict {sc : SC ℝ} (hn : sc.edges.Nodup) (f : Fin sc.E → ℝ) :
    createEdgeFlow sc.edges (List.ofFn f) = List.ofFn fun e : Fin sc.E => (sc.edges[(e : ℕ)]'e.2, f e) := by
  unfold createEdgeFlow
  rw [zip_ofFn]
  refine Dict.ofPairs_of_nodup ?_
  rw [List.map_ofFn]
  refine List.nodup_ofFn.2 fun a b hab => ?_
  exact Fin.ext ((List.Nodup.getElem_inj_iff hn).1 hab)

/-- the edges and the edge labels of a drawing with a flow -/
private theorem network_flow {l : List ℝ} {dir wl : Bool} {cmds : List Cmd}
    (hd : (Dict.keys (createEdgeFlow p.sc.edges l)).Nodup)
    (h : (p.drawNetwork g ax cur (.array l) dir wl []).1 = .ok cmds) :
    (cmds.filterMap Cmd.edge?).Perm ((createEdgeFlow p.sc.edges l).map fun q => (q.1, KwVal.num q.2)) ∧
    (cmds.filterMap Cmd.edgeLabel?).map Prod.snd = if wl then Dict.values (createEdgeFlow p.sc.edges l) else [] := by
  obtain ⟨kw, a, b, c, hkw, -, h1, h2, h3, rfl⟩ := drawNetwork_ok h
  have hb := (C82_flow_colors _ hd dir _ b h2).1
  obtain ⟨pos, c0, c1, hp, ⟨_, _, _, _, rfl⟩, hi, hn, rfl⟩ := drawScNodes_ok h1
  obtain ⟨pos', d0, d1, hp', ⟨_, _, _, _, rfl⟩, hi', he, rfl⟩ := drawScEdges_ok h2
  obtain ⟨lim, pts, labels, ⟨_, n1⟩, n2, n3, rfl⟩ := drawNodesOn_ok hn
  obtain ⟨edges, color, cm, lim', colors, es, ts, -, -, -, e1, -, e3, e4, rfl⟩ := drawEdgesOn_ok he
  have hlim : ∀ {lim : KwVal × KwVal × List Cmd} {color vmin vmax cmap : KwVal},
      colorLimits color vmin vmax cmap ax = .ok lim →
      lim.2.2.filterMap Cmd.edge? = [] ∧ lim.2.2.filterMap Cmd.edgeLabel? = [] := by
    intro lim color vmin vmax cmap hl
    rcases colorLimits_ok hl with ⟨e, -⟩ | ⟨e, -⟩ <;> rw [e] <;> exact ⟨rfl, rfl⟩
  have hmar : ∀ m, (marginCmds ax m).filterMap Cmd.edge? = [] ∧ (marginCmds ax m).filterMap Cmd.edgeLabel? = [] := by
    intro m; cases m <;> exact ⟨rfl, rfl⟩
  have hlab : labels.filterMap Cmd.edge? = [] ∧ labels.filterMap Cmd.edgeLabel? = [] := by
    rcases n3 with ⟨-, rfl⟩ | ⟨-, n3⟩
    · exact ⟨rfl, rfl⟩
    · constructor
      · rw [mapM_filterMap Cmd.edge? (fun _ => none) n3, List.filterMap_none]
        intro n c hc
        obtain ⟨q, opts, -, rfl, -⟩ := nodeLabel_ok hc
        rfl
      · rw [mapM_filterMap Cmd.edgeLabel? (fun _ => none) n3, List.filterMap_none]
        intro n c hc
        obtain ⟨q, opts, -, rfl, -⟩ := nodeLabel_ok hc
        rfl
  have hes : es.filterMap Cmd.edgeLabel? = [] := by
    rw [mapM_filterMap Cmd.edgeLabel? (fun _ => none) e3, List.filterMap_none]
    intro n c hc
    obtain ⟨a, b, -, -, rfl⟩ := edgeCmd_ok hc
    rfl
  have hts : ts.filterMap Cmd.edgeLabel? = [] := by
    rw [mapM_filterMap Cmd.edgeLabel? (fun _ => none) e4, List.filterMap_none]
    intro n c hc
    obtain ⟨i, j, k, a, b, d, -, -, -, -, rfl⟩ := triangleCmd_ok hc
    rfl
  have hc : c.filterMap Cmd.edge? = [] ∧ (c.filterMap Cmd.edgeLabel?).map Prod.snd =
      if wl then Dict.values (createEdgeFlow p.sc.edges l) else [] := by
    unfold networkLabels at h3
    simp only [FlowArg.toDict] at h3
    split_ifs at h3 with hw hk
    · rw [if_pos hw]
      obtain ⟨pos'', f0, f1, hp'', ⟨_, _, _, _, rfl⟩, hi'', hl, rfl⟩ := drawEdgeLabels_ok h3
      constructor
      · rw [List.filterMap_append, mapM_filterMap Cmd.edge? (fun _ => none) hl, List.filterMap_none]
        · rfl
        · intro y c hc
          obtain ⟨o, q, -, -, rfl⟩ := edgeLabelCmd_ok hc
          rfl
      · have := mapM_filterMap (fun c => c.edgeLabel?.map Prod.snd) (fun q => some q.2) hl (by
          intro y c hc
          obtain ⟨o, q, -, -, rfl⟩ := edgeLabelCmd_ok hc
          rfl)
        rw [List.filterMap_append, List.map_append, List.map_filterMap, List.map_filterMap, this]
        rw [List.filterMap_eq_map']
        rfl
    · cases h3
      rw [if_neg hw]
      exact ⟨rfl, rfl⟩
  constructor
  · simp only [List.filterMap_append, (hlim n1).1, (hmar _).1, hlab.1, hc.1, List.append_nil, List.nil_append] at hb ⊢
    exact hb
  · simp only [List.filterMap_append, (hlim n1).2, (hlim e1).2, (hmar _).2, hlab.2, hes, hts, List.map_append, hc.2]
    rfl

private theorem placed_placed : (p.placed g).placed g = p.placed g := rfl

/-- successful panels, one by one -/
private theorem drawPanels_ok {rows cols : ℕ} {wl : Bool} {i : ℕ} {specs : List (Py PanelSpec)} {panels : List Panel}
    (h : (drawPanels g rows cols wl i p specs).1 = .ok panels) :
    panels.length = specs.length ∧ ∀ k (h1 : k < panels.length) (h2 : k < specs.length), ∃ s, specs[k] = .ok s ∧
      panels[k].rows = rows ∧ panels[k].cols = cols ∧ panels[k].index = i + k ∧ panels[k].letter = s.letter ∧
      panels[k].value = s.value ∧ (1 ≤ i + k ∧ i + k ≤ rows * cols) ∧
      ∃ q : SCPlot, q.sc = p.sc ∧ (q.drawNetwork g (i + k) (i + k) (.array s.flow) true wl []).1 = .ok panels[k].cmds := by
  induction specs generalizing i p panels with
  | nil =>
    cases h
    exact ⟨rfl, fun k h1 => by cases h1⟩
  | cons s rest ih =>
    unfold drawPanels at h
    unfold addSubplot at h
    split_ifs at h with hi
    · cases s with
      | error e => cases h
      | ok s =>
        simp only at h
        cases hd : p.drawNetwork g i i (.array s.flow) true wl [] with
        | mk r p' =>
          rw [hd] at h
          cases r with
          | error e => cases h
          | ok c =>
            simp only at h
            obtain ⟨l, hl, rfl⟩ := pyMap_ok h
            obtain ⟨h1, h2⟩ := ih hl
            have hsc : p'.sc = p.sc := by
              have h3 : p' = (p.drawNetwork g i i (.array s.flow) true wl []).2 := by rw [hd]
              rcases drawNetwork_snd (p := p) (g := g) (ax := i) (cur := i) (fa := .array s.flow) (dir := true)
                (wl := wl) (kwargs := []) with h4 | h4
              · rw [h3, h4]
              · rw [h3, h4]; rfl
            refine ⟨by simp [h1], fun k hk1 hk2 => ?_⟩
            cases k with
            | zero => exact ⟨s, rfl, rfl, rfl, rfl, rfl, rfl, hi, p, rfl, by rw [Nat.add_zero, hd]; rfl⟩
            | succ k =>
              obtain ⟨t, t1, t2, t3, t4, t5, t6, t7, q, q1, q2⟩ := h2 k (by simpa using hk1) (by simpa using hk2)
              have e : i + 1 + k = i + (k + 1) := by omega
              rw [e] at t4 t7 q2
              exact ⟨t, t1, t2, t3, t4, t5, t6, t7, q, q1.trans hsc, q2⟩

private theorem panel_shows {rows cols : ℕ} {wl : Bool} {i : ℕ} {P : Panel} (hn : p.sc.edges.Nodup)
    {f : Fin p.sc.E → ℝ} (h1 : P.rows = rows) (h2 : P.cols = cols) (h3 : P.index = i)
    (h4 : 1 ≤ i ∧ i ≤ rows * cols)
    (h : ∃ q : SCPlot, q.sc = p.sc ∧ (q.drawNetwork g i i (.array (List.ofFn f)) true wl []).1 = .ok P.cmds) :
    P.Shows p.sc rows cols i wl f := by
  obtain ⟨⟨sc, pos⟩, hq, h⟩ := h
  simp only at hq
  subst hq
  have e := flow_dict hn f
  have hk : (Dict.keys (createEdgeFlow p.sc.edges (List.ofFn f))).Nodup := by
    rw [e]
    unfold Dict.keys
    rw [List.map_ofFn]
    exact List.nodup_ofFn.2 fun a b hab => Fin.ext ((List.Nodup.getElem_inj_iff hn).1 hab)
  obtain ⟨g1, g2⟩ := network_flow (p := ⟨p.sc, pos⟩) hk h
  refine ⟨⟨h1, h2, h3⟩, h4, C94_axes_current _ _ _ _ _ h (.inr rfl), ?_, ?_⟩
  · rw [e, List.map_ofFn] at g1
    exact g1
  · rw [g2]
    simp only [e, Dict.values, List.map_ofFn]
    rfl

/-- panels are drawn when every network is -/
private theorem drawPanels_total {rows cols : ℕ} {wl : Bool} {i : ℕ} {specs : List (Py PanelSpec)} (h1 : 1 ≤ i)
    (h2 : i + specs.length ≤ rows * cols + 1)
    (h : ∀ s ∈ specs, ∃ t, s = .ok t ∧ ∀ q : SCPlot, (q = p ∨ q = p.placed g) → ∀ j,
      ∃ c, (q.drawNetwork g j j (.array t.flow) true wl []).1 = .ok c) :
    ∃ panels, (drawPanels g rows cols wl i p specs).1 = .ok panels := by
  induction specs generalizing i p with
  | nil => exact ⟨[], rfl⟩
  | cons s rest ih =>
    obtain ⟨t, rfl, ht⟩ := h s (by simp)
    obtain ⟨c, hc⟩ := ht p (.inl rfl) i
    have hs := drawNetwork_snd_ok hc
    rw [List.length_cons] at h2
    obtain ⟨panels, hp⟩ := ih (i := i + 1) (p := p.placed g) (by omega) (by omega) fun s hs => by
      obtain ⟨t, rfl, ht⟩ := h s (by simp [hs])
      refine ⟨t, rfl, fun q hq => ht q (.inr ?_)⟩
      rcases hq with hq | hq
      · exact hq
      · rw [hq, placed_placed]
    have hd : p.drawNetwork g i i (.array t.flow) true wl [] = (.ok c, p.placed g) := Prod.ext hc hs
    refine ⟨⟨rows, cols, i, t.letter, t.value, c⟩ :: panels, ?_⟩
    unfold drawPanels addSubplot
    rw [if_pos ⟨h1, by omega⟩]
    simp only [hd, hp]
    rfl

/-- the complex can be drawn: there are edges, and all of it has positions -/
structure SCPlot.Drawable (p : SCPlot) (g : GraphLib) : Prop where
  edges : p.sc.edges ≠ []
  nodup : p.sc.edges.Nodup
  positioned : p.Positioned (p.layout g)

private theorem layout_eq {q : SCPlot} (hq : q = p ∨ q = p.placed g) : q.sc = p.sc ∧ q.layout g = p.layout g := by
  rcases hq with rfl | rfl <;> exact ⟨rfl, rfl⟩

private theorem draw_flow {wl : Bool} (hd : p.Drawable g) (f : Fin p.sc.E → ℝ) (q : SCPlot)
    (hq : q = p ∨ q = p.placed g) (j : ℕ) :
    ∃ c, (q.drawNetwork g j j (.array (List.ofFn f)) true wl []).1 = .ok c := by
  obtain ⟨h1, h2⟩ := layout_eq hq
  obtain ⟨e, es, he⟩ := List.exists_cons_of_ne_nil hd.edges
  have hpos : q.Positioned (q.layout g) := by
    rw [h2]
    unfold SCPlot.Positioned
    rw [h1]
    exact hd.positioned
  refine C97_succeeds _ _ _ hpos ?_ ?_
  · intro h0
    have := (hd.positioned.2.1 e (by rw [he]; simp)).1
    rw [← h2, h0] at this
    cases this
  · intro d hdd
    have hdd := Option.some.inj hdd
    rw [h1, flow_dict hd.nodup] at hdd
    subst hdd
    constructor
    · intro h0
      have := congrArg List.length h0
      rw [List.length_ofFn] at this
      have hl : p.sc.edges.length = 0 := this
      rw [he] at hl
      cases hl
    · intro e he
      unfold Dict.keys at he
      rw [List.map_ofFn, List.mem_ofFn] at he
      obtain ⟨i, rfl⟩ := he
      rw [h2]
      exact hd.positioned.2.1 _ (List.getElem_mem _)

/-! ## C93: the Hodge decomposition, drawn -/

private theorem component_ok {flow : Fin p.sc.E → ℝ} {component : String} {roundFig : Bool} {sig : ℤ}
    {f : Fin p.sc.E → ℝ} (h : p.sc.getComponentFlow lib flow component roundFig sig = .ok f) :
    component = "harmonic" ∨ component = "curl" ∨ component = "gradient" := by
  unfold SC.getComponentFlow at h
  split_ifs at h with h1 h2 h3
  · exact .inl h1
  · exact .inr (.inl h2)
  · exact .inr (.inr h3)

private theorem component_exists {flow : Fin p.sc.E → ℝ} {component : String} {roundFig : Bool} {sig : ℤ}
    (h : component = "gradient" ∨ component = "curl" ∨ component = "harmonic") :
    ∃ f, p.sc.getComponentFlow lib flow component roundFig sig = .ok f := by
  unfold SC.getComponentFlow
  split_ifs with h1 h2 h3
  · exact ⟨_, rfl⟩
  · exact ⟨_, rfl⟩
  · exact ⟨_, rfl⟩
  · tauto

/-- C93: without a component three panels side by side show, as G, C and H, what `get_component_flow` returns for
the gradient, curl and harmonic component; without rounding the three flows shown add up to the flow, with rounding
they do within one and a half units of the last digit. -/
theorem C93_all_components (hn : p.sc.edges.Nodup) (flow : Fin p.sc.E → ℝ) (roundFig : Bool) (sig : ℤ)
    (panels : List Panel) (h : (p.drawHodgeDecomposition g lib flow none roundFig sig).1 = .ok panels) :
    ∃ P Q R fg fc fh, panels = [P, Q, R] ∧
      (P.letter = 'G' ∧ P.Shows p.sc 1 3 1 true fg ∧ p.sc.getComponentFlow lib flow "gradient" roundFig sig = .ok fg) ∧
      (Q.letter = 'C' ∧ Q.Shows p.sc 1 3 2 true fc ∧ p.sc.getComponentFlow lib flow "curl" roundFig sig = .ok fc) ∧
      (R.letter = 'H' ∧ R.Shows p.sc 1 3 3 true fh ∧ p.sc.getComponentFlow lib flow "harmonic" roundFig sig = .ok fh) ∧
      (roundFig = false → fg + fc + fh = flow) ∧
      (roundFig = true → ∀ e, |fg e + fc e + fh e - flow e| ≤ 3 / 2 / (10 : ℝ) ^ sig) := by
  have h1 : ∃ fg, p.sc.getComponentFlow lib flow "gradient" roundFig sig = .ok fg := component_exists (by simp)
  have h2 : ∃ fg, p.sc.getComponentFlow lib flow "curl" roundFig sig = .ok fg := component_exists (by simp)
  have h3 : ∃ fg, p.sc.getComponentFlow lib flow "harmonic" roundFig sig = .ok fg := component_exists (by simp)
  obtain ⟨fg, h1⟩ := h1
  obtain ⟨fc, h2⟩ := h2
  obtain ⟨fh, h3⟩ := h3
  unfold SCPlot.drawHodgeDecomposition at h
  simp only [h1, h2, h3] at h
  obtain ⟨hl, hk⟩ := drawPanels_ok h
  match panels, hl, hk with
  | [P, Q, R], _, hk =>
    obtain ⟨s, e, p1, p2, p3, p4, p5, p6, p7⟩ := hk 0 (by simp) (by simp)
    cases e
    obtain ⟨s, e, q1, q2, q3, q4, q5, q6, q7⟩ := hk 1 (by simp) (by simp)
    cases e
    obtain ⟨s, e, r1, r2, r3, r4, r5, r6, r7⟩ := hk 2 (by simp) (by simp)
    cases e
    refine ⟨P, Q, R, fg, fc, fh, rfl, ⟨p4, panel_shows hn p1 p2 p3 p6 p7, h1⟩, ⟨q4, panel_shows hn q1 q2 q3 q6 q7, h2⟩,
      ⟨r4, panel_shows hn r1 r2 r3 r6 r7, h3⟩, ?_, ?_⟩
    · rintro rfl
      exact C18_components_sum flow fg fc fh ⟨by simpa [SC.getComponentFlow, getGradientFlow] using h1,
        by simpa [SC.getComponentFlow, getCurlFlow] using h2, by simpa [SC.getComponentFlow, getHarmonicFlow] using h3⟩
    · rintro rfl e
      obtain ⟨g0, c0, h0, hp⟩ := HodgeParts.exists lib p.sc flow
      exact (C24_rounded_components flow g0 c0 h0 fg fc fh sig hp h1 h2 h3 e).2

/-- C93: with a component one panel shows that component, titled with its first letter. -/
theorem C93_one_component (hn : p.sc.edges.Nodup) (flow : Fin p.sc.E → ℝ) (component : String) (roundFig : Bool)
    (sig : ℤ) (panels : List Panel)
    (h : (p.drawHodgeDecomposition g lib flow (some component) roundFig sig).1 = .ok panels) :
    ∃ P f, panels = [P] ∧ p.sc.getComponentFlow lib flow component roundFig sig = .ok f ∧
      P.Shows p.sc 1 1 1 true f ∧ ((component = "gradient" ∧ P.letter = 'G') ∨ (component = "curl" ∧ P.letter = 'C') ∨
        (component = "harmonic" ∧ P.letter = 'H')) := by
  unfold SCPlot.drawHodgeDecomposition at h
  simp only at h
  cases hf : p.sc.getComponentFlow lib flow component roundFig sig with
  | error e => rw [hf] at h; cases h
  | ok f =>
    rw [hf] at h
    obtain ⟨hl, hk⟩ := drawPanels_ok h
    match panels, hl, hk with
    | [P], _, hk =>
      obtain ⟨s, e, p1, p2, p3, p4, p5, p6, p7⟩ := hk 0 (by simp) (by simp)
      refine ⟨P, f, rfl, rfl, ?_⟩
      rcases component_ok hf with rfl | rfl | rfl
      · cases e
        exact ⟨panel_shows hn p1 p2 p3 p6 p7, .inr (.inr ⟨rfl, p4⟩)⟩
      · cases e
        exact ⟨panel_shows hn p1 p2 p3 p6 p7, .inr (.inl ⟨rfl, p4⟩)⟩
      · cases e
        exact ⟨panel_shows hn p1 p2 p3 p6 p7, .inl ⟨rfl, p4⟩⟩

/-- C93: any other component is a `ValueError` and changes nothing. -/
theorem C93_invalid (flow : Fin p.sc.E → ℝ) (component : String) (roundFig : Bool) (sig : ℤ)
    (hc : component ≠ "gradient" ∧ component ≠ "curl" ∧ component ≠ "harmonic") :
    p.drawHodgeDecomposition g lib flow (some component) roundFig sig = (.error .valueError, p) := by
  have : p.sc.getComponentFlow lib flow component roundFig sig = .error .valueError := by
    unfold SC.getComponentFlow
    rw [if_neg hc.2.2, if_neg hc.2.1, if_neg hc.1]
  unfold SCPlot.drawHodgeDecomposition
  simp only [this]

/-- C93: if the complex can be drawn, its Hodge decomposition can. -/
theorem C93_succeeds (hd : p.Drawable g) (flow : Fin p.sc.E → ℝ) (component : Option String) (roundFig : Bool) (sig : ℤ)
    (hc : ∀ c, component = some c → c = "gradient" ∨ c = "curl" ∨ c = "harmonic") :
    ∃ panels, (p.drawHodgeDecomposition g lib flow component roundFig sig).1 = .ok panels := by
  unfold SCPlot.drawHodgeDecomposition
  cases component with
  | none =>
    have h1 : ∃ fg, p.sc.getComponentFlow lib flow "gradient" roundFig sig = .ok fg := component_exists (by simp)
    have h2 : ∃ fg, p.sc.getComponentFlow lib flow "curl" roundFig sig = .ok fg := component_exists (by simp)
    have h3 : ∃ fg, p.sc.getComponentFlow lib flow "harmonic" roundFig sig = .ok fg := component_exists (by simp)
    obtain ⟨fg, h1⟩ := h1
    obtain ⟨fc, h2⟩ := h2
    obtain ⟨fh, h3⟩ := h3
    simp only [h1, h2, h3]
    refine drawPanels_total le_rfl (by simp) fun s hs => ?_
    simp only [List.mem_cons, List.not_mem_nil, or_false] at hs
    rcases hs with rfl | rfl | rfl
    · exact ⟨_, rfl, draw_flow hd fg⟩
    · exact ⟨_, rfl, draw_flow hd fc⟩
    · exact ⟨_, rfl, draw_flow hd fh⟩
  | some c =>
    have h1 : ∃ f, p.sc.getComponentFlow lib flow c roundFig sig = .ok f := component_exists (hc c rfl)
    have h2 : ∃ l, titleLetter c = .ok l := by
      rcases hc c rfl with rfl | rfl | rfl <;> exact ⟨_, rfl⟩
    obtain ⟨f, h1⟩ := h1
    obtain ⟨l, h2⟩ := h2
    simp only [h1, h2]
    refine drawPanels_total le_rfl (by simp) fun s hs => ?_
    rw [List.mem_singleton] at hs
    subst hs
    exact ⟨_, rfl, draw_flow hd f⟩

/-! ## C96: the eigenvectors, drawn -/

/-- the eigenvectors to draw: those asked for, or all -/
def drawnIndices (indices : List Int) (num : ℕ) : List Int :=
  if indices = [] then (List.range num).map fun i : ℕ => (i : Int) else indices

private theorem indices_eq {indices : List Int} {num : ℕ} :
    (if indices.length = 0 then (List.range num).map fun i : ℕ => (i : Int) else indices) = drawnIndices indices num := by
  unfold drawnIndices
  simp only [List.length_eq_zero_iff]

private theorem eigPanel_ok {n : ℕ} {pairs : EigPairs n} {component : String} {roundFig : Bool} {sig : ℤ} {i : Int}
    {s : PanelSpec} (h : eigPanel pairs component roundFig sig i = .ok s) :
    ∃ (l : Char) (j : Fin pairs.num), titleLetter component = .ok l ∧ npIdx pairs.num i = .ok j ∧
      s = ⟨l, some (npRound (pairs.vals j) sig),
        List.ofFn fun e => if roundFig then npRound (pairs.vecs e j) sig else pairs.vecs e j⟩ := by
  unfold eigPanel at h
  obtain ⟨l, h1, h⟩ := pyBind_ok h
  obtain ⟨j, h2, h⟩ := pyBind_ok h
  exact ⟨l, j, h1, h2, (Except.ok.inj h).symm⟩

private theorem eigPanel_total {n : ℕ} {pairs : EigPairs n} {component : String} {roundFig : Bool} {sig : ℤ} {i : Int}
    (hc : ∃ l, titleLetter component = .ok l) (hi : -(pairs.num : Int) ≤ i ∧ i < pairs.num) :
    ∃ (l : Char) (v : Option ℝ) (f : Fin n → ℝ), eigPanel pairs component roundFig sig i = .ok ⟨l, v, List.ofFn f⟩ := by
  obtain ⟨l, hl⟩ := hc
  have h3 : ∃ j, npIdx pairs.num i = .ok j := by
    unfold npIdx
    split_ifs with h1 h2
    · exact ⟨_, rfl⟩
    · exact ⟨_, rfl⟩
    · omega
  obtain ⟨j, h3⟩ := h3
  refine ⟨l, some (npRound (pairs.vals j) sig),
    fun e => if roundFig then npRound (pairs.vecs e j) sig else pairs.vecs e j, ?_⟩
  unfold eigPanel
  rw [hl, h3]
  rfl

private theorem npIdx_ok {n : ℕ} {i : Int} {j : Fin n} (h : npIdx n i = .ok j) :
    i = (j : ℕ) ∨ i = (j : ℕ) - (n : Int) := by
  unfold npIdx at h
  split_ifs at h with h1 h2
  · cases h
    left
    simp only
    omega
  · cases h
    right
    simp only
    omega

private theorem pair_component {component : String} {pairs : EigPairs p.sc.E}
    (h : p.sc.getComponentEigenpair lib component = .ok pairs) :
    component = "harmonic" ∨ component = "curl" ∨ component = "gradient" := by
  unfold SC.getComponentEigenpair at h
  split_ifs at h with h1 h2 h3
  · exact .inl h1
  · exact .inr (.inl h2)
  · exact .inr (.inr h3)

/-- C96: there is one panel for each eigenvector asked for (for all of them if none is named), in the order asked for
and in successive cells of the grid; it shows the entries of that eigenvector (counted from the end if the index is
negative) and is titled with the letter of the component and the rounded eigenvalue belonging to it. -/
theorem C96_panels (hn : p.sc.edges.Nodup) (component : String) (indices : List Int) (roundFig wl : Bool) (sig : ℤ)
    (figsize size : ℝ × ℝ) (panels : List Panel)
    (h : (p.drawEigenvectors g lib component indices roundFig sig wl figsize).1 = .ok (size, panels)) :
    ∃ pairs rows cols, p.sc.getComponentEigenpair lib component = .ok pairs ∧
      gridSize (drawnIndices indices pairs.num).length = .ok (rows, cols) ∧
      panels.length = (drawnIndices indices pairs.num).length ∧
      ∀ k (h1 : k < panels.length) (h2 : k < (drawnIndices indices pairs.num).length), ∃ j : Fin pairs.num,
        ((drawnIndices indices pairs.num)[k] = (j : ℕ) ∨
          (drawnIndices indices pairs.num)[k] = (j : ℕ) - (pairs.num : Int)) ∧
        panels[k].value = some (npRound (pairs.vals j) sig) ∧
        ((component = "gradient" ∧ panels[k].letter = 'G') ∨ (component = "curl" ∧ panels[k].letter = 'C') ∨
          (component = "harmonic" ∧ panels[k].letter = 'H')) ∧
        panels[k].Shows p.sc rows cols (k + 1) wl
          fun e => if roundFig then npRound (pairs.vecs e j) sig else pairs.vecs e j := by
  unfold SCPlot.drawEigenvectors at h
  cases hp : p.sc.getComponentEigenpair lib component with
  | error e => rw [hp] at h; cases h
  | ok pairs =>
    rw [hp] at h
    simp only [indices_eq] at h
    cases hg : gridSize (drawnIndices indices pairs.num).length with
    | error e => rw [hg] at h; cases h
    | ok rc =>
      obtain ⟨rows, cols⟩ := rc
      rw [hg] at h
      obtain ⟨l, hl, e⟩ := pyMap_ok h
      cases e
      obtain ⟨h1, h2⟩ := drawPanels_ok hl
      rw [List.length_map] at h1
      refine ⟨pairs, rows, cols, rfl, hg, h1, fun k k1 k2 => ?_⟩
      obtain ⟨s, e, p1, p2, p3, p4, p5, p6, p7⟩ := h2 k k1 (by simpa using k2)
      rw [List.getElem_map] at e
      obtain ⟨c, j, e1, e2, rfl⟩ := eigPanel_ok e
      rw [Nat.add_comm] at p3 p6 p7
      refine ⟨j, npIdx_ok e2, p5, ?_, panel_shows hn p1 p2 p3 p6 p7⟩
      rcases pair_component hp with rfl | rfl | rfl
      · cases e1
        exact .inr (.inr ⟨rfl, p4⟩)
      · cases e1
        exact .inr (.inl ⟨rfl, p4⟩)
      · cases e1
        exact .inl ⟨rfl, p4⟩

/-- C96, size of the figure: one to three eigenvectors take one row, of a third of the given width each (a single one
gets the full width); more than three take one row of the given height for every three. -/
theorem C96_figure_size (component : String) (indices : List Int) (roundFig wl : Bool) (sig : ℤ)
    (figsize size : ℝ × ℝ) (panels : List Panel)
    (h : (p.drawEigenvectors g lib component indices roundFig sig wl figsize).1 = .ok (size, panels)) :
    1 ≤ panels.length ∧ (panels.length = 1 → size = figsize) ∧
    (panels.length = 2 → size = (figsize.1 * 2 / 3, figsize.2)) ∧
    (3 ≤ panels.length → size = (figsize.1, figsize.2 * ((panels.length + 2) / 3 : ℕ))) := by
  unfold SCPlot.drawEigenvectors at h
  cases hp : p.sc.getComponentEigenpair lib component with
  | error e => rw [hp] at h; cases h
  | ok pairs =>
    rw [hp] at h
    simp only [indices_eq] at h
    cases hg : gridSize (drawnIndices indices pairs.num).length with
    | error e => rw [hg] at h; cases h
    | ok rc =>
      obtain ⟨rows, cols⟩ := rc
      rw [hg] at h
      obtain ⟨l, hl, e⟩ := pyMap_ok h
      cases e
      have h1 := (drawPanels_ok hl).1
      rw [List.length_map] at h1
      rw [← h1] at hg
      have h0 : panels.length ≠ 0 := by
        intro h0
        rw [h0] at hg
        cases hg
      have hm : ¬ min panels.length 3 = 0 := by omega
      unfold gridSize at hg
      simp only [if_neg hm, Except.ok.injEq, Prod.mk.injEq] at hg
      obtain ⟨hrow, hcol⟩ := hg
      refine ⟨by omega, fun h => ?_, fun h => ?_, fun h => ?_⟩
      · rw [h] at hrow hcol
        norm_num at hrow hcol
        subst hrow hcol
        simp [gridFigsize]
      · rw [h] at hrow hcol
        norm_num at hrow hcol
        subst hrow hcol
        simp only [gridFigsize]
        norm_num
        ring
      · have h3 : min panels.length 3 = 3 := by omega
        rw [h3] at hrow hcol
        have hrow' : rows = (panels.length + 2) / 3 := by
          rw [← hrow]
          split_ifs <;> omega
        rw [← hrow', ← hcol]
        unfold gridFigsize
        by_cases h4 : 1 < rows
        · rw [if_pos h4]
        · have : rows = 1 := by omega
          rw [if_neg h4, this]
          norm_num

/-- C96, default arguments: all eigenvectors of the component are drawn, with their entries rounded to two decimals
written at the edges, in a figure 15 wide and 5 high per row (or narrower for two eigenvectors). -/
theorem C96_defaults (hn : p.sc.edges.Nodup) (component : String) (size : ℝ × ℝ) (panels : List Panel)
    (h : (p.drawEigenvectors g lib component).1 = .ok (size, panels)) :
    ∃ pairs, p.sc.getComponentEigenpair lib component = .ok pairs ∧ panels.length = pairs.num ∧
      (pairs.num ≠ 2 → size = ((15 : ℝ), (5 : ℝ) * ((pairs.num + 2) / 3 : ℕ))) ∧ (pairs.num = 2 → size = (10, 5)) ∧
      ∀ (k : ℕ) (h1 : k < panels.length) (h2 : k < pairs.num), ∃ rows cols,
        panels[k].value = some (npRound (pairs.vals ⟨k, h2⟩) 2) ∧
        panels[k].Shows p.sc rows cols (k + 1) true fun e => npRound (pairs.vecs e ⟨k, h2⟩) 2 := by
  obtain ⟨s1, s2, s3, s4⟩ := C96_figure_size component [] true true 2 (15, 5) size panels h
  obtain ⟨pairs, rows, cols, e1, e2, e3, e4⟩ := C96_panels hn component [] true true 2 (15, 5) size panels h
  have hd : drawnIndices [] pairs.num = (List.range pairs.num).map fun i : ℕ => (i : Int) := by simp [drawnIndices]
  have hlen : panels.length = pairs.num := by rw [e3, hd]; simp
  refine ⟨pairs, e1, hlen, fun h2 => ?_, fun h2 => ?_, fun k h1 h2 => ?_⟩
  · rw [← hlen] at h2 ⊢
    rcases (by omega : panels.length = 1 ∨ 3 ≤ panels.length) with h' | h'
    · rw [s2 h', h']
      norm_num
    · exact s4 h'
  · rw [s3 (hlen.trans h2)]
    norm_num
  · obtain ⟨j, j1, j2, -, j4⟩ := e4 k h1 (by rw [hd]; simpa using h2)
    have hk : (drawnIndices [] pairs.num)[k]'(by rw [hd]; simpa using h2) = (k : Int) := by
      simp only [hd, List.getElem_map, List.getElem_range]
    have hj : j = ⟨k, h2⟩ := by
      apply Fin.ext
      have := j.2
      rcases j1 with h' | h' <;> rw [hk] at h' <;> simp only <;> omega
    subst hj
    exact ⟨rows, cols, j2, by simpa using j4⟩

/-- C96: if the complex can be drawn, so can every non-empty choice of its eigenvectors, each index counted from the
start or the end. -/
theorem C96_succeeds (hd : p.Drawable g) (component : String) (pairs : EigPairs p.sc.E)
    (hp : p.sc.getComponentEigenpair lib component = .ok pairs) (indices : List Int)
    (hi : ∀ i ∈ indices, -(pairs.num : Int) ≤ i ∧ i < pairs.num) (h0 : 1 ≤ pairs.num) (roundFig wl : Bool) (sig : ℤ)
    (figsize : ℝ × ℝ) :
    ∃ r, (p.drawEigenvectors g lib component indices roundFig sig wl figsize).1 = .ok r := by
  have hlen : 1 ≤ (drawnIndices indices pairs.num).length := by
    unfold drawnIndices
    split_ifs with h
    · simpa using h0
    · exact List.length_pos_iff.2 h
  have hmem : ∀ i ∈ drawnIndices indices pairs.num, -(pairs.num : Int) ≤ i ∧ i < pairs.num := by
    unfold drawnIndices
    split_ifs with h
    · intro i hi
      obtain ⟨k, hk, rfl⟩ := List.mem_map.1 hi
      rw [List.mem_range] at hk
      omega
    · exact hi
  obtain ⟨rows, cols, hg, -, -, -, hle, -⟩ := C85_grid _ hlen
  unfold SCPlot.drawEigenvectors
  simp only [hp, indices_eq, hg]
  obtain ⟨panels, h⟩ := drawPanels_total (p := p) (g := g) (rows := rows) (cols := cols) (wl := wl) (i := 1)
    (specs := (drawnIndices indices pairs.num).map (eigPanel pairs component roundFig sig)) le_rfl
    (by rw [List.length_map]; omega) (fun s hs => by
      obtain ⟨i, hi, rfl⟩ := List.mem_map.1 hs
      have h2 : ∃ l, titleLetter component = .ok l := by
        rcases pair_component hp with rfl | rfl | rfl <;> exact ⟨_, rfl⟩
      obtain ⟨l, v, f, hf⟩ := eigPanel_total (roundFig := roundFig) (sig := sig) h2 (hmem i hi)
      exact ⟨_, hf, draw_flow hd f⟩)
  rw [h]
  exact ⟨_, rfl⟩

/-- C96: an index that is out of range, or a component that does not exist, is never drawn. -/
theorem C96_rejects (component : String) (indices : List Int) (roundFig wl : Bool) (sig : ℤ) (figsize : ℝ × ℝ) :
    (component ≠ "gradient" ∧ component ≠ "curl" ∧ component ≠ "harmonic" →
      p.drawEigenvectors g lib component indices roundFig sig wl figsize = (.error .valueError, p)) ∧
    ∀ pairs, p.sc.getComponentEigenpair lib component = .ok pairs →
      (∃ i ∈ indices, i < -(pairs.num : Int) ∨ (pairs.num : Int) ≤ i) →
      ∀ r, (p.drawEigenvectors g lib component indices roundFig sig wl figsize).1 ≠ .ok r := by
  constructor
  · intro hc
    have : p.sc.getComponentEigenpair lib component = .error .valueError := by
      unfold SC.getComponentEigenpair
      rw [if_neg hc.2.2, if_neg hc.2.1, if_neg hc.1]
    unfold SCPlot.drawEigenvectors
    simp only [this]
  · rintro pairs hp ⟨i, hi, hr⟩ r h
    have hne : indices ≠ [] := List.ne_nil_of_mem hi
    unfold SCPlot.drawEigenvectors at h
    rw [hp] at h
    simp only [indices_eq] at h
    cases hg : gridSize (drawnIndices indices pairs.num).length with
    | error e => rw [hg] at h; cases h
    | ok rc =>
      obtain ⟨rows, cols⟩ := rc
      rw [hg] at h
      obtain ⟨l, hl, e⟩ := pyMap_ok h
      obtain ⟨h1, h2⟩ := drawPanels_ok hl
      rw [List.length_map] at h1
      have e0 : drawnIndices indices pairs.num = indices := if_neg hne
      rw [e0] at h1 h2
      obtain ⟨k, hk, rfl⟩ := List.mem_iff_getElem.1 hi
      obtain ⟨s, e, -⟩ := h2 k (by omega) (by simpa using hk)
      rw [List.getElem_map] at e
      obtain ⟨c, j, e1, e2, -⟩ := eigPanel_ok e
      have := j.2
      rcases npIdx_ok e2 with h | h <;> omega

/-! ## The hypotheses are met -/

/-- a graph library: edges without repetition, all nodes at the origin -/
noncomputable def simpleGraphLib : GraphLib where
  order es := es.dedup
  order_nodup es := es.nodup_dedup
  mem_order es e := List.mem_dedup
  spring es := (es.flatMap fun e => [e.1, e.2]).dedup.map fun k => (k, (0, 0))
  spring_nodup es := by
    unfold Dict.keys
    rw [List.map_map]
    exact (List.map_id _).symm ▸ List.nodup_dedup _
  mem_spring es k := by
    simp [Dict.keys]
  spring_box es q hq := by
    simp only [Dict.values, List.map_map, List.mem_map, Function.comp] at hq
    obtain ⟨_, -, rfl⟩ := hq
    simp

/-- the sample complex with coordinates -/
noncomputable def twoTriPlot : SCPlot :=
  ⟨twoTri, some [(0, (0, 0)), (1, (1, 0)), (2, (0, 1)), (3, (2, 0)), (4, (3, 0)), (5, (2, 1))]⟩

theorem twoTriPlot_drawable (g : GraphLib) : twoTriPlot.Drawable g := by
  refine ⟨by decide, by decide, ?_, ?_, ?_⟩
  · show ∀ n ∈ [(0 : Int), 1, 2, 3, 4, 5], n ∈ [(0 : Int), 1, 2, 3, 4, 5]
    decide
  · show ∀ e ∈ [((0 : Int), (1 : Int)), (0, 2), (1, 2), (3, 4), (3, 5), (4, 5)],
      e.1 ∈ [(0 : Int), 1, 2, 3, 4, 5] ∧ e.2 ∈ [(0 : Int), 1, 2, 3, 4, 5]
    decide
  · intro t ht
    have ht' : t ∈ [[(0 : Int), 1, 2]] := ht
    rw [List.mem_singleton] at ht'
    exact ⟨0, 1, 2, ht', show (0 : Int) ∈ [(0 : Int), 1, 2, 3, 4, 5] by decide,
      show (1 : Int) ∈ [(0 : Int), 1, 2, 3, 4, 5] by decide, show (2 : Int) ∈ [(0 : Int), 1, 2, 3, 4, 5] by decide⟩

/-- C93 applies to the sample complex: its Hodge decomposition is drawn, whole or by component -/
example (g : GraphLib) (lib : NumLib) (flow : Fin twoTriPlot.sc.E → ℝ) :
    (∃ panels, (twoTriPlot.drawHodgeDecomposition g lib flow none).1 = .ok panels) ∧
    ∃ panels, (twoTriPlot.drawHodgeDecomposition g lib flow (some "curl")).1 = .ok panels :=
  ⟨C93_succeeds (twoTriPlot_drawable g) flow none true 2 (fun c hc => by cases hc),
    C93_succeeds (twoTriPlot_drawable g) flow (some "curl") true 2 (fun c hc => by cases hc; simp)⟩

/-- C96 applies to the sample complex: some component has eigenvectors, and they are drawn -/
example (g : GraphLib) (lib : NumLib) : ∃ component pairs, twoTriPlot.sc.getComponentEigenpair lib component = .ok pairs ∧
    1 ≤ pairs.num ∧ ∃ r, (twoTriPlot.drawEigenvectors g lib component [0, -1]).1 = .ok r := by
  have ht : machineEps ≤ 1 / 1000 := by unfold machineEps; norm_num
  obtain ⟨eh, ec, eg, he⟩ := EigParts.exists lib twoTri (1 / 1000) (by decide)
  have hc := (C27_counts twoTri_wellFormed _ ht twoTri_gap eh ec eg he).1
  have h6 : twoTri.E = 6 := rfl
  have key : ∀ component pairs, twoTriPlot.sc.getComponentEigenpair lib component = .ok pairs → 1 ≤ pairs.num →
      ∃ component pairs, twoTriPlot.sc.getComponentEigenpair lib component = .ok pairs ∧
    1 ≤ pairs.num ∧ ∃ r, (twoTriPlot.drawEigenvectors g lib component [0, -1]).1 = .ok r := fun component pairs h1 h2 =>
    ⟨component, pairs, h1, h2, C96_succeeds (twoTriPlot_drawable g) component pairs h1 [0, -1]
      (by intro i hi; simp only [List.mem_cons, List.not_mem_nil, or_false] at hi; omega) h2 _ _ _ _⟩
  rcases (by omega : 1 ≤ eh.num ∨ 1 ≤ ec.num ∨ 1 ≤ eg.num) with h | h | h
  · exact key "harmonic" eh he.harm h
  · exact key "curl" ec he.curl h
  · exact key "gradient" eg he.grad h

/-- C95 applies to the sample complex: with labels, a flow and some options the drawing succeeds -/
example (g : GraphLib) (ax cur : ℕ) : ∃ cmds, (twoTriPlot.drawNetwork g ax cur (.dict [((0, 1), 2), ((4, 5), -1)]) true true
    [("node_size", .num 5), ("edge_width", .num 2), ("font_size", .num 8), ("edge_vmin", .num 0)]).1 = .ok cmds :=
  C97_options _ _ _ (twoTriPlot_drawable g).positioned (by intro h; cases h) (fun d hd => by
      cases hd
      refine ⟨by simp, ?_⟩
      show ∀ e ∈ [((0 : Int), (1 : Int)), (4, 5)], e.1 ∈ [(0 : Int), 1, 2, 3, 4, 5] ∧ e.2 ∈ [(0 : Int), 1, 2, 3, 4, 5]
      decide) _ (by simp)
    (show ∀ k ∈ ["node_size", "edge_width", "font_size", "edge_vmin"], k ∈ nodeOptions ++ edgeOptions ++ labelOptions
      by decide) (fun v hv => by cases hv) (fun h => by cases h) (fun k hk v hv => by
        simp only [List.mem_cons, List.not_mem_nil, or_false] at hk
        rcases hk with rfl | rfl <;> cases hv) (fun v hv => by cases hv)

/-- C92, C94 and C95 apply to the sample complex: drawings with and without labels succeed -/
example (g : GraphLib) (ax cur : ℕ) (wl : Bool) : twoTriPlot.sc.nodes ≠ [] ∧
    ∃ cmds, (twoTriPlot.drawNetwork g ax cur .none true wl []).1 = .ok cmds :=
  ⟨by decide, C97_succeeds _ _ _ (twoTriPlot_drawable g).positioned (by intro h; cases h) (fun d hd => by cases hd)⟩

end Pytspl
