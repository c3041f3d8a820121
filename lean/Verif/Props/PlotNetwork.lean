import Verif.Props.Plot

/-!
# Properties of whole drawings: C86, C92, C94, C95, C97
-/

namespace Pytspl

variable {g : GraphLib} {p : SCPlot} {ax cur : ℕ}

/-! ## C86: axis limits -/

/-- C86: with given coordinates the limits are the bounding box of all coordinates, extended by a twentieth
of its width and height on each side; the plot object does not change. -/
theorem C86_bounding_box (pos : Dict Int Pt) (hp : p.pos = some pos) (hne : pos ≠ []) :
    ∃ x0 x1 y0 y1 : ℝ,
      p.initAxes g ax = (.ok (pos, [⟨ax, .xlim (x0 - (x1 - x0) / 20) (x1 + (x1 - x0) / 20), []⟩,
        ⟨ax, .ylim (y0 - (y1 - y0) / 20) (y1 + (y1 - y0) / 20), []⟩]), p) ∧
      (∃ q ∈ Dict.values pos, q.1 = x0) ∧ (∃ q ∈ Dict.values pos, q.1 = x1) ∧
      (∃ q ∈ Dict.values pos, q.2 = y0) ∧ (∃ q ∈ Dict.values pos, q.2 = y1) ∧
      ∀ q ∈ Dict.values pos, (x0 ≤ q.1 ∧ q.1 ≤ x1) ∧ y0 ≤ q.2 ∧ q.2 ≤ y1 := by
  have hx : pos.values.map Prod.fst ≠ [] := by simpa [Dict.values] using hne
  have hy : pos.values.map Prod.snd ≠ [] := by simpa [Dict.values] using hne
  obtain ⟨x0, m1, h1, g1⟩ := pyMin_ok hx
  obtain ⟨x1, m2, h2, g2⟩ := pyMax_ok hx
  obtain ⟨y0, m3, h3, g3⟩ := pyMin_ok hy
  obtain ⟨y1, m4, h4, g4⟩ := pyMax_ok hy
  refine ⟨x0, x1, y0, y1, ?_, List.mem_map.1 m1, List.mem_map.1 m2, List.mem_map.1 m3, List.mem_map.1 m4,
    fun q hq => ⟨⟨g1 _ (List.mem_map_of_mem hq), g2 _ (List.mem_map_of_mem hq)⟩, g3 _ (List.mem_map_of_mem hq),
      g4 _ (List.mem_map_of_mem hq)⟩⟩
  unfold SCPlot.initAxes
  rw [hp]
  simp only [boundingBox, h1, h2, h3, h4, bind, Except.bind, pure, Except.pure, Except.map]
  rw [show (x1 - x0) * (5 / 100) = (x1 - x0) / 20 by ring, show (y1 - y0) * (5 / 100) = (y1 - y0) / 20 by ring]

/-- C86: without coordinates the nodes get a spring layout of the edges, which is kept for later drawings, and the
limits are the square from -1.1 to 1.1, which contains every node of the layout. -/
theorem C86_spring_layout (hp : p.pos = none) :
    p.initAxes g ax = (.ok (g.spring p.sc.edges, [⟨ax, .xlim (-(11 / 10)) (11 / 10), []⟩,
      ⟨ax, .ylim (-(11 / 10)) (11 / 10), []⟩]), { p with pos := some (g.spring p.sc.edges) }) ∧
    ∀ q ∈ Dict.values (g.spring p.sc.edges), (-(11 / 10) ≤ q.1 ∧ q.1 ≤ 11 / 10) ∧ -(11 / 10) ≤ q.2 ∧ q.2 ≤ 11 / 10 := by
  constructor
  · unfold SCPlot.initAxes
    rw [hp, show (-11 / 10 : ℝ) = -(11 / 10) by ring]
  · intro q hq
    obtain ⟨h1, h2⟩ := g.spring_box _ q hq
    have k1 := abs_le.1 h1
    have k2 := abs_le.1 h2
    exact ⟨⟨by linarith [k1.1], by linarith [k1.2]⟩, by linarith [k2.1], by linarith [k2.2]⟩

/-- C86: an empty coordinate dictionary makes every drawing raise `ValueError`. -/
theorem C86_no_coordinates (hp : p.pos = some []) (fa : FlowArg) (dir wl : Bool) (kwargs : Kw) :
    (p.drawNetwork g ax cur fa dir wl kwargs).1 = .error .valueError := by
  have h1 : ∀ kw, (p.drawScNodes g ax cur wl kw).1 = .error .valueError := by
    intro kw
    unfold SCPlot.drawScNodes SCPlot.initAxes
    rw [hp]
    rfl
  unfold SCPlot.drawNetwork
  simp only
  split_ifs <;> first | rfl | (simp only [h1]; rfl)

private theorem lims_mem {l : Dict Int Pt} {c : List Cmd} (h : (p.initAxes g ax).1 = .ok (l, c)) :
    (∀ x ∈ c, ∀ a b, x.shape = .xlim a b → ∀ q ∈ Dict.values l, a ≤ q.1 ∧ q.1 ≤ b) ∧
    (∀ x ∈ c, ∀ a b, x.shape = .ylim a b → ∀ q ∈ Dict.values l, a ≤ q.2 ∧ q.2 ≤ b) := by
  cases hp : p.pos with
  | none =>
    unfold SCPlot.initAxes at h
    rw [hp] at h
    cases h
    constructor
    · intro x hx a b hs q hq
      have := (abs_le.1 (g.spring_box _ q hq).1)
      simp only [List.mem_cons, List.not_mem_nil, or_false] at hx
      rcases hx with rfl | rfl
      · cases hs
        constructor <;> linarith [this.1, this.2]
      · cases hs
    · intro x hx a b hs q hq
      have := (abs_le.1 (g.spring_box _ q hq).2)
      simp only [List.mem_cons, List.not_mem_nil, or_false] at hx
      rcases hx with rfl | rfl
      · cases hs
      · cases hs
        constructor <;> linarith [this.1, this.2]
  | some pos =>
    by_cases hne : pos = []
    · subst hne
      unfold SCPlot.initAxes at h
      rw [hp] at h
      cases h
    · obtain ⟨x0, x1, y0, y1, h1, -, -, -, -, h6⟩ := C86_bounding_box (g := g) (ax := ax) pos hp hne
      rw [h1] at h
      cases h
      constructor
      · intro x hx a b hs q hq
        obtain ⟨⟨q1, q2⟩, q3, q4⟩ := h6 q hq
        simp only [List.mem_cons, List.not_mem_nil, or_false] at hx
        rcases hx with rfl | rfl
        · cases hs
          constructor <;> linarith
        · cases hs
      · intro x hx a b hs q hq
        obtain ⟨⟨q1, q2⟩, q3, q4⟩ := h6 q hq
        simp only [List.mem_cons, List.not_mem_nil, or_false] at hx
        rcases hx with rfl | rfl
        · cases hs
        · cases hs
          constructor <;> linarith

/-! ## C97: when drawing succeeds -/

/-- the positions used for drawing: the coordinates given, or the automatic layout -/
noncomputable def SCPlot.layout (p : SCPlot) (g : GraphLib) : Dict Int Pt := p.pos.getD (g.spring p.sc.edges)

private theorem initAxes_ok (h : p.pos ≠ some []) : ∃ c, (p.initAxes g ax).1 = .ok (p.layout g, c) := by
  unfold SCPlot.initAxes SCPlot.layout
  cases hp : p.pos with
  | none => exact ⟨_, rfl⟩
  | some pos =>
    obtain ⟨c, hc⟩ := boundingBox_ok (pos := pos) (ax := ax) (fun h0 => h (by rw [hp, h0]))
    exact ⟨c, by simp only [hc]; rfl⟩

private theorem getItem_mem {pos : Dict Int Pt} {k : Int} (h : k ∈ Dict.keys pos) : ∃ q, pos.getItem k = .ok q := by
  cases hk : pos.get? k with
  | none => exact absurd h (Dict.get?_eq_none.1 hk)
  | some q => exact ⟨q, Dict.getItem_ok.2 hk⟩

private theorem mapM_total {α β : Type} {l : List α} {f : α → Py β} (h : ∀ a ∈ l, ∃ b, f a = .ok b) :
    ∃ r, l.mapM f = .ok r := by
  cases hm : l.mapM f with
  | ok r => exact ⟨r, rfl⟩
  | error e =>
    obtain ⟨a, ha, he⟩ := mapM_error hm
    obtain ⟨b, hb⟩ := h a ha
    rw [hb] at he
    cases he

/-- every node, edge and triangle of the complex has positions for all its vertices -/
def SCPlot.Positioned (p : SCPlot) (pos : Dict Int Pt) : Prop :=
  (∀ n ∈ p.sc.nodes, n ∈ Dict.keys pos) ∧ (∀ e ∈ p.sc.edges, e.1 ∈ Dict.keys pos ∧ e.2 ∈ Dict.keys pos) ∧
  ∀ t ∈ p.sc.triangles, ∃ i j k, t = [i, j, k] ∧ i ∈ Dict.keys pos ∧ j ∈ Dict.keys pos ∧ k ∈ Dict.keys pos

private theorem nodes_total (pos : Dict Int Pt) (hpos : p.Positioned pos) (wl : Bool) (kw : Kw)
    (hc : ∀ l, (kw.arg "node_color" (.str "#ff7f0e")).numbers = some l → l ≠ [])
    (hm : kw.arg "cmap" (.obj "Blues") = .none ∨ ∃ s, kw.arg "cmap" (.obj "Blues") = .obj s) :
    ∃ c, drawNodesOn p.sc pos ax cur wl kw = .ok c := by
  obtain ⟨cm, h0⟩ := checkCmap_total (color := kw.arg "node_color" (.str "#ff7f0e")) (.inr hm)
  obtain ⟨lim, h1⟩ := colorLimits_total (ax := ax) (vmin := kw.arg "vmin" .none) (vmax := kw.arg "vmax" .none)
    (cmap := cm) hc
  obtain ⟨pts, h2⟩ := mapM_total (l := p.sc.nodes) (f := fun n : Int => pos.getItem n) fun n hn => getItem_mem (hpos.1 n hn)
  obtain ⟨lab, h3⟩ := mapM_total (l := p.sc.nodes) (f := nodeLabel pos cur kw) fun n hn => by
    obtain ⟨q, hq⟩ := getItem_mem (hpos.1 n hn)
    unfold nodeLabel
    rw [hq]
    exact ⟨_, rfl⟩
  unfold drawNodesOn
  cases wl <;> simp only [h0, h1, h2, h3, bind, Except.bind, if_true, Bool.false_eq_true, if_false] <;> exact ⟨_, rfl⟩

private theorem edges_total (pos : Dict Int Pt) (hpos : p.Positioned pos) (flow : Option (Dict Edge ℝ)) (dir : Bool)
    (kw : Kw) (hf : ∀ d, flow = some d → d ≠ [] ∧ ∀ e ∈ Dict.keys d, e.1 ∈ Dict.keys pos ∧ e.2 ∈ Dict.keys pos)
    (hc : flow = none → (kw.arg "edge_color" (.str "lightblue")).numbers = none)
    (hm : kw.arg "edge_cmap" (.obj "Blues") = .none ∨ ∃ s, kw.arg "edge_cmap" (.obj "Blues") = .obj s) :
    ∃ c, drawEdgesOn g p.sc pos ax flow dir kw = .ok c := by
  obtain ⟨ts, h4⟩ := mapM_total (l := p.sc.triangles) (f := triangleCmd pos ax) fun t ht => by
    obtain ⟨i, j, k, rfl, hi, hj, hk⟩ := hpos.2.2 t ht
    obtain ⟨a, ha⟩ := getItem_mem hi
    obtain ⟨b, hb⟩ := getItem_mem hj
    obtain ⟨c, hc⟩ := getItem_mem hk
    refine ⟨⟨ax, .triangle a b c, []⟩, ?_⟩
    unfold triangleCmd
    have : unpack3 [i, j, k] = .ok (i, j, k) := rfl
    simp only [this, ha, hb, hc, bind, Except.bind]
    rfl
  have key : ∀ (edges : List Edge) (color : KwVal), (∀ l, color.numbers = some l → l ≠ []) →
      (∀ e ∈ edges, e.1 ∈ Dict.keys pos ∧ e.2 ∈ Dict.keys pos) →
      (∃ cs, edgeColors (g.order edges) edges color = .ok cs) →
      ∃ cm lim cs es, checkCmap color (kw.arg "edge_cmap" (.obj "Blues")) = .ok cm ∧
        colorLimits color (kw.arg "edge_vmin" .none) (kw.arg "edge_vmax" .none) cm ax = .ok lim ∧ edgeColors (g.order edges) edges color = .ok cs ∧
        ((g.order edges).zip cs).mapM (edgeCmd pos ax [("width", kw.arg "edge_width" (.num 1)),
        ("alpha", kw.arg "alpha" (.num (8 / 10))), ("arrowsize", kw.arg "arrowsize" (.num 10)),
        ("edge_cmap", cm), ("edge_vmin", lim.1), ("edge_vmax", lim.2.1),
        ("arrows", .obj (if dir then "True" else "False"))]) = .ok es := by
    intro edges color h1 h2 ⟨cs, h3⟩
    obtain ⟨cm, hcm⟩ := checkCmap_total (color := color) (.inr hm)
    obtain ⟨lim, hlim⟩ := colorLimits_total (ax := ax) (vmin := kw.arg "edge_vmin" .none)
      (vmax := kw.arg "edge_vmax" .none) (cmap := cm) h1
    obtain ⟨es, hes⟩ := mapM_total (l := (g.order edges).zip cs) (f := edgeCmd pos ax [("width", kw.arg "edge_width" (.num 1)),
        ("alpha", kw.arg "alpha" (.num (8 / 10))), ("arrowsize", kw.arg "arrowsize" (.num 10)),
        ("edge_cmap", cm), ("edge_vmin", lim.1), ("edge_vmax", lim.2.1),
        ("arrows", .obj (if dir then "True" else "False"))]) fun x hx => by
      obtain ⟨e, c⟩ := x
      have he := (g.mem_order _ _).1 (List.of_mem_zip hx).1
      obtain ⟨a, ha⟩ := getItem_mem (h2 e he).1
      obtain ⟨b, hb⟩ := getItem_mem (h2 e he).2
      unfold edgeCmd
      simp only [ha, hb, bind, Except.bind]
      exact ⟨_, rfl⟩
    exact ⟨cm, lim, cs, es, hcm, hlim, h3, hes⟩
  cases flow with
  | none =>
    obtain ⟨cm, lim, cs, es, e0, e1, e2, e3⟩ := key p.sc.edges (kw.arg "edge_color" (.str "lightblue"))
      (fun l hl => by rw [hc rfl] at hl; cases hl) hpos.2.1
      (by unfold edgeColors; rw [hc rfl]; exact ⟨_, rfl⟩)
    unfold drawEdgesOn
    simp only [e0, e1, e2, e3, h4, bind, Except.bind]
    exact ⟨_, rfl⟩
  | some d =>
    obtain ⟨hd, hk⟩ := hf d rfl
    obtain ⟨cm, lim, cs, es, e0, e1, e2, e3⟩ := key (Dict.keys d) (.nums (Dict.values d))
      (fun l hl => by
        cases hl
        simpa [Dict.values] using hd) hk (mapM_total fun e he => dict_color ((g.mem_order _ _).1 he))
    unfold drawEdgesOn
    simp only [e0, e1, e2, e3, h4, bind, Except.bind]
    exact ⟨_, rfl⟩

private theorem default_valid : ∀ k ∈ Dict.keys defaultKwargs, k ∈ validKwargs := by
  intro k hk
  simp only [Dict.keys, defaultKwargs, List.map_cons, List.map_nil, List.mem_cons, List.not_mem_nil, or_false] at hk
  rcases hk with rfl | rfl | rfl | rfl <;> decide

private theorem layout_placed : (p.placed g).layout g = p.layout g := rfl

private theorem layout_ne (h : p.layout g ≠ []) : p.pos ≠ some [] := fun h0 => h (by rw [SCPlot.layout, h0]; rfl)

theorem restrict_arg {kw : Kw} {l : List String} {k : String} (h : k ∈ l) (d : KwVal) :
    (kw.restrict l).arg k d = kw.arg k d := by
  rw [Kw.arg, restrict_get, if_pos h, Kw.arg]

private theorem drawNetwork_kw {fa : FlowArg} {dir wl : Bool} {kwargs kw : Kw}
    (hkw : (if kwargs.length = 0 then defaultKwargs else kwargs) = kw) (hv : ∀ k ∈ Dict.keys kw, k ∈ validKwargs) :
    (p.drawNetwork g ax cur fa dir wl kwargs).1 = (do
      let a ← (p.drawScNodes g ax cur wl (kw.restrict nodeParams)).1
      let b ← ((p.placed g).drawScEdges g ax (fa.toDict p.sc) dir (kw.restrict edgeParams)).1
      let c ← networkLabels g (p.placed g) ax (fa.toDict p.sc) wl kw
      pure (a ++ b ++ c)) := by
  have e1 : (p.drawScNodes g ax cur wl (kw.restrict nodeParams)).2 = p.placed g := initAxes_snd
  have e2 : ((p.placed g).drawScEdges g ax (fa.toDict p.sc) dir (kw.restrict edgeParams)).2 = p.placed g :=
    initAxes_snd
  unfold SCPlot.drawNetwork
  simp only [hkw]
  rw [if_neg (by
    rintro ⟨k, hk, hn⟩
    exact hn (hv k hk)), e1, e2]

private theorem drawNetwork_default {fa : FlowArg} {dir wl : Bool} :
    (p.drawNetwork g ax cur fa dir wl []).1 = (do
      let a ← (p.drawScNodes g ax cur wl (defaultKwargs.restrict nodeParams)).1
      let b ← ((p.placed g).drawScEdges g ax (fa.toDict p.sc) dir (defaultKwargs.restrict edgeParams)).1
      let c ← networkLabels g (p.placed g) ax (fa.toDict p.sc) wl defaultKwargs
      pure (a ++ b ++ c)) := drawNetwork_kw rfl default_valid

private theorem network_total {fa : FlowArg} {dir wl : Bool} {kwargs kw : Kw}
    (hkw : (if kwargs.length = 0 then defaultKwargs else kwargs) = kw) (hv : ∀ k ∈ Dict.keys kw, k ∈ validKwargs)
    (hpos : p.Positioned (p.layout g)) (hne : p.layout g ≠ [])
    (hf : ∀ d, fa.toDict p.sc = some d → d ≠ [] ∧
      ∀ e ∈ Dict.keys d, e.1 ∈ Dict.keys (p.layout g) ∧ e.2 ∈ Dict.keys (p.layout g))
    (hc : ∀ l, (kw.arg "node_color" (.str "#ff7f0e")).numbers = some l → l ≠ [])
    (hec : fa.toDict p.sc = none → (kw.arg "edge_color" (.str "lightblue")).numbers = none)
    (hm : kw.arg "cmap" (.obj "Blues") = .none ∨ ∃ s, kw.arg "cmap" (.obj "Blues") = .obj s)
    (hme : kw.arg "edge_cmap" (.obj "Blues") = .none ∨ ∃ s, kw.arg "edge_cmap" (.obj "Blues") = .obj s)
    (ho : ∃ x, kw.arg "offset" (.num (15 / 100)) = .num x) (hl : "edge_labels" ∉ Dict.keys kw) :
    ∃ cmds, (p.drawNetwork g ax cur fa dir wl kwargs).1 = .ok cmds := by
  obtain ⟨c0, h0⟩ := initAxes_ok (g := g) (ax := ax) (layout_ne hne)
  obtain ⟨c1, h1⟩ := initAxes_ok (p := p.placed g) (g := g) (ax := ax) (layout_ne (p := p.placed g) (g := g) hne)
  obtain ⟨n, hn⟩ := nodes_total (ax := ax) (cur := cur) _ hpos wl (kw.restrict nodeParams)
    (by rw [restrict_arg (by decide)]; exact hc) (by rw [restrict_arg (by decide)]; exact hm)
  obtain ⟨e, he⟩ := edges_total (p := p) (g := g) (ax := ax) _ hpos (fa.toDict p.sc) dir
    (kw.restrict edgeParams) hf (by rw [restrict_arg (by decide)]; exact hec) (by rw [restrict_arg (by decide)]; exact hme)
  have en : (p.drawScNodes g ax cur wl (kw.restrict nodeParams)).1 = .ok (c0 ++ n) := by
    unfold SCPlot.drawScNodes
    simp only [h0, Except.bind, hn]
    rfl
  have ee : ((p.placed g).drawScEdges g ax (fa.toDict p.sc) dir (kw.restrict edgeParams)).1 =
      .ok (c1 ++ e) := by
    unfold SCPlot.drawScEdges
    simp only [h1, Except.bind]
    rw [layout_placed, show (p.placed g).sc = p.sc from rfl, he]
    rfl
  have el : ∃ c, networkLabels g (p.placed g) ax (fa.toDict p.sc) wl kw = .ok c := by
    unfold networkLabels
    cases hd : fa.toDict p.sc with
    | none => exact ⟨_, rfl⟩
    | some d =>
      cases wl with
      | false => exact ⟨_, rfl⟩
      | true =>
        simp only [if_true]
        rw [if_neg hl]
        obtain ⟨l, hl⟩ := mapM_total (l := d) (f := edgeLabelCmd (p.layout g) ax (kw.restrict labelParams))
          fun x hx => by
            obtain ⟨k1, k2⟩ := (hf d hd).2 x.1 (List.mem_map_of_mem hx)
            obtain ⟨a, ha⟩ := getItem_mem k1
            obtain ⟨b, hb⟩ := getItem_mem k2
            obtain ⟨off, ho⟩ := ho
            have ho : (Kw.arg (kw.restrict labelParams) "offset" (.num (15 / 100))).toNum = .ok off := by
              rw [restrict_arg (by decide), ho]; rfl
            unfold edgeLabelCmd
            simp only [ha, hb, ho, bind, Except.bind]
            rw [C83_position _ _ _ _ a b (Dict.getItem_ok.1 ha) (Dict.getItem_ok.1 hb)]
            exact ⟨_, rfl⟩
        refine ⟨c1 ++ l, ?_⟩
        unfold SCPlot.drawEdgeLabels
        simp only [h1, Except.bind]
        rw [layout_placed, hl]
        rfl
  obtain ⟨c, el⟩ := el
  rw [drawNetwork_kw hkw hv, en, ee, el]
  exact ⟨_, rfl⟩

/-- C97: `draw_network` with default options succeeds if all vertices have positions and the flow, if any, is
non-empty and on edges with positions. -/
theorem C97_succeeds (fa : FlowArg) (dir wl : Bool) (hpos : p.Positioned (p.layout g)) (hne : p.layout g ≠ [])
    (hf : ∀ d, fa.toDict p.sc = some d → d ≠ [] ∧
      ∀ e ∈ Dict.keys d, e.1 ∈ Dict.keys (p.layout g) ∧ e.2 ∈ Dict.keys (p.layout g)) :
    ∃ cmds, (p.drawNetwork g ax cur fa dir wl []).1 = .ok cmds :=
  network_total rfl default_valid hpos hne hf (fun l hl => by cases hl) (fun _ => rfl) (.inr ⟨_, rfl⟩)
    (.inr ⟨_, rfl⟩) ⟨_, rfl⟩ (by decide)

/-- C97: with documented options it also succeeds then, provided that a list of node colours is not empty, that there
is a flow or no list of edge colours, that colour maps are `None` or colour maps, and that the label offset is a
number. -/
theorem C97_options (fa : FlowArg) (dir wl : Bool) (hpos : p.Positioned (p.layout g)) (hne : p.layout g ≠ [])
    (hf : ∀ d, fa.toDict p.sc = some d → d ≠ [] ∧
      ∀ e ∈ Dict.keys d, e.1 ∈ Dict.keys (p.layout g) ∧ e.2 ∈ Dict.keys (p.layout g)) (kw : Kw) (hkw : kw ≠ [])
    (hk : ∀ k ∈ Dict.keys kw, k ∈ nodeOptions ++ edgeOptions ++ labelOptions)
    (hc : ∀ v, kw.get? "node_color" = some v → v ≠ .str "" ∧ v ≠ .nums [])
    (hec : fa = .none → ∀ v, kw.get? "edge_color" = some v → v ≠ .str "" ∧ ∀ l, v ≠ .nums l)
    (hm : ∀ k ∈ ["cmap", "edge_cmap"], ∀ v, kw.get? k = some v → v = .none ∨ ∃ s, v = .obj s)
    (ho : ∀ v, kw.get? "offset" = some v → ∃ x, v = .num x) :
    ∃ cmds, (p.drawNetwork g ax cur fa dir wl kw).1 = .ok cmds := by
  have hlen : kw.length ≠ 0 := fun h => hkw (List.length_eq_zero_iff.1 h)
  have hm' : ∀ k ∈ ["cmap", "edge_cmap"], kw.arg k (.obj "Blues") = .none ∨ ∃ s, kw.arg k (.obj "Blues") = .obj s := by
    intro k hk
    unfold Kw.arg
    cases hv : kw.get? k with
    | none => exact .inr ⟨_, rfl⟩
    | some v => exact hm k hk v hv
  refine network_total (if_neg hlen) ?_ hpos hne hf ?_ ?_ (hm' _ (by simp)) (hm' _ (by simp)) ?_ ?_
  · intro k hk'
    have h : ∀ k ∈ nodeOptions ++ edgeOptions ++ labelOptions, k ∈ validKwargs := by decide
    exact h k (hk k hk')
  · intro l hl h0
    subst h0
    unfold Kw.arg at hl
    cases hv : kw.get? "node_color" with
    | none => rw [hv] at hl; cases hl
    | some v =>
      rw [hv] at hl
      obtain ⟨h1, h2⟩ := hc v hv
      cases v with
      | nums l => cases hl; exact h2 rfl
      | str s =>
        simp only [Option.getD_some, KwVal.numbers] at hl
        split_ifs at hl with h
        exact h1 (by rw [h])
      | num _ => cases hl
      | none => cases hl
      | obj _ => cases hl
  · intro hfa
    have hfa : fa = .none := by cases fa <;> first | rfl | cases hfa
    unfold Kw.arg
    cases hv : kw.get? "edge_color" with
    | none => rfl
    | some v =>
      obtain ⟨h1, h2⟩ := hec hfa v hv
      cases v with
      | nums l => exact absurd rfl (h2 l)
      | str s =>
        simp only [Option.getD_some, KwVal.numbers]
        rw [if_neg fun h => h1 (by rw [h])]
      | num _ => rfl
      | none => rfl
      | obj _ => rfl
  · unfold Kw.arg
    cases hv : kw.get? "offset" with
    | none => exact ⟨_, rfl⟩
    | some v => exact ho v hv
  · intro h
    have := hk _ h
    revert this
    decide

/-- C97: a node without a position makes it raise `KeyError`. -/
theorem C97_missing_position (fa : FlowArg) (dir wl : Bool) (hne : p.pos ≠ some [])
    (h : ∃ n ∈ p.sc.nodes, n ∉ Dict.keys (p.layout g)) :
    (p.drawNetwork g ax cur fa dir wl []).1 = .error .keyError := by
  obtain ⟨c0, h0⟩ := initAxes_ok (g := g) (ax := ax) hne
  have hm : p.sc.nodes.mapM (fun n : Int => (p.layout g).getItem n) = .error .keyError := by
    cases hm : p.sc.nodes.mapM (fun n : Int => (p.layout g).getItem n) with
    | ok r =>
      exfalso
      obtain ⟨n, hn, hk⟩ := h
      obtain ⟨i, hi, rfl⟩ := List.getElem_of_mem hn
      have hf := List.forall₂_iff_get.1 (mapM_eq_ok hm)
      have := hf.2 i hi (hf.1 ▸ hi)
      simp only [List.get_eq_getElem] at this
      rw [Dict.getItem_error.2 ⟨rfl, Dict.get?_eq_none.2 hk⟩] at this
      cases this
    | error e =>
      obtain ⟨a, -, he⟩ := mapM_error hm
      rw [(Dict.getItem_error.1 he).1]
  obtain ⟨lim, hl⟩ := colorLimits_total (ax := ax) (color := Kw.arg (defaultKwargs.restrict nodeParams) "node_color"
    (.str "#ff7f0e")) (vmin := Kw.arg (defaultKwargs.restrict nodeParams) "vmin" .none)
    (vmax := Kw.arg (defaultKwargs.restrict nodeParams) "vmax" .none)
    (cmap := Kw.arg (defaultKwargs.restrict nodeParams) "cmap" (.obj "Blues")) (fun l hl => by cases hl)
  have hck : checkCmap (Kw.arg (defaultKwargs.restrict nodeParams) "node_color" (.str "#ff7f0e"))
      (Kw.arg (defaultKwargs.restrict nodeParams) "cmap" (.obj "Blues")) =
        .ok (Kw.arg (defaultKwargs.restrict nodeParams) "cmap" (.obj "Blues")) := rfl
  have en : (p.drawScNodes g ax cur wl (defaultKwargs.restrict nodeParams)).1 = .error .keyError := by
    unfold SCPlot.drawScNodes
    simp only [h0, Except.bind]
    unfold drawNodesOn
    simp only [hck, hl, hm, bind, Except.bind]
    rfl
  rw [drawNetwork_default, en]
  rfl

/-- C97: without coordinates, a complex with an edge (whose edges and triangles are on its nodes) can be drawn
iff no node is isolated. -/
theorem C97_automatic_layout (hp : p.pos = none) (dir wl : Bool) (hE : p.sc.edges ≠ [])
    (hedge : ∀ e ∈ p.sc.edges, e.1 ∈ p.sc.nodes ∧ e.2 ∈ p.sc.nodes)
    (htri : ∀ t ∈ p.sc.triangles, ∃ i j k, t = [i, j, k] ∧ i ∈ p.sc.nodes ∧ j ∈ p.sc.nodes ∧ k ∈ p.sc.nodes) :
    (∃ cmds, (p.drawNetwork g ax cur .none dir wl []).1 = .ok cmds) ↔
      ∀ n ∈ p.sc.nodes, ∃ e ∈ p.sc.edges, n = e.1 ∨ n = e.2 := by
  have hl : p.layout g = g.spring p.sc.edges := by rw [SCPlot.layout, hp]; rfl
  constructor
  · rintro ⟨cmds, h⟩ n hn
    by_contra hcon
    rw [C97_missing_position .none dir wl (by rw [hp]; simp) ⟨n, hn, fun hk => hcon (by
      rw [hl] at hk
      exact (g.mem_spring _ _).1 hk)⟩] at h
    cases h
  · intro hn
    have hk : ∀ n ∈ p.sc.nodes, n ∈ Dict.keys (p.layout g) := fun n h => by
      rw [hl]; exact (g.mem_spring _ _).2 (hn n h)
    refine C97_succeeds .none dir wl ⟨hk, fun e he => ⟨hk _ (hedge e he).1, hk _ (hedge e he).2⟩, fun t ht => ?_⟩ ?_
      (fun d hd => by cases hd)
    · obtain ⟨i, j, k, e, h1, h2, h3⟩ := htri t ht
      exact ⟨i, j, k, e, hk _ h1, hk _ h2, hk _ h3⟩
    · obtain ⟨e, es, he⟩ := List.exists_cons_of_ne_nil hE
      intro h0
      have := hk e.1 (hedge e (by rw [he]; simp)).1
      rw [h0] at this
      cases this

/-! ## C92: positions are chosen once -/

/-- a call of one of the drawing methods; the graph library is part of it, because the automatic layout is random -/
inductive DrawCall
  | network (g : GraphLib) (ax cur : ℕ) (fa : FlowArg) (dir wl : Bool) (kw : Kw)
  | nodes (g : GraphLib) (ax cur : ℕ) (wl : Bool) (kw : Kw)
  | edges (g : GraphLib) (ax : ℕ) (flow : Option (Dict Edge ℝ)) (dir : Bool) (kw : Kw)
  | labels (g : GraphLib) (ax : ℕ) (d : Dict Edge ℝ) (kw : Kw)

/-- outcome of a call and the plot object afterwards -/
noncomputable def DrawCall.run (p : SCPlot) : DrawCall → Py (List Cmd) × SCPlot
  | .network g ax cur fa dir wl kw => p.drawNetwork g ax cur fa dir wl kw
  | .nodes g ax cur wl kw => p.drawScNodes g ax cur wl kw
  | .edges g ax flow dir kw => p.drawScEdges g ax flow dir kw
  | .labels g ax d kw => p.drawEdgeLabels g ax d kw

private theorem run_snd (c : DrawCall) : (c.run p).2 = p ∨ ∃ g, (c.run p).2 = p.placed g := by
  cases c with
  | network g ax cur fa dir wl kw =>
    rcases drawNetwork_snd (p := p) (g := g) (ax := ax) (cur := cur) (fa := fa) (dir := dir) (wl := wl) (kwargs := kw)
      with h | h
    · exact .inl h
    · exact .inr ⟨g, h⟩
  | nodes g ax cur wl kw => exact .inr ⟨g, initAxes_snd⟩
  | edges g ax flow dir kw => exact .inr ⟨g, initAxes_snd⟩
  | labels g ax d kw => exact .inr ⟨g, initAxes_snd⟩

/-- C92: given coordinates are never changed, by no sequence of drawing calls, successful or not. -/
theorem C92_given_coordinates (pos : Dict Int Pt) (hp : p.pos = some pos) (calls : List DrawCall) :
    calls.foldl (fun p c => (c.run p).2) p = p := by
  induction calls with
  | nil => rfl
  | cons c calls ih =>
    have : (c.run p).2 = p := by
      rcases run_snd (p := p) c with h | ⟨g, h⟩
      · exact h
      · rw [h]
        obtain ⟨sc, q⟩ := p
        simp only at hp
        subst hp
        rfl
    rw [List.foldl_cons, this, ih]

/-- C92: an automatic layout is chosen at most once: after the first call that chooses one, every later
sequence of calls leaves it alone, and it is the layout of that first call. -/
theorem C92_automatic_layout (hp : p.pos = none) (c : DrawCall) (calls : List DrawCall) :
    (c.run p).2 = p ∨ ∃ g : GraphLib, (c.run p).2 = { p with pos := some (g.spring p.sc.edges) } ∧
      calls.foldl (fun p c => (c.run p).2) (c.run p).2 = (c.run p).2 := by
  rcases run_snd (p := p) c with h | ⟨g, h⟩
  · exact .inl h
  · refine .inr ⟨g, ?_, ?_⟩
    · rw [h, SCPlot.placed, hp]
      rfl
    · rw [h]
      exact C92_given_coordinates (p := p.placed g) _ rfl calls

/-- everything `draw_network` can draw: `kw` are the keyword arguments in force -/
inductive NetCmd (sc : SC ℝ) (pos : Dict Int Pt) (kw : Kw) (ax cur : ℕ) (dir wl : Bool) : Cmd → Prop
  | xlim (a b : ℝ) (h : ∀ q ∈ Dict.values pos, a ≤ q.1 ∧ q.1 ≤ b) : NetCmd sc pos kw ax cur dir wl ⟨ax, .xlim a b, []⟩
  | ylim (a b : ℝ) (h : ∀ q ∈ Dict.values pos, a ≤ q.2 ∧ q.2 ≤ b) : NetCmd sc pos kw ax cur dir wl ⟨ax, .ylim a b, []⟩
  | colorbar (lo hi cm : KwVal) : NetCmd sc pos kw ax cur dir wl ⟨ax, .colorbar lo hi, [("cmap", cm)]⟩
  | points (pts : List Pt) (lo hi : KwVal) (h : sc.nodes.mapM (fun n : Int => pos.getItem n) = .ok pts)
      (hlo : kw.arg "vmin" .none ≠ .none → lo = kw.arg "vmin" .none)
      (hhi : kw.arg "vmax" .none ≠ .none → hi = kw.arg "vmax" .none) :
      NetCmd sc pos kw ax cur dir wl ⟨ax, .points pts, [("s", kw.arg "node_size" (.num 300)),
        ("c", kw.arg "node_color" (.str "#ff7f0e")),
        ("edgecolors", kw.arg "node_edge_colors" (.str "black")), ("vmin", lo), ("vmax", hi),
        ("alpha", kw.arg "alpha" (.num (8 / 10)))]⟩
  | margins (m : KwVal) : NetCmd sc pos kw ax cur dir wl ⟨ax, .margins m, []⟩
  | nodeLabel (q : Pt) (n : Int) (hn : n ∈ sc.nodes) (h : pos.get? n = some q) (hw : wl = true) :
      NetCmd sc pos kw ax cur dir wl ⟨cur, .nodeLabel q n, [("fontsize", kw.arg "font_size" (.num 12)),
        ("color", kw.arg "font_color" (.str "k")), ("weight", kw.arg "font_weight" (.str "normal")),
        ("alpha", kw.arg "alpha" (.num (8 / 10)))]⟩
  | edge (e : Edge) (a b : Pt) (col lo hi cm : KwVal)
      (hcm : kw.arg "edge_cmap" (.obj "Blues") ≠ .none → cm = kw.arg "edge_cmap" (.obj "Blues"))
      (hlo : kw.arg "edge_vmin" .none ≠ .none → lo = kw.arg "edge_vmin" .none)
      (hhi : kw.arg "edge_vmax" .none ≠ .none → hi = kw.arg "edge_vmax" .none) :
      NetCmd sc pos kw ax cur dir wl ⟨ax, .edge e a b col, [("width", kw.arg "edge_width" (.num 1)),
        ("alpha", kw.arg "alpha" (.num (8 / 10))), ("arrowsize", kw.arg "arrowsize" (.num 10)),
        ("edge_cmap", cm), ("edge_vmin", lo), ("edge_vmax", hi),
        ("arrows", .obj (if dir then "True" else "False"))]⟩
  | triangle (a b c : Pt) : NetCmd sc pos kw ax cur dir wl ⟨ax, .triangle a b c, []⟩
  | edgeLabel (q : Pt) (v : ℝ) (hw : wl = true) : NetCmd sc pos kw ax cur dir wl ⟨ax, .edgeLabel q v,
      [("size", kw.arg "font_size" (.num 10)), ("color", kw.arg "font_color" (.str "k")),
        ("weight", kw.arg "font_weight" (.str "normal")), ("alpha", kw.arg "alpha" .none)]⟩

private theorem lims_netCmd {pos : Dict Int Pt} {c0 : List Cmd} {kw : Kw} {dir wl : Bool} {sc : SC ℝ} {q : SCPlot}
    (h : (q.initAxes g ax).1 = .ok (pos, c0)) : ∀ c ∈ c0, NetCmd sc pos kw ax cur dir wl c := by
  obtain ⟨-, a, b, a', b', e⟩ := initAxes_fst h
  obtain ⟨h1, h2⟩ := lims_mem h
  intro c hc
  rw [e] at hc
  simp only [List.mem_cons, List.not_mem_nil, or_false] at hc
  rcases hc with rfl | rfl
  · exact .xlim _ _ (h1 ⟨ax, .xlim a b, []⟩ (by rw [e]; simp) _ _ rfl)
  · exact .ylim _ _ (h2 ⟨ax, .ylim a' b', []⟩ (by rw [e]; simp) _ _ rfl)

private theorem network_cmds {fa : FlowArg} {dir wl : Bool} {kwargs : Kw} {cmds : List Cmd}
    (h : (p.drawNetwork g ax cur fa dir wl kwargs).1 = .ok cmds) :
    ∃ pos, (p.placed g).pos = some pos ∧
    ∀ c ∈ cmds, NetCmd p.sc pos (if kwargs.length = 0 then defaultKwargs else kwargs) ax cur dir wl c := by
  obtain ⟨kw, a, b, c, hkw, -, h1, h2, h3, rfl⟩ := drawNetwork_ok h
  rw [← hkw]
  obtain ⟨pos, c0, c1, hp, -, hi, hn, rfl⟩ := drawScNodes_ok h1
  obtain ⟨pos', d0, d1, hp', -, hi', he, rfl⟩ := drawScEdges_ok h2
  have : pos' = pos := Option.some.inj (hp'.symm.trans hp)
  subst this
  obtain ⟨lim, pts, labels, ⟨_, n1⟩, n2, n3, rfl⟩ := drawNodesOn_ok hn
  obtain ⟨edges, color, cm, lim', colors, es, ts, -, -, e0, e1, -, e3, e4, rfl⟩ := drawEdgesOn_ok he
  refine ⟨pos', hp, fun x hx => ?_⟩
  simp only [List.mem_append] at hx
  have hlim : ∀ {lim : KwVal × KwVal × List Cmd} {color vmin vmax cmap : KwVal},
      colorLimits color vmin vmax cmap ax = .ok lim → x ∈ lim.2.2 → NetCmd p.sc pos' kw ax cur dir wl x := by
    intro lim color vmin vmax cmap hl hx
    rcases colorLimits_ok hl with ⟨e, -⟩ | ⟨e, -⟩
    · rw [e] at hx; cases hx
    · rw [e, List.mem_singleton] at hx
      rw [hx]
      exact .colorbar _ _ _
  rcases hx with (hx | hx) | hx
  · rcases hx with hx | ((hx | hx) | hx) | hx
    · exact lims_netCmd hi x hx
    · exact hlim n1 hx
    · rw [List.mem_singleton] at hx
      rw [hx]
      simp only [restrict_arg (show "node_size" ∈ nodeParams by decide),
        restrict_arg (show "node_color" ∈ nodeParams by decide),
        restrict_arg (show "node_edge_colors" ∈ nodeParams by decide),
        restrict_arg (show "alpha" ∈ nodeParams by decide)]
      refine .points pts _ _ n2 ?_ ?_
      · intro hv
        rw [← restrict_arg (show "vmin" ∈ nodeParams by decide)] at hv ⊢
        rcases colorLimits_ok n1 with ⟨-, e, -⟩ | ⟨-, -, e, -⟩
        · exact e
        · exact e hv
      · intro hv
        rw [← restrict_arg (show "vmax" ∈ nodeParams by decide)] at hv ⊢
        rcases colorLimits_ok n1 with ⟨-, -, e, -⟩ | ⟨-, -, -, e⟩
        · exact e
        · exact e hv
    · rw [marginCmds_mem hx]
      exact .margins _
    · rcases n3 with ⟨-, rfl⟩ | ⟨hw, n3⟩
      · cases hx
      · refine mapM_forall _ n3 ?_ x hx
        intro n c hn hc
        obtain ⟨q, opts, hq, rfl, rfl⟩ := nodeLabel_ok hc
        simp only [restrict_arg (show "font_size" ∈ nodeParams by decide),
          restrict_arg (show "font_color" ∈ nodeParams by decide),
          restrict_arg (show "font_weight" ∈ nodeParams by decide),
          restrict_arg (show "alpha" ∈ nodeParams by decide)]
        exact .nodeLabel q n hn hq hw
  · rcases hx with hx | (hx | hx) | hx
    · exact lims_netCmd hi' x hx
    · exact hlim e1 hx
    · refine mapM_forall _ e3 ?_ x hx
      intro y c _ hc
      obtain ⟨a, b, -, -, rfl⟩ := edgeCmd_ok hc
      simp only [restrict_arg (show "edge_width" ∈ edgeParams by decide),
        restrict_arg (show "alpha" ∈ edgeParams by decide),
        restrict_arg (show "arrowsize" ∈ edgeParams by decide)]
      refine .edge _ _ _ _ _ _ _ (fun hv => ?_) ?_ ?_
      · rw [← restrict_arg (show "edge_cmap" ∈ edgeParams by decide)] at hv ⊢
        exact checkCmap_ok e0 hv
      · intro hv
        rw [← restrict_arg (show "edge_vmin" ∈ edgeParams by decide)] at hv ⊢
        rcases colorLimits_ok e1 with ⟨-, e, -⟩ | ⟨-, -, e, -⟩
        · exact e
        · exact e hv
      · intro hv
        rw [← restrict_arg (show "edge_vmax" ∈ edgeParams by decide)] at hv ⊢
        rcases colorLimits_ok e1 with ⟨-, -, e, -⟩ | ⟨-, -, -, e⟩
        · exact e
        · exact e hv
    · refine mapM_forall _ e4 ?_ x hx
      intro y c _ hc
      obtain ⟨i, j, k, a, b, d, -, -, -, -, rfl⟩ := triangleCmd_ok hc
      exact .triangle _ _ _
  · unfold networkLabels at h3
    cases hfa : fa.toDict p.sc with
    | none =>
      rw [hfa] at h3
      cases h3
      cases hx
    | some d =>
      rw [hfa] at h3
      simp only at h3
      split_ifs at h3 with hw hk
      · obtain ⟨pos'', f0, f1, hp'', -, hi'', hl, rfl⟩ := drawEdgeLabels_ok h3
        have : pos'' = pos' := Option.some.inj (hp''.symm.trans hp)
        subst this
        rcases List.mem_append.1 hx with hx | hx
        · exact lims_netCmd hi'' x hx
        · refine mapM_forall _ hl ?_ x hx
          intro y c _ hc
          obtain ⟨o, q, -, -, rfl⟩ := edgeLabelCmd_ok hc
          simp only [restrict_arg (show "font_size" ∈ labelParams by decide),
            restrict_arg (show "font_color" ∈ labelParams by decide),
            restrict_arg (show "font_weight" ∈ labelParams by decide),
            restrict_arg (show "alpha" ∈ labelParams by decide)]
          exact .edgeLabel _ _ hw
      · cases h3
        cases hx

private theorem network_points {fa : FlowArg} {dir wl : Bool} {kw : Kw} {cmds : List Cmd}
    (h : (p.drawNetwork g ax cur fa dir wl kw).1 = .ok cmds) :
    ∃ pos pts, (p.placed g).pos = some pos ∧ p.sc.nodes.mapM (fun n : Int => pos.getItem n) = .ok pts ∧
      cmds.filterMap Cmd.points? = [pts] := by
  obtain ⟨kw', a, b, c, -, -, h1, h2, h3, rfl⟩ := drawNetwork_ok h
  obtain ⟨pos, c0, c1, hp, ⟨_, _, _, _, rfl⟩, hi, hn, rfl⟩ := drawScNodes_ok h1
  obtain ⟨pos', d0, d1, hp', ⟨_, _, _, _, rfl⟩, hi', he, rfl⟩ := drawScEdges_ok h2
  obtain ⟨lim, pts, labels, ⟨_, n1⟩, n2, n3, rfl⟩ := drawNodesOn_ok hn
  obtain ⟨edges, color, cm, lim', colors, es, ts, -, -, e0, e1, -, e3, e4, rfl⟩ := drawEdgesOn_ok he
  have hlim : ∀ {lim : KwVal × KwVal × List Cmd} {color vmin vmax cmap : KwVal},
      colorLimits color vmin vmax cmap ax = .ok lim → lim.2.2.filterMap Cmd.points? = [] := by
    intro lim color vmin vmax cmap hl
    rcases colorLimits_ok hl with ⟨e, -⟩ | ⟨e, -⟩ <;> rw [e] <;> rfl
  have hmar : ∀ m, (marginCmds ax m).filterMap Cmd.points? = [] := by
    intro m; cases m <;> rfl
  have hlab : labels.filterMap Cmd.points? = [] := by
    rcases n3 with ⟨-, rfl⟩ | ⟨-, n3⟩
    · rfl
    · rw [mapM_filterMap Cmd.points? (fun _ => none) n3, List.filterMap_none]
      intro n c hc
      obtain ⟨q, opts, -, rfl, -⟩ := nodeLabel_ok hc
      rfl
  have hes : es.filterMap Cmd.points? = [] := by
    rw [mapM_filterMap Cmd.points? (fun _ => none) e3, List.filterMap_none]
    intro n c hc
    obtain ⟨a, b, -, -, rfl⟩ := edgeCmd_ok hc
    rfl
  have hts : ts.filterMap Cmd.points? = [] := by
    rw [mapM_filterMap Cmd.points? (fun _ => none) e4, List.filterMap_none]
    intro n c hc
    obtain ⟨i, j, k, a, b, d, -, -, -, -, rfl⟩ := triangleCmd_ok hc
    rfl
  have hc : c.filterMap Cmd.points? = [] := by
    unfold networkLabels at h3
    cases hfa : fa.toDict p.sc with
    | none =>
      rw [hfa] at h3
      cases h3
      rfl
    | some d =>
      rw [hfa] at h3
      simp only at h3
      split_ifs at h3 with hw hk
      · obtain ⟨pos'', f0, f1, hp'', ⟨_, _, _, _, rfl⟩, hi'', hl, rfl⟩ := drawEdgeLabels_ok h3
        rw [List.filterMap_append, mapM_filterMap Cmd.points? (fun _ => none) hl, List.filterMap_none]
        · rfl
        · intro y c hc
          obtain ⟨o, q, -, -, rfl⟩ := edgeLabelCmd_ok hc
          rfl
      · cases h3
        rfl
  refine ⟨pos, pts, hp, n2, ?_⟩
  simp only [List.filterMap_append, hlim n1, hlim e1, hmar, hlab, hes, hts, hc]
  rfl

/-- C92: two successful drawings of the network, one after the other, put the nodes at the same points, each
node at its position. -/
theorem C92_same_points (g' : GraphLib) (ax' cur' : ℕ) (fa fa' : FlowArg) (dir dir' wl wl' : Bool) (kw kw' : Kw)
    (cmds cmds' : List Cmd) (h : (p.drawNetwork g ax cur fa dir wl kw).1 = .ok cmds)
    (h' : ((p.drawNetwork g ax cur fa dir wl kw).2.drawNetwork g' ax' cur' fa' dir' wl' kw').1 = .ok cmds') :
    ∃ pos pts, (p.drawNetwork g ax cur fa dir wl kw).2.pos = some pos ∧
      List.Forall₂ (fun n q => pos.get? n = some q) p.sc.nodes pts ∧
      cmds.filterMap Cmd.points? = [pts] ∧ cmds'.filterMap Cmd.points? = [pts] := by
  obtain ⟨pos, pts, h1, h2, h3⟩ := network_points h
  have hs : (p.drawNetwork g ax cur fa dir wl kw).2 = p.placed g := drawNetwork_snd_ok h
  rw [hs] at h'
  obtain ⟨pos', pts', h1', h2', h3'⟩ := network_points h'
  have : pos' = pos := Option.some.inj (h1'.symm.trans h1)
  subst this
  have : pts' = pts := Except.ok.inj (h2'.symm.trans h2)
  subst this
  exact ⟨pos', pts', by rw [hs]; exact h1, (mapM_eq_ok h2).imp fun _ _ h => Dict.getItem_ok.1 h, h3, h3'⟩

/-- C86: whatever the coordinates, in a successful drawing all nodes are within all axis limits set. -/
theorem C86_nodes_visible (fa : FlowArg) (dir wl : Bool) (kw : Kw) (cmds : List Cmd)
    (h : (p.drawNetwork g ax cur fa dir wl kw).1 = .ok cmds) (pts : List Pt)
    (hp : pts ∈ cmds.filterMap Cmd.points?) (q : Pt) (hq : q ∈ pts) :
    (∀ c ∈ cmds, ∀ a b, c.shape = .xlim a b → a ≤ q.1 ∧ q.1 ≤ b) ∧
    ∀ c ∈ cmds, ∀ a b, c.shape = .ylim a b → a ≤ q.2 ∧ q.2 ≤ b := by
  obtain ⟨pos, pts', h1, h2, h3⟩ := network_points h
  rw [h3, List.mem_singleton] at hp
  subst hp
  have hq' : q ∈ Dict.values pos := mapM_forall (fun q => q ∈ Dict.values pos) h2 (fun n q _ hn =>
    List.mem_map.2 ⟨_, Dict.mem_of_get? (Dict.getItem_ok.1 hn), rfl⟩) q hq
  obtain ⟨pos', h1', h4⟩ := network_cmds h
  have : pos' = pos := Option.some.inj (h1'.symm.trans h1)
  subst this
  constructor
  · intro c hc a b hs
    cases h4 c hc <;> cases hs
    rename_i h
    exact h q hq'
  · intro c hc a b hs
    cases h4 c hc <;> cases hs
    rename_i h
    exact h q hq'

/-! ## C94: which axes are drawn on -/

/-- C94 as far as it holds: everything goes to the axes asked for, except the node labels, which go to the
current axes of pyplot. -/
theorem C94_axes_partial (fa : FlowArg) (dir wl : Bool) (kw : Kw) (cmds : List Cmd)
    (h : (p.drawNetwork g ax cur fa dir wl kw).1 = .ok cmds) (c : Cmd) (hc : c ∈ cmds) :
    c.ax = ax ∨ wl = true ∧ c.ax = cur ∧ ∃ q n, c.shape = .nodeLabel q n := by
  obtain ⟨pos, -, h4⟩ := network_cmds h
  cases h4 c hc with
  | nodeLabel q n hn hq hw => exact .inr ⟨hw, rfl, q, n, rfl⟩
  | _ => exact .inl rfl

/-- C94: so without labels, or when the axes asked for are the current ones, everything goes there. -/
theorem C94_axes_current (fa : FlowArg) (dir wl : Bool) (kw : Kw) (cmds : List Cmd)
    (h : (p.drawNetwork g ax cur fa dir wl kw).1 = .ok cmds) (hl : wl = false ∨ cur = ax) :
    ∀ c ∈ cmds, c.ax = ax := by
  intro c hc
  rcases C94_axes_partial fa dir wl kw cmds h c hc with h1 | ⟨h1, h2, -⟩
  · exact h1
  · rcases hl with hl | hl
    · rw [h1] at hl; cases hl
    · rw [h2, hl]

/-- C94 fails: with labels, every successful drawing of a complex with a node on axes that are not the
current ones draws on the current ones too. -/
theorem C94_counterexample (fa : FlowArg) (dir : Bool) (kw : Kw) (cmds : List Cmd)
    (h : (p.drawNetwork g ax cur fa dir true kw).1 = .ok cmds) (hn : p.sc.nodes ≠ []) (hne : ax ≠ cur) :
    ∃ c ∈ cmds, c.ax ≠ ax := by
  obtain ⟨kw', a, b, c, -, -, h1, h2, h3, rfl⟩ := drawNetwork_ok h
  obtain ⟨pos, c0, c1, hp, -, hi, hn', rfl⟩ := drawScNodes_ok h1
  obtain ⟨lim, pts, labels, ⟨_, n1⟩, n2, n3, rfl⟩ := drawNodesOn_ok hn'
  rcases n3 with ⟨h, -⟩ | ⟨-, n3⟩
  · cases h
  · obtain ⟨n, ns, e⟩ := List.exists_cons_of_ne_nil hn
    have hf := mapM_eq_ok n3
    rw [e] at hf
    cases hf with
    | cons hx _ =>
      obtain ⟨q, opts, -, rfl, -⟩ := nodeLabel_ok hx
      exact ⟨⟨cur, .nodeLabel q n, opts⟩, by simp only [List.mem_append, List.mem_cons, true_or, or_true],
        fun h => hne h.symm⟩

/-! ## C95: what keywords do -/

/-- the kinds of things drawn that take options -/
inductive Kind
  | node | nodeLabel | edge | edgeLabel
  deriving DecidableEq

def Cmd.kind (c : Cmd) : Option Kind :=
  match c.shape with
  | .points _ => some .node
  | .nodeLabel _ _ => some .nodeLabel
  | .edge _ _ _ _ => some .edge
  | .edgeLabel _ _ => some .edgeLabel
  | _ => none

/-- what each keyword is documented to set: kind of thing drawn, keyword, matplotlib (or networkx) option -/
def documented : List (Kind × String × String) :=
  [(.node, "node_size", "s"), (.node, "node_color", "c"), (.node, "node_edge_colors", "edgecolors"),
    (.node, "cmap", "cmap"), (.node, "vmin", "vmin"), (.node, "vmax", "vmax"), (.node, "alpha", "alpha"),
    (.nodeLabel, "font_size", "fontsize"), (.nodeLabel, "font_color", "color"), (.nodeLabel, "font_weight", "weight"),
    (.nodeLabel, "alpha", "alpha"),
    (.edge, "edge_width", "width"), (.edge, "arrowsize", "arrowsize"), (.edge, "edge_cmap", "edge_cmap"),
    (.edge, "edge_vmin", "edge_vmin"), (.edge, "edge_vmax", "edge_vmax"), (.edge, "alpha", "alpha"),
    (.edgeLabel, "font_size", "size"), (.edgeLabel, "font_color", "color"), (.edgeLabel, "font_weight", "weight"),
    (.edgeLabel, "alpha", "alpha")]

/-- C95 as far as it holds: every documented keyword given (except `cmap`, see below) sets its option on
everything of its kind that is drawn. -/
theorem C95_keywords_partial (fa : FlowArg) (dir wl : Bool) (kw : Kw) (cmds : List Cmd)
    (h : (p.drawNetwork g ax cur fa dir wl kw).1 = .ok cmds) (kind : Kind) (k o : String)
    (hd : (kind, k, o) ∈ documented) (hk : k ≠ "cmap") (v : KwVal) (hv : kw.get? k = some v) (hne : v ≠ .none)
    (c : Cmd) (hc : c ∈ cmds) (hkind : c.kind = some kind) : c.opts.get? o = some v := by
  obtain ⟨pos, -, h4⟩ := network_cmds h
  have hlen : kw.length ≠ 0 := by
    intro h0
    rw [List.length_eq_zero_iff] at h0
    subst h0
    cases hv
  rw [if_neg hlen] at h4
  have harg : ∀ d, kw.arg k d = v := fun d => by rw [Kw.arg, hv]; rfl
  have hx := h4 c hc
  simp only [documented, List.mem_cons, Prod.mk.injEq, List.not_mem_nil, or_false] at hd
  cases hx <;> simp only [Cmd.kind, reduceCtorEq, Option.some.injEq] at hkind <;> subst hkind <;>
    simp only [reduceCtorEq, false_and, true_and, or_false, false_or] at hd
  · rename_i pts lo hi h hlo hhi
    rcases hd with ⟨rfl, rfl⟩ | ⟨rfl, rfl⟩ | ⟨rfl, rfl⟩ | ⟨rfl, rfl⟩ | ⟨rfl, rfl⟩ | ⟨rfl, rfl⟩ | ⟨rfl, rfl⟩
    · exact congrArg some (harg _)
    · exact congrArg some (harg _)
    · exact congrArg some (harg _)
    · exact absurd rfl hk
    · exact congrArg some ((hlo (by rw [harg]; exact hne)).trans (harg _))
    · exact congrArg some ((hhi (by rw [harg]; exact hne)).trans (harg _))
    · exact congrArg some (harg _)
  · rcases hd with ⟨rfl, rfl⟩ | ⟨rfl, rfl⟩ | ⟨rfl, rfl⟩ | ⟨rfl, rfl⟩ <;> exact congrArg some (harg _)
  · rename_i e a b col lo hi cm hcm hlo hhi
    rcases hd with ⟨rfl, rfl⟩ | ⟨rfl, rfl⟩ | ⟨rfl, rfl⟩ | ⟨rfl, rfl⟩ | ⟨rfl, rfl⟩ | ⟨rfl, rfl⟩
    · exact congrArg some (harg _)
    · exact congrArg some (harg _)
    · exact congrArg some ((hcm (by rw [harg]; exact hne)).trans (harg _))
    · exact congrArg some ((hlo (by rw [harg]; exact hne)).trans (harg _))
    · exact congrArg some ((hhi (by rw [harg]; exact hne)).trans (harg _))
    · exact congrArg some (harg _)
  · rcases hd with ⟨rfl, rfl⟩ | ⟨rfl, rfl⟩ | ⟨rfl, rfl⟩ | ⟨rfl, rfl⟩ <;> exact congrArg some (harg _)

/-- C95 fails for `cmap`: the nodes are never drawn with the colour map asked for. -/
theorem C95_counterexample (fa : FlowArg) (dir wl : Bool) (kw : Kw) (cmds : List Cmd)
    (h : (p.drawNetwork g ax cur fa dir wl kw).1 = .ok cmds) (c : Cmd) (hc : c ∈ cmds)
    (hkind : c.kind = some .node) : c.opts.get? "cmap" = none := by
  obtain ⟨pos, -, h4⟩ := network_cmds h
  cases h4 c hc <;> simp only [Cmd.kind, reduceCtorEq, Option.some.injEq] at hkind
  rfl

end Pytspl
