import Verif.Model.HodgeDecomposition
import Verif.Model.Eigendecomposition
import Verif.Model.DataLoaders

/-!
# Model of pytspl/plot/plot.py

Drawing is modelled by the list of commands sent to matplotlib, each with the axes it goes to and the
keyword arguments passed.  Simplifications: what matplotlib does with a command (including rejecting
invalid option values) is not modelled; hiding ticks and frames, z-orders and titles' fonts are left
out; the commands sent before an exception are not kept; reals stand for floats.
-/

namespace Pytspl

/-- A point of the plane (the values of `pos`, plot.py:58-59). -/
abbrev Pt := ℝ × ℝ

/-- Value of a keyword argument; `obj` stands for any other object, such as a colour map
(the parameters of plot.py:89-104, 224-236, 397-406). -/
inductive KwVal
  | num (x : ℝ)
  | str (s : String)
  | nums (l : List ℝ)
  | none
  | obj (s : String)

/-- Keyword arguments (plot.py:461). -/
abbrev Kw := Dict String KwVal

/-- The value of a parameter: the keyword argument, or the default in the signature (e.g. plot.py:89-104). -/
def Kw.arg (kw : Kw) (name : String) (default : KwVal) : KwVal := (kw.get? name).getD default

/-- networkx: the order in which `DiGraph.edges()` lists the edges added (plot.py:282-283, 315), and
`spring_layout` of the undirected graph (plot.py:51), rescaled by networkx to the square `[-1, 1]²`. -/
structure GraphLib where
  order : List Edge → List Edge
  order_nodup : ∀ es, (order es).Nodup
  mem_order : ∀ es e, e ∈ order es ↔ e ∈ es
  spring : List Edge → Dict Int Pt
  spring_nodup : ∀ es, (Dict.keys (spring es)).Nodup
  mem_spring : ∀ es k, k ∈ Dict.keys (spring es) ↔ ∃ e ∈ es, k = e.1 ∨ k = e.2
  spring_box : ∀ es, ∀ q ∈ Dict.values (spring es), |q.1| ≤ 1 ∧ |q.2| ≤ 1

/-- What is drawn (plot.py:154-188, 305-346, 443-453). -/
inductive Shape
  | xlim (a b : ℝ)
  | ylim (a b : ℝ)
  | points (l : List Pt)
  | colorbar (vmin vmax : KwVal)
  | margins (m : KwVal)
  | nodeLabel (at_ : Pt) (node : Int)
  | edge (e : Edge) (src dst : Pt) (color : KwVal)
  | triangle (a b c : Pt)
  | edgeLabel (at_ : Pt) (label : ℝ)

/-- A command to matplotlib: axes, shape, keyword arguments (plot.py:154-188, 305-346, 443-453). -/
structure Cmd where
  ax : ℕ
  shape : Shape
  opts : Kw := []

/-- plot.py:15-32 `SCPlot.__init__`. -/
structure SCPlot where
  sc : SC ℝ
  pos : Option (Dict Int Pt)

/-- `min(l)` of Python (plot.py:60): `ValueError` on an empty list. -/
noncomputable def pyMin (l : List ℝ) : Py ℝ :=
  match l.min? with
  | some x => .ok x
  | none => .error .valueError

/-- `max(l)` of Python (plot.py:60). -/
noncomputable def pyMax (l : List ℝ) : Py ℝ :=
  match l.max? with
  | some x => .ok x
  | none => .error .valueError

/-- plot.py:56-69: the limits for given coordinates. -/
noncomputable def boundingBox (pos : Dict Int Pt) (ax : ℕ) : Py (List Cmd) := do
  let x := pos.values.map Prod.fst
  let y := pos.values.map Prod.snd
  let minX ← pyMin x
  let maxX ← pyMax x
  let minY ← pyMin y
  let maxY ← pyMax y
  let xPadding := (maxX - minX) * (5 / 100)
  let yPadding := (maxY - minY) * (5 / 100)
  pure [⟨ax, .xlim (minX - xPadding) (maxX + xPadding), []⟩, ⟨ax, .ylim (minY - yPadding) (maxY + yPadding), []⟩]

/-- plot.py:34-75 `_init_axes`: layout and commands, and the plot object afterwards. -/
noncomputable def SCPlot.initAxes (g : GraphLib) (p : SCPlot) (ax : ℕ) : Py (Dict Int Pt × List Cmd) × SCPlot :=
  match p.pos with
  | none =>
    let layout := g.spring p.sc.edges
    (.ok (layout, [⟨ax, .xlim (-11 / 10) (11 / 10), []⟩, ⟨ax, .ylim (-11 / 10) (11 / 10), []⟩]),
      { p with pos := some layout })
  | some pos => ((boundingBox pos ax).map fun c => (pos, c), p)

/-- `np.iterable(c) and np.all([isinstance(x, Number) for x in c])` (plot.py:141-143, 286-288), with the
numbers; the empty string passes the test and behaves like the empty list. -/
def KwVal.numbers : KwVal → Option (List ℝ)
  | .nums l => some l
  | .str s => if s = "" then some [] else Option.none
  | _ => Option.none

/-- `if vmin is None: vmin = min(c) - abs(min(c)) * 0.5` (plot.py:149-151, 296-298). -/
noncomputable def defaultVmin (vmin : KwVal) (l : List ℝ) : Py KwVal :=
  match vmin with
  | .none => (pyMin l).map fun m => .num (m - |m| * (1 / 2))
  | v => .ok v

/-- `if vmax is None: vmax = max(c)` (plot.py:152-153, 299-300). -/
noncomputable def defaultVmax (vmax : KwVal) (l : List ℝ) : Py KwVal :=
  match vmax with
  | .none => (pyMax l).map .num
  | v => .ok v

/-- plot.py:144-147, 290-293: with numeric colours the colour map must be `None`, which stands for matplotlib's
default, or a colour map (an object here). -/
def checkCmap (color cmap : KwVal) : Py KwVal :=
  match color.numbers, cmap with
  | none, c => .ok c
  | some _, .none => .ok (.obj "plt.get_cmap()")
  | some _, .obj s => .ok (.obj s)
  | some _, _ => .error .assertionError

/-- plot.py:141-159, 286-311: colour limits and colour bar of a numeric colour argument; other colours
are left alone. -/
noncomputable def colorLimits (color vmin vmax cmap : KwVal) (ax : ℕ) : Py (KwVal × KwVal × List Cmd) :=
  match color.numbers with
  | none => .ok (vmin, vmax, [])
  | some l => do
    let lo ← defaultVmin vmin l
    let hi ← defaultVmax vmax l
    pure (lo, hi, [⟨ax, .colorbar lo hi, [("cmap", cmap)]⟩])

/-- plot.py:190-222 `_draw_node_labels`, one label; it goes to the current axes. -/
noncomputable def nodeLabel (pos : Dict Int Pt) (cur : ℕ) (kw : Kw) (node : Int) : Py Cmd := do
  let q ← pos.getItem node
  pure ⟨cur, .nodeLabel q node, [("fontsize", kw.arg "font_size" (.num 12)), ("color", kw.arg "font_color" (.str "k")),
    ("weight", kw.arg "font_weight" (.str "normal")), ("alpha", kw.arg "alpha" (.num (8 / 10)))]⟩

/-- plot.py:174-178: margins are set if given. -/
def marginCmds (ax : ℕ) : KwVal → List Cmd
  | .none => []
  | m => [⟨ax, .margins m, []⟩]

/-- plot.py:141-188: the body of `draw_sc_nodes` after the axes are set up. -/
noncomputable def drawNodesOn (sc : SC ℝ) (pos : Dict Int Pt) (ax cur : ℕ) (withLabels : Bool) (kw : Kw) :
    Py (List Cmd) := do
  let color := kw.arg "node_color" (.str "#ff7f0e")
  let cmap ← checkCmap color (kw.arg "cmap" (.obj "Blues"))
  let lim ← colorLimits color (kw.arg "vmin" .none) (kw.arg "vmax" .none) cmap ax
  let pts ← sc.nodes.mapM fun n : Int => pos.getItem n
  let scatter : Cmd := ⟨ax, .points pts, [("s", kw.arg "node_size" (.num 300)), ("c", color),
    ("edgecolors", kw.arg "node_edge_colors" (.str "black")), ("vmin", lim.1), ("vmax", lim.2.1),
    ("alpha", kw.arg "alpha" (.num (8 / 10)))]⟩
  let labels ← if withLabels then sc.nodes.mapM (nodeLabel pos cur kw) else pure []
  pure (lim.2.2 ++ [scatter] ++ marginCmds ax (kw.arg "margins" .none) ++ labels)

/-- plot.py:89-188 `draw_sc_nodes` on axes `ax`, while `cur` is the current axes of pyplot. -/
noncomputable def SCPlot.drawScNodes (g : GraphLib) (p : SCPlot) (ax cur : ℕ) (withLabels : Bool) (kw : Kw) :
    Py (List Cmd) × SCPlot :=
  ((p.initAxes g ax).1.bind fun r => (drawNodesOn p.sc r.1 ax cur withLabels kw).map (r.2 ++ ·), (p.initAxes g ax).2)

/-- `edge_color[edges.index(edge)]` (plot.py:314-316). -/
def colorOf (edges : List Edge) (colors : List ℝ) (e : Edge) : Py KwVal := do
  let i ← listIndex edges e
  match colors[i.val]? with
  | some c => pure (.num c)
  | none => .error .indexError

/-- plot.py:313-316: the colour of every edge of the graph, in the order of the graph. -/
def edgeColors (order : List Edge) (edges : List Edge) (color : KwVal) : Py (List KwVal) :=
  match color.numbers with
  | none => .ok (order.map fun _ => color)
  | some l => order.mapM (colorOf edges l)

/-- One edge of `nx.draw_networkx_edges` (plot.py:319-331). -/
noncomputable def edgeCmd (pos : Dict Int Pt) (ax : ℕ) (opts : Kw) (e : Edge × KwVal) : Py Cmd := do
  let a ← pos.getItem e.1.1
  let b ← pos.getItem e.1.2
  pure ⟨ax, .edge e.1 a b e.2, opts⟩

/-- plot.py:334-346: one filled triangle. -/
noncomputable def triangleCmd (pos : Dict Int Pt) (ax : ℕ) (t : List Int) : Py Cmd := do
  let (i, j, k) ← unpack3 t
  let a ← pos.getItem i
  let b ← pos.getItem j
  let c ← pos.getItem k
  pure ⟨ax, .triangle a b c, []⟩

/-- plot.py:274-346: the body of `draw_sc_edges` after the axes are set up. -/
noncomputable def drawEdgesOn (g : GraphLib) (sc : SC ℝ) (pos : Dict Int Pt) (ax : ℕ) (edgeFlow : Option (Dict Edge ℝ))
    (directed : Bool) (kw : Kw) : Py (List Cmd) := do
  let edges := match edgeFlow with
    | some d => Dict.keys d
    | none => sc.edges
  let color := match edgeFlow with
    | some d => .nums (Dict.values d)
    | none => kw.arg "edge_color" (.str "lightblue")
  let order := g.order edges
  let cmap ← checkCmap color (kw.arg "edge_cmap" (.obj "Blues"))
  let lim ← colorLimits color (kw.arg "edge_vmin" .none) (kw.arg "edge_vmax" .none) cmap ax
  let colors ← edgeColors order edges color
  let opts : Kw := [("width", kw.arg "edge_width" (.num 1)), ("alpha", kw.arg "alpha" (.num (8 / 10))),
    ("arrowsize", kw.arg "arrowsize" (.num 10)), ("edge_cmap", cmap), ("edge_vmin", lim.1), ("edge_vmax", lim.2.1),
    ("arrows", .obj (if directed then "True" else "False"))]
  let es ← (order.zip colors).mapM (edgeCmd pos ax opts)
  let ts ← sc.triangles.mapM (triangleCmd pos ax)
  pure (lim.2.2 ++ es ++ ts)

/-- plot.py:224-346 `draw_sc_edges`. -/
noncomputable def SCPlot.drawScEdges (g : GraphLib) (p : SCPlot) (ax : ℕ) (edgeFlow : Option (Dict Edge ℝ))
    (directed : Bool) (kw : Kw) : Py (List Cmd) × SCPlot :=
  ((p.initAxes g ax).1.bind fun r => (drawEdgesOn g p.sc r.1 ax edgeFlow directed kw).map (r.2 ++ ·),
    (p.initAxes g ax).2)

/-- plot.py:348-395 `_calculate_edge_label_position`. -/
noncomputable def edgeLabelPosition (pos : Dict Int Pt) (src dest : Int) (offset : ℝ) : Py Pt := do
  let (x1, y1) ← pos.getItem src
  let (x2, y2) ← pos.getItem dest
  let slope := if x2 - x1 = 0 then 0 else (y2 - y1) / (x2 - x1)
  let cx := x1 * (1 / 2) + x2 * (1 - 1 / 2)
  let cy := y1 * (1 / 2) + y2 * (1 - 1 / 2)
  pure (if |slope| = 0 then (if x1 = x2 then (cx + offset / 3, cy) else (cx, cy - offset))
    else if |slope| ≤ 1 / 10 then (cx, cy + offset / 2) else (cx - offset, cy + offset))

/-- arithmetic with `offset` raises `TypeError` unless it is a number (plot.py:372) -/
def KwVal.toNum : KwVal → Py ℝ
  | .num x => .ok x
  | _ => .error .typeError

/-- plot.py:435-451: the label of one edge. -/
noncomputable def edgeLabelCmd (pos : Dict Int Pt) (ax : ℕ) (kw : Kw) (e : Edge × ℝ) : Py Cmd := do
  let _ ← pos.getItem e.1.1
  let _ ← pos.getItem e.1.2
  let offset ← (kw.arg "offset" (.num (15 / 100))).toNum
  let q ← edgeLabelPosition pos e.1.1 e.1.2 offset
  pure ⟨ax, .edgeLabel q e.2, [("size", kw.arg "font_size" (.num 10)), ("color", kw.arg "font_color" (.str "k")),
    ("weight", kw.arg "font_weight" (.str "normal")), ("alpha", kw.arg "alpha" .none)]⟩

/-- plot.py:397-453 `draw_edge_labels` (the returned dictionary of text objects is left out). -/
noncomputable def SCPlot.drawEdgeLabels (g : GraphLib) (p : SCPlot) (ax : ℕ) (labels : Dict Edge ℝ) (kw : Kw) :
    Py (List Cmd) × SCPlot :=
  ((p.initAxes g ax).1.bind fun r => (labels.mapM (edgeLabelCmd r.1 ax kw)).map (r.2 ++ ·), (p.initAxes g ax).2)

/-- the parameters of `draw_sc_nodes` (plot.py:89-104) -/
def nodeParams : List String :=
  ["node_size", "node_color", "node_edge_colors", "font_size", "font_color", "font_weight", "cmap", "vmin", "vmax",
    "alpha", "margins", "with_labels", "ax"]

/-- the parameters of `draw_sc_edges` (plot.py:224-236) -/
def edgeParams : List String :=
  ["edge_flow", "edge_color", "edge_width", "arrowsize", "edge_cmap", "edge_vmin", "edge_vmax", "directed", "alpha", "ax"]

/-- the parameters of `draw_edge_labels` (plot.py:397-406) -/
def labelParams : List String :=
  ["edge_labels", "font_size", "font_color", "font_weight", "offset", "alpha", "ax"]

/-- plot.py:544-553 `valid_kwargs`. -/
def validKwargs : List String :=
  (nodeParams ++ edgeParams ++ labelParams).filter fun k => k ∉ ["edge_flow", "directed", "with_labels", "ax"]

/-- plot.py:535-541: the keyword arguments used when none are given. -/
def defaultKwargs : Kw :=
  [("node_size", .num 400), ("edge_width", .num 5), ("arrowsize", .num 30), ("font_size", .num 12)]

/-- `{k: v for k, v in kwargs.items() if k in params}` (plot.py:561-563). -/
def Kw.restrict (kw : Kw) (params : List String) : Kw := kw.filter fun p => decide (p.1 ∈ params)

/-- The argument `edge_flow` of `draw_network` (plot.py:457, 569-570). -/
inductive FlowArg
  | none
  | dict (d : Dict Edge ℝ)
  | array (l : List ℝ)

/-- plot.py:569-570: arrays and lists are turned into dictionaries. -/
def FlowArg.toDict (sc : SC ℝ) : FlowArg → Option (Dict Edge ℝ)
  | .none => Option.none
  | .dict d => some d
  | .array l => some (createEdgeFlow sc.edges l)

/-- plot.py:573-576, 588-590: labels are drawn if there is a flow (its values are numbers); a keyword `edge_labels`
would then be passed twice. -/
noncomputable def networkLabels (g : GraphLib) (p : SCPlot) (ax : ℕ) (flow : Option (Dict Edge ℝ)) (withLabels : Bool)
    (kw : Kw) : Py (List Cmd) :=
  match flow with
  | some d =>
    if withLabels then
      if "edge_labels" ∈ Dict.keys kw then .error .typeError
      else (p.drawEdgeLabels g ax d (kw.restrict labelParams)).1
    else .ok []
  | none => .ok []

/-- plot.py:455-590 `draw_network`. -/
noncomputable def SCPlot.drawNetwork (g : GraphLib) (p : SCPlot) (ax cur : ℕ) (edgeFlow : FlowArg) (directed : Bool)
    (withLabels : Bool) (kwargs : Kw) : Py (List Cmd) × SCPlot :=
  let kw := if kwargs.length = 0 then defaultKwargs else kwargs
  if ∃ k ∈ Dict.keys kw, k ∉ validKwargs then (.error .valueError, p)
  else
    let flow := edgeFlow.toDict p.sc
    let n := p.drawScNodes g ax cur withLabels (kw.restrict nodeParams)
    let e := n.2.drawScEdges g ax flow directed (kw.restrict edgeParams)
    (do
      let a ← n.1
      let b ← e.1
      let c ← networkLabels g e.2 ax flow withLabels kw
      pure (a ++ b ++ c), n.2)

/-- One subplot: its place in the grid, its title, what is drawn in it (plot.py:630-635, 662-674, 736-751). -/
structure Panel where
  rows : ℕ
  cols : ℕ
  index : ℕ
  letter : Char
  value : Option ℝ
  cmds : List Cmd

/-- What is to be drawn in one subplot: letter and value of the title and the flow (plot.py:632-635, 740-749). -/
structure PanelSpec where
  letter : Char
  value : Option ℝ
  flow : List ℝ

/-- `fig.add_subplot(rows, cols, index)` (plot.py:630, 738): the index must be in the grid. -/
def addSubplot (rows cols index : ℕ) : Py Unit :=
  if 1 ≤ index ∧ index ≤ rows * cols then .ok () else .error .valueError

/-- plot.py:736-751, 662-674: the subplots one after the other, each becoming the current axes; the axes
are named by their index. -/
noncomputable def drawPanels (g : GraphLib) (rows cols : ℕ) (withLabels : Bool) :
    ℕ → SCPlot → List (Py PanelSpec) → Py (List Panel) × SCPlot
  | _, p, [] => (.ok [], p)
  | i, p, s :: rest =>
    match addSubplot rows cols i, s with
    | .error e, _ => (.error e, p)
    | .ok _, .error e => (.error e, p)
    | .ok _, .ok s =>
      match p.drawNetwork g i i (.array s.flow) true withLabels [] with
      | (.error e, p') => (.error e, p')
      | (.ok c, p') =>
        let r := drawPanels g rows cols withLabels (i + 1) p' rest
        (r.1.map fun l => ⟨rows, cols, i, s.letter, s.value, c⟩ :: l, r.2)

/-- `component[0].upper()` (plot.py:632, 741): `IndexError` for the empty string. -/
def titleLetter (component : String) : Py Char :=
  match component.toList with
  | [] => .error .indexError
  | c :: _ => .ok c.toUpper

/-- plot.py:592-676 `draw_hodge_decomposition`. -/
noncomputable def SCPlot.drawHodgeDecomposition (g : GraphLib) (lib : NumLib) (p : SCPlot) (flow : Fin p.sc.E → ℝ)
    (component : Option String) (roundFig : Bool := true) (sig : ℤ := 2) : Py (List Panel) × SCPlot :=
  match component with
  | some c =>
    match p.sc.getComponentFlow lib flow c roundFig sig with
    | .error e => (.error e, p)
    | .ok f => drawPanels g 1 1 true 1 p [(titleLetter c).map fun l => ⟨l, none, List.ofFn f⟩]
  | none =>
    match p.sc.getComponentFlow lib flow "gradient" roundFig sig, p.sc.getComponentFlow lib flow "curl" roundFig sig,
      p.sc.getComponentFlow lib flow "harmonic" roundFig sig with
    | .ok fg, .ok fc, .ok fh => drawPanels g 1 3 true 1 p [.ok ⟨'G', none, List.ofFn fg⟩, .ok ⟨'C', none, List.ofFn fc⟩,
        .ok ⟨'H', none, List.ofFn fh⟩]
    | .error e, _, _ => (.error e, p)
    | _, .error e, _ => (.error e, p)
    | _, _, .error e => (.error e, p)

/-- plot.py:714-723: columns and rows for a number of plots; `ZeroDivisionError` for none. -/
def gridSize (numPlots : ℕ) : Py (ℕ × ℕ) :=
  let numCols := min numPlots 3
  if numCols = 0 then .error .zeroDivisionError
  else .ok (numPlots / numCols + (if numPlots % numCols ≠ 0 then 1 else 0), numCols)

/-- plot.py:727-734: the size of the figure. -/
noncomputable def gridFigsize (figsize : ℝ × ℝ) (rows cols : ℕ) : ℝ × ℝ :=
  if 1 < rows then (figsize.1, figsize.2 * rows)
  else if cols ≠ 1 then (figsize.1 / 3 * cols, figsize.2) else figsize

/-- plot.py:740-749: title and flow for one index. -/
noncomputable def eigPanel {n : ℕ} (pairs : EigPairs n) (component : String) (roundFig : Bool) (sig : ℤ) (i : Int) :
    Py PanelSpec := do
  let letter ← titleLetter component
  let j ← npIdx pairs.num i
  pure ⟨letter, some (npRound (pairs.vals j) sig),
    List.ofFn fun e => if roundFig then npRound (pairs.vecs e j) sig else pairs.vecs e j⟩

/-- plot.py:678-754 `draw_eigenvectors`: size of the figure and subplots. -/
noncomputable def SCPlot.drawEigenvectors (g : GraphLib) (lib : NumLib) (p : SCPlot) (component : String)
    (indices : List Int := []) (roundFig : Bool := true) (sig : ℤ := 2) (withLabels : Bool := true)
    (figsize : ℝ × ℝ := (15, 5)) : Py ((ℝ × ℝ) × List Panel) × SCPlot :=
  match p.sc.getComponentEigenpair lib component with
  | .error e => (.error e, p)
  | .ok pairs =>
    let indices := if indices.length = 0 then (List.range pairs.num).map fun i : ℕ => (i : Int) else indices
    match gridSize indices.length with
    | .error e => (.error e, p)
    | .ok (rows, cols) =>
      let r := drawPanels g rows cols withLabels 1 p (indices.map (eigPanel pairs component roundFig sig))
      (r.1.map fun l => (gridFigsize figsize rows cols, l), r.2)

end Pytspl
