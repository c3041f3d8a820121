import Verif.Model.NetworkReader
import Mathlib.Analysis.SpecialFunctions.Pow.Real
import Mathlib.Data.Sign.Basic

/-!
# `pytspl/io/data_loaders/*.py`, `pytspl/io/dataset_loader.py`, `pytspl/io/sc_generator.py`

The files under `pytspl/data` are an argument (`DataDir`), so the theorems hold for every content.
-/

namespace Pytspl

/-- Everything the loaders read: the folder listing, the parsed files by path, the water network
pickle, and the position `nx.spring_layout` picks for a node
(e.g. wsn_loader.py:25-26, simplicial_complex.py:137). -/
structure DataDir where
  listing : List String
  table : String → Option Table
  mat : String → Option (CsvMat ℚ)
  wsnB1 : CsvMat ℚ
  wsnFlowRate : List ℝ
  wsnHead : List ℝ
  wsnHr : List ℝ
  place : List Int → Int → Cell × Cell

/-- What a loader returns as flow: a dict per edge (for the transportation networks with `none` for NaN), or (water
network) an array (dataset_loader.py:58-60, wsn_loader.py:58-60). -/
inductive FlowData
  | dict (d : Dict Edge ℚ)
  | volumes (d : Dict Edge (Option ℚ))
  | arr (y : List ℝ)

/-- The triple a loader returns (dataset_loader.py:58-60, 74). -/
structure Loaded (K : Type) where
  sc : SC K
  coordinates : Dict Cell (Cell × Cell)
  flow : FlowData

/-- simplicial_complex.py:120-138 `generate_coordinates`: a graph with the nodes, then the end points
of the edges; one position per graph node. -/
def SC.generateCoordinates {K : Type} (sc : SC K) (place : List Int → Int → Cell × Cell) :
    Dict Cell (Cell × Cell) :=
  let g := sc.edges.foldl (fun s e => setAdd (setAdd s e.1) e.2) (sc.nodes.foldl setAdd [])
  g.map fun v : Int => (Cell.num (v : ℚ), place g v)

/-- one item `edge: flow[i]` of a comprehension over `enumerate(edges)` (e.g. transportation_loader.py:185-187) -/
def flowItem {ν : Type} (flow : List ν) (ei : Edge × ℕ) : Py (Edge × ν) :=
  match flow[ei.2]? with
  | some v => .ok (ei.1, v)
  | none => .error .indexError

/-- `{edge: flow[i] for i, edge in enumerate(edges)}` (paper_loader.py:50, forex_loader.py:36,
lastfm_loader.py:35, transportation_loader.py:185-187): `IndexError` when the array is too short. -/
def positionalFlow {ν : Type} (edges : List Edge) (flow : List ν) : Py (Dict Edge ν) := do
  let items ← edges.zipIdx.mapM (flowItem flow)
  pure (Dict.ofPairs items)

/-- plot.py:77-87 `create_edge_flow`: `dict(zip(edges, flow))`. -/
def createEdgeFlow {ν : Type} (edges : List Edge) (flow : List ν) : Dict Edge ν :=
  Dict.ofPairs (edges.zip flow)

/-- `.values[:, 0]` (paper_loader.py:49, forex_loader.py:35). -/
def firstColumn (c : CsvMat ℚ) : Py (List ℚ) :=
  if h : 0 < c.n then .ok (List.ofFn fun i => c.M i ⟨0, h⟩) else .error .indexError

/-- `.to_numpy().flatten()` (lastfm_loader.py:31-33). -/
def flattenMat (c : CsvMat ℚ) : List ℚ :=
  (List.finRange c.m).flatMap fun i => (List.finRange c.n).map fun j => c.M i j

/-- `df[(df["From "] == a) & (df["To "] == b)]["Volume "].values[0]`
(transportation_loader.py:69-71); simplification: on a table without the column `KeyError` is raised
in the order From, To, Volume. -/
def firstVolume (df : Table) (a b : Int) : Py Cell := do
  let fs ← df.column "From "
  let ts ← df.column "To "
  let vs ← df.column "Volume "
  firstItem (((fs.zip (ts.zip vs)).filter fun r =>
    decide (r.1 = Cell.num a ∧ r.2.1 = Cell.num b)).map fun r => r.2.2)

/-- `flow_pos - flow_neg` (transportation_loader.py:83): a string raises `TypeError`; a missing volume makes the flow
NaN (`none`). -/
def Cell.sub : Cell → Cell → Py (Option ℚ)
  | .num a, .num b => .ok (some (a - b))
  | .str _, _ => .error .typeError
  | _, .str _ => .error .typeError
  | _, _ => .ok none

/-- transportation_loader.py:61-90: one edge; the state is the result dict and `visited_nodes`.  The
membership test uses the 1-based pair, the insertion the 0-based one. -/
def flowStep (df : Table) (st : Dict Edge (Option ℚ) × List Edge) (edge : Edge) :
    Py (Dict Edge (Option ℚ) × List Edge) := do
  let source := edge.1 + 1
  let target := edge.2 + 1
  if (source, target) ∈ st.2 then pure st
  else
    let flowPos ← firstVolume df source target
    let flowNeg ← match firstVolume df target source with
      | .error .indexError => Except.ok (Cell.num 0)
      | r => r
    let net ← Cell.sub flowPos flowNeg
    pure (st.1.set edge net, setAdd st.2 edge)

/-- transportation_loader.py:42-92 `load_flow_transportation` (`file` is the parsed flow file). -/
def loadFlowTransportation (file : Option Table) (edges : List Edge) : Py (Dict Edge (Option ℚ)) :=
  let df := readFlow file
  if df.rows = [] ∨ df.cols = [] then .ok []
  else do
    let (d, _) ← edges.foldlM (flowStep df) ([], [])
    pure d

section loaders
variable (K : Type) [CommRing K]

/-- forex_loader.py:11-38 `load_forex_data`. -/
def loadForexData (d : DataDir) : Py (Loaded K) := do
  let (b, triangles) ← readB1B2 (d.mat "foreign_exchange/B1.csv") (d.mat "foreign_exchange/B2t.csv")
  let sc ← b.toSimplicialComplex K (triangles := some triangles)
  let coordinates := sc.generateCoordinates d.place
  let c ← readMat (d.mat "foreign_exchange/flow_FX_1538755200.csv")
  let flow ← firstColumn c
  let flow ← positionalFlow sc.edges flow
  pure { sc, coordinates, flow := .dict flow }

/-- lastfm_loader.py:11-37 `load_lastfm_1k_artist`. -/
def loadLastfm1kArtist (d : DataDir) : Py (Loaded K) := do
  let (b, triangles) ← readB1B2 (d.mat "lastfm-dataset-1K/B1-artist.csv")
    (d.mat "lastfm-dataset-1K/B2t-artist.csv")
  let sc ← b.toSimplicialComplex K (triangles := some triangles)
  let coordinates := sc.generateCoordinates d.place
  let c ← readMat (d.mat "lastfm-dataset-1K/flow-artist.csv")
  let flow ← positionalFlow sc.edges (flattenMat c)
  pure { sc, coordinates, flow := .dict flow }

/-- dataset_loader.py:62-64: `assert coordinates is not None`. -/
def assertSome {α : Type} : Option α → Py α
  | some a => .ok a
  | none => .error .assertionError

/-- paper_loader.py:11-52 `load_paper_data`; simplification: the assertion on missing coordinates
(dataset_loader.py:63) is made here, before the flow is read. -/
def loadPaperData (d : DataDir) : Py (Loaded K) := do
  let b ← readCsv (d.table "paper_data/edges.csv") "Source" "Target" (some ["Distance"]) true
  let sc ← b.toSimplicialComplex K
  let coordinates ← readCoordinates (d.table "paper_data/coordinates.csv") "Id" "X" "Y" true
  let coordinates ← assertSome coordinates
  let c ← readMat (d.mat "paper_data/flow.csv")
  let flow ← firstColumn c
  let flow ← positionalFlow sc.edges flow
  pure { sc, coordinates, flow := .dict flow }

/-- wsn_loader.py:50-58: `concatenate((head, -hr * sign(q) * |q| ** 1.852))`, with numpy's broadcasting of a single
flow rate.  An array `hr` with one element loses its axis in `hr.squeeze()`, so `hr[:] = 1` (line 56) raises
`IndexError`. -/
noncomputable def wsnFlow (flowRate head hr : List ℝ) : Py (List ℝ) :=
  let loss := fun h q : ℝ => -h * (SignType.sign q : ℝ) * |q| ^ (1.852 : ℝ)
  if hr.length = 1 then .error .indexError
  else if hr.length = flowRate.length then .ok (head ++ List.zipWith loss hr flowRate)
  else match flowRate with
    | [q] => .ok (head ++ hr.map fun h => loss h q)
    | _ => .error .valueError

/-- wsn_loader.py:11-60 `load_wsn_data`. -/
noncomputable def loadWsnData (d : DataDir) : Py (Loaded K) := do
  let edges ← edgesOfColumns d.wsnB1.M
  let nodes ← nodesUpToMax (nodeSet edges)
  let sc ← ({ nodes, edges } : SCBuilder).toSimplicialComplex K
  let coordinates := sc.generateCoordinates d.place
  let y ← wsnFlow d.wsnFlowRate d.wsnHead d.wsnHr
  pure { sc, coordinates, flow := .arr y }

/-- transportation_loader.py:150-188 `load_chicago_sketch`. -/
def loadChicagoSketch (d : DataDir) : Py (Loaded K) := do
  let (b, triangles) ← readB1B2 (d.mat "transportation_networks/chicago-sketch/B1_chicago_sketch.csv")
    (d.mat "transportation_networks/chicago-sketch/B2t_chicago_sketch.csv")
  let sc ← b.toSimplicialComplex K (triangles := some triangles)
  let coordinates ← readCoordinates
    (d.table "transportation_networks/chicago-sketch/coordinates_chicago_sketch.csv") "Id" "X" "Y" true
  let coordinates ← assertSome coordinates
  let c ← readMat (d.mat "transportation_networks/chicago-sketch/flow_chicago_sketch.csv")
  let flow ← positionalFlow sc.edges (flattenMat c)
  pure { sc, coordinates, flow := .dict flow }

/-- path of a file of a transportation dataset (transportation_loader.py:116-117) -/
def tntpPath (dataset suffix : String) : String :=
  "transportation_networks/" ++ dataset ++ "/" ++ dataset ++ suffix

/-- transportation_loader.py:95-147 `load_transportation_dataset`. -/
def loadTransportationDataset (d : DataDir) (dataset : String) : Py (Loaded K) :=
  if dataset = "chicago-sketch" then loadChicagoSketch K d
  else do
    let b ← readTntp (d.table (tntpPath dataset "_net.tntp")) "init_node" "term_node" false
    let sc ← b.toSimplicialComplex K
    let coordinates ← readCoordinates (d.table (tntpPath dataset "_node.tntp")) "node" "X" "Y" false
    let coordinates := coordinates.getD (sc.generateCoordinates d.place)
    let flow ← loadFlowTransportation (d.table (tntpPath dataset "_flow.tntp")) sc.edges
    pure { sc, coordinates, flow := .volumes flow }

/-- transportation_loader.py:29-39 `list_transportation_datasets`. -/
def listTransportationDatasets (d : DataDir) : List String :=
  d.listing.filter fun s => decide (s ∉ [".DS_Store", "README.md"])

/-- dataset_loader.py:13-18 `DATASETS`. -/
noncomputable def namedDatasets : Dict String (DataDir → Py (Loaded K)) :=
  [("paper", loadPaperData K), ("forex", loadForexData K),
   ("lastfm-1k-artist", loadLastfm1kArtist K), ("wsn", loadWsnData K)]

/-- dataset_loader.py:21-30 `list_datasets`. -/
noncomputable def listDatasets (d : DataDir) : List String :=
  listTransportationDatasets d ++ Dict.keys (namedDatasets K)

/-- dataset_loader.py:33-74 `load_dataset`; the summary it prints (line 70) cannot fail, see `C43_summary`. -/
noncomputable def loadDataset (d : DataDir) (dataset : String) : Py (Loaded K) := do
  let _ ← if dataset ∉ listDatasets K d then Except.error PyErr.valueError else Except.ok ()
  let r ← match Dict.get? (namedDatasets K) dataset with
    | some f => f d
    | none => loadTransportationDataset K d dataset
  let _ ← if r.sc.nodes.length = r.coordinates.length then Except.ok ()
    else Except.error PyErr.assertionError
  pure r

/-- sc_generator.py:8-50 `generate_random_simplicial_complex` after the graph and the weights are
drawn: `edges` is `list(G.edges())`, `weights` the random numbers; the node list is `0 .. n-1`.
networkx's `G[u][v]["distance"] = w` is an attribute dict with that single key. -/
def generateRandomSimplicialComplex (n : ℕ) (edges : List Edge) (weights : List ℚ) (eps : ℚ) :
    Py (SC K) := do
  let attrs ← edges.zipIdx.mapM (flowItem weights)
  let edgeFeatures : EdgeFeatures := Dict.ofPairs (attrs.map fun a => (a.1, [("distance", .num a.2)]))
  ({ nodes := pyRange n, edges, edgeFeatures } : SCBuilder).toSimplicialComplex K
    (condition := "distance") (eps := eps)

end loaders

end Pytspl
