import Verif.Model.Py

/-!
# `pytspl/simplicial_complex/simplicial_complex.py`: construction and operators

`K` is the scalar type: `ℝ` for the signal-processing part, `ℤ` for evaluation.
Nodes are ints; edges pairs; triangles lists (their arity is checked by the code).
-/

namespace Pytspl

variable {K : Type} [CommRing K]

/-- simplicial_complex.py:68-85 `edges_to_B1`: zero matrix, then for each edge
`j` write `-1` in the row of its first node and `1` in the row of its second. -/
def edgesToB1 (edges : List Edge) (numNodes : ℕ) :
    Py (Matrix (Fin numNodes) (Fin edges.length) K) :=
  (List.finRange edges.length).foldlM (init := 0) fun B1 j => do
    let fromNode ← npIdx numNodes edges[j].1
    let B1 := setEntry B1 fromNode j (-1)
    let toNode ← npIdx numNodes edges[j].2
    pure (setEntry B1 toNode j 1)

/-- `a, b, c = triangle` (simplicial_complex.py:100): `ValueError` unless it has three items. -/
def unpack3 (t : List Int) : Py (Int × Int × Int) :=
  match t with
  | [a, b, c] => .ok (a, b, c)
  | _ => .error .valueError

/-- simplicial_complex.py:87-118 `triangles_to_B2`: for each triangle `(a,b,c)` look
up edges ab, bc, ac in either orientation and write `1, -1, 1` at ab, ac, bc. -/
def trianglesToB2 (triangles : List (List Int)) (edges : List Edge) :
    Py (Matrix (Fin edges.length) (Fin triangles.length) K) :=
  (List.finRange triangles.length).foldlM (init := 0) fun B2 j => do
    let (a, b, c) ← unpack3 triangles[j]
    let indexA ← listIndexOr edges (a, b) (b, a)
    let indexB ← listIndexOr edges (b, c) (c, b)
    let indexC ← listIndexOr edges (a, c) (c, a)
    let B2 := setEntry B2 indexA j 1
    let B2 := setEntry B2 indexC j (-1)
    pure (setEntry B2 indexB j 1)

/-- Per-edge feature table (simplicial_complex.py:53). -/
abbrev EdgeFeatures := Dict Edge (Dict String Cell)
/-- Per-node feature table (carried through, never inspected by the modelled code) (simplicial_complex.py:52). -/
abbrev NodeFeatures := Dict Int (Dict String Cell)

/-- The attributes of a `SimplicialComplex` (simplicial_complex.py:48-56). -/
structure SC (K : Type) where
  nodes : List Int
  edges : List Edge
  triangles : List (List Int)
  nodeFeatures : NodeFeatures
  edgeFeatures : EdgeFeatures
  B1 : Matrix (Fin nodes.length) (Fin edges.length) K
  B2 : Matrix (Fin edges.length) (Fin triangles.length) K

/-- simplicial_complex.py:28-56 `__init__`. -/
def SC.init (nodes : List Int) (edges : List Edge) (triangles : List (List Int))
    (nodeFeatures : NodeFeatures) (edgeFeatures : EdgeFeatures) : Py (SC K) := do
  let B1 ← edgesToB1 edges nodes.length
  let B2 ← trianglesToB2 triangles edges
  pure { nodes, edges, triangles, nodeFeatures, edgeFeatures, B1, B2 }

/-- `sc` is the object the constructor returns for its own attributes (i.e. it was
really constructed, its matrices were not tampered with) (simplicial_complex.py:28-56). -/
def SC.Built (sc : SC K) : Prop :=
  SC.init sc.nodes sc.edges sc.triangles sc.nodeFeatures sc.edgeFeatures = .ok sc

/-- A numpy array or csr matrix whose shape is only known at run time; `tocsr` (simplicial_complex.py:216-226)
keeps the entries. -/
inductive PyArr (K : Type)
  | vec (n : ℕ) (v : Fin n → K)
  | mat (m n : ℕ) (M : Matrix (Fin m) (Fin n) K)

namespace SC

/-- number of nodes (`len(nodes)`, simplicial_complex.py:55) -/
abbrev N (sc : SC K) : ℕ := sc.nodes.length
/-- number of edges (`len(edges)`, simplicial_complex.py:68-85) -/
abbrev E (sc : SC K) : ℕ := sc.edges.length
/-- number of triangles (`len(triangles)`, simplicial_complex.py:87-118) -/
abbrev T (sc : SC K) : ℕ := sc.triangles.length

/-- simplicial_complex.py:140-143 `shape`. -/
def shape (sc : SC K) : ℕ × ℕ × ℕ := (sc.nodes.length, sc.edges.length, sc.triangles.length)

/-- simplicial_complex.py:150-161 `simplices` (tuples and lists both as `List Int`). -/
def simplices (sc : SC K) : List (List Int) :=
  sc.nodes.map (fun v => [v]) ++ sc.edges.map (fun e => [e.1, e.2]) ++ sc.triangles

/-- simplicial_complex.py:145-148 `max_dim`; `max` of an empty sequence is `ValueError`. -/
def maxDim (sc : SC K) : Py Int :=
  match (sc.simplices.map List.length).max? with
  | some m => .ok ((m : Int) - 1)
  | none => .error .valueError

/-- simplicial_complex.py:58-66 `print_summary`: the printed lines and the outcome; when `max_dim` raises, the
lines before it have been printed. -/
def printSummary (sc : SC K) : List String × Py Unit :=
  let n := toString sc.nodes.length
  let e := toString sc.edges.length
  let t := toString sc.triangles.length
  let lines := ["Num. of nodes: " ++ n, "Num. of edges: " ++ e, "Num. of triangles: " ++ t,
    "Shape: (" ++ n ++ ", " ++ e ++ ", " ++ t ++ ")"]
  match sc.maxDim with
  | .ok d => (lines ++ ["Max Dimension: " ++ toString d], .ok ())
  | .error x => (lines, .error x)

/-- simplicial_complex.py:170-172 `get_node_features`. -/
def getNodeFeatures (sc : SC K) : NodeFeatures := sc.nodeFeatures

/-- simplicial_complex.py:174-191 `get_edge_features`: a falsy name returns the table
(`inl`), otherwise the comprehension `{key: value[name]}` (`inr`). -/
def getEdgeFeatures (sc : SC K) (name : Option String) :
    Py (EdgeFeatures ⊕ Dict Edge Cell) :=
  match name with
  | none => .ok (.inl sc.edgeFeatures)
  | some s =>
    if s = "" then .ok (.inl sc.edgeFeatures)
    else do
      let items ← sc.edgeFeatures.mapM fun kv => do
        let v ← Dict.getItem kv.2 s
        pure (kv.1, v)
      pure (.inr (Dict.ofPairs items))

/-- simplicial_complex.py:163-168 `edge_feature_names`. -/
def edgeFeatureNames (sc : SC K) : List String :=
  match sc.edgeFeatures with
  | [] => []
  | (_, fs) :: _ => Dict.keys fs

/-- simplicial_complex.py:193-210 `get_faces`. -/
def getFaces (simplex : List Int) : List (List Int) :=
  let rs := (List.range simplex.length).reverse.map (· + 1)
  let faceSet := rs.foldl (fun s r =>
    (combinations simplex r).foldl (fun s face => setAdd s (sortedInts face)) s) []
  sortedTuples (faceSet.filter fun face => decide ((face.length : Int) = (simplex.length : Int) - 1))

/-- simplicial_complex.py:212-214 `identity_matrix`. -/
def identityMatrix (sc : SC K) : Matrix (Fin sc.N) (Fin sc.N) K := 1

/-- simplicial_complex.py:228-247 `incidence_matrix`. -/
def incidenceMatrix (sc : SC K) (rank : Int) : Py (PyArr K) :=
  if rank = 0 then .ok (.vec sc.N fun _ => 1)
  else if rank = 1 then .ok (.mat sc.N sc.E sc.B1)
  else if rank = 2 then .ok (.mat sc.E sc.T sc.B2)
  else .error .valueError

/-- simplicial_complex.py:249-265 `adjacency_matrix`: for every column take the first
two rows with a non-zero entry (`IndexError` if there are fewer) and write both symmetric entries. -/
def adjacencyMatrix [DecidableEq K] (sc : SC K) : Py (Matrix (Fin sc.N) (Fin sc.N) K) :=
  (List.finRange sc.E).foldlM (init := 0) fun A col => do
    let nz := (List.finRange sc.N).filter fun i => decide (sc.B1 i col ≠ 0)
    let fromNode ← (nz[0]?).elim (.error .indexError) .ok
    let toNode ← (nz[1]?).elim (.error .indexError) .ok
    pure (setEntry (setEntry A fromNode toNode 1) toNode fromNode 1)

/-- simplicial_complex.py:267-275 `laplacian_matrix` = `B1 @ B1.T`. -/
def L0 (sc : SC K) : Matrix (Fin sc.N) (Fin sc.N) K := sc.B1 * sc.B1.transpose

/-- simplicial_complex.py:290-292, `lower_laplacian_matrix(rank=1)` = `B1.T @ B1`. -/
def L1l (sc : SC K) : Matrix (Fin sc.E) (Fin sc.E) K := sc.B1.transpose * sc.B1

/-- simplicial_complex.py:314-316, `upper_laplacian_matrix(rank=1)` = `B2 @ B2.T`. -/
def L1u (sc : SC K) : Matrix (Fin sc.E) (Fin sc.E) K := sc.B2 * sc.B2.transpose

/-- simplicial_complex.py:293-295, `lower_laplacian_matrix(rank=2)` = `B2.T @ B2`. -/
def L2l (sc : SC K) : Matrix (Fin sc.T) (Fin sc.T) K := sc.B2.transpose * sc.B2

/-- simplicial_complex.py:335-338, `hodge_laplacian_matrix(rank=1)`. -/
def L1 (sc : SC K) : Matrix (Fin sc.E) (Fin sc.E) K := sc.L1l + sc.L1u

/-- simplicial_complex.py:277-297 `lower_laplacian_matrix`. -/
def lowerLaplacianMatrix (sc : SC K) (rank : Int) : Py (PyArr K) :=
  if rank = 1 then .ok (.mat sc.E sc.E sc.L1l)
  else if rank = 2 then .ok (.mat sc.T sc.T sc.L2l)
  else .error .valueError

/-- simplicial_complex.py:299-318 `upper_laplacian_matrix`. -/
def upperLaplacianMatrix (sc : SC K) (rank : Int) : Py (PyArr K) :=
  if rank = 0 then .ok (.mat sc.N sc.N sc.L0)
  else if rank = 1 then .ok (.mat sc.E sc.E sc.L1u)
  else .error .valueError

/-- simplicial_complex.py:320-340 `hodge_laplacian_matrix`. -/
def hodgeLaplacianMatrix (sc : SC K) (rank : Int) : Py (PyArr K) :=
  if rank = 0 then .ok (.mat sc.N sc.N sc.L0)
  else if rank = 1 then .ok (.mat sc.E sc.E sc.L1)
  else .error .valueError

/-- simplicial_complex.py:342-365 `apply_lower_shifting`. -/
def applyLowerShifting (sc : SC K) (flow : Fin sc.E → K) (steps : Int) : Fin sc.E → K :=
  if steps = 1 then sc.L1l.mulVec flow
  else sc.L1l.mulVec (sc.L1l.mulVec flow)

/-- simplicial_complex.py:367-390 `apply_upper_shifting`. -/
def applyUpperShifting (sc : SC K) (flow : Fin sc.E → K) (steps : Int) : Fin sc.E → K :=
  if steps = 1 then sc.L1u.mulVec flow
  else sc.L1u.mulVec (sc.L1u.mulVec flow)

/-- simplicial_complex.py:392-406 `apply_k_step_shifting`. -/
def applyKStepShifting (sc : SC K) (flow : Fin sc.E → K) (steps : Int) : Fin sc.E → K :=
  sc.applyLowerShifting flow steps + sc.applyUpperShifting flow steps

/-- simplicial_complex.py:486-497 and eigendecomposition.py:29-40 `get_divergence`. -/
def getDivergence (sc : SC K) (flow : Fin sc.E → K) : Fin sc.N → K := sc.B1.mulVec flow

/-- simplicial_complex.py:499-510 and eigendecomposition.py:43-54 `get_curl`. -/
def getCurl (sc : SC K) (flow : Fin sc.E → K) : Fin sc.T → K := sc.B2.transpose.mulVec flow

end SC

end Pytspl
