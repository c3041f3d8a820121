import Verif.Model.SimplicialComplex
import Mathlib.Algebra.BigOperators.Group.List.Basic
import Mathlib.Tactic.Ring

/-!
# `pytspl/simplicial_complex/scbuilder.py`

The clique enumeration of networkx (`enumerate_all_cliques`) is modelled as the queue
algorithm it is, on a graph whose nodes are in insertion order.
-/

namespace Pytspl

/-- Node order of `nx.Graph()` after `add_edges_from(edges)` (scbuilder.py:43-44): order of first
appearance. -/
def graphNodes (edges : List Edge) : List Int :=
  edges.foldl (fun s e => setAdd (setAdd s e.1) e.2) []

/-- `v in G[u]` for that graph (undirected; a self-loop makes `u` its own neighbour) (scbuilder.py:43-44). -/
def graphAdj (edges : List Edge) (u v : Int) : Bool :=
  decide ((u, v) ∈ edges) || decide ((v, u) ∈ edges)

/-- networkx `enumerate_all_cliques`, `nbrs[u]`: neighbours of `u` that come after `u` in node
order (listed in node order, as its `sorted(..., key=index)` does) (called in scbuilder.py:45). -/
def laterNbrs (edges : List Edge) (u : Int) : List Int :=
  ((graphNodes edges).drop ((graphNodes edges).idxOf u + 1)).filter (graphAdj edges u)

/-- networkx `enumerate_all_cliques`, the `for i, u in enumerate(cnbrs)` loop: the entries appended
to the queue for one popped `(base, cnbrs)` (called in scbuilder.py:45). -/
def pushCliques (nb : Int → List Int) (base : List Int) : List Int → List (List Int × List Int)
  | [] => []
  | u :: rest => (base ++ [u], rest.filter fun w => decide (w ∈ nb u)) :: pushCliques nb base rest

theorem pushCliques_measure (nb : Int → List Int) (base cn : List Int) :
    ((pushCliques nb base cn).map fun p => 2 ^ p.2.length).sum < 2 ^ cn.length := by
  induction cn with
  | nil => simp [pushCliques]
  | cons u rest ih =>
    simp only [pushCliques, List.map_cons, List.sum_cons, List.length_cons]
    have h1 : 2 ^ (rest.filter fun w => decide (w ∈ nb u)).length ≤ 2 ^ rest.length :=
      Nat.pow_le_pow_right (by omega) (List.length_filter_le _ _)
    have h2 : 2 ^ (rest.length + 1) = 2 * 2 ^ rest.length := by ring
    omega

/-- networkx `enumerate_all_cliques`, the `while queue` loop: pop from the left, yield `base`,
append the extensions on the right (called in scbuilder.py:45). -/
def cliqueLoop (nb : Int → List Int) : List (List Int × List Int) → List (List Int)
  | [] => []
  | (base, cn) :: queue => base :: cliqueLoop nb (queue ++ pushCliques nb base cn)
termination_by q => (q.map fun p => 2 ^ p.2.length).sum
decreasing_by
  simp only [List.map_append, List.sum_append, List.map_cons, List.sum_cons]
  have := pushCliques_measure nb base cn
  omega

/-- networkx `enumerate_all_cliques(g)` (scbuilder.py:45). -/
def enumerateAllCliques (edges : List Edge) : List (List Int) :=
  cliqueLoop (laterNbrs edges) ((graphNodes edges).map fun u => ([u], laterNbrs edges u))

/-- The attributes of an `SCBuilder` (scbuilder.py:19-34). -/
structure SCBuilder where
  nodes : List Int
  edges : List Edge
  nodeFeatures : NodeFeatures := []
  edgeFeatures : EdgeFeatures := []

/-- scbuilder.py:36-49 `triangles`. -/
def SCBuilder.triangles (b : SCBuilder) : List (List Int) :=
  ((enumerateAllCliques b.edges).filter fun x => decide (x.length = 3)).map sortedInts

/-- scbuilder.py:69 `self.edge_features[(a, b)][dist_col_name]`. -/
def SCBuilder.feature (b : SCBuilder) (p : Edge) (col : String) : Py Cell := do
  let d ← Dict.getItem b.edgeFeatures p
  Dict.getItem d col

/-- scbuilder.py:68-81: the two nested conditions for one triangle, with Python's left-to-right
short-circuit evaluation of `and`. -/
def SCBuilder.distKeep (b : SCBuilder) (col : String) (eps : ℚ) (x y z : Int) : Py Bool := do
  if !(← b.feature (x, y) col).truthy then return false
  if !(← b.feature (y, z) col).truthy then return false
  if !(← b.feature (x, z) col).truthy then return false
  let distAB ← b.feature (x, y) col
  let distAC ← b.feature (y, z) col
  let distBC ← b.feature (x, z) col
  if !(← distAB.lt eps) then return false
  if !(← distAC.lt eps) then return false
  distBC.lt eps

/-- scbuilder.py:51-84 `triangles_dist_based`. -/
def SCBuilder.trianglesDistBased (b : SCBuilder) (col : String) (eps : ℚ) :
    Py (List (List Int)) :=
  b.triangles.foldlM (init := []) fun acc t => do
    let (x, y, z) ← unpack3 t
    if ← b.distKeep col eps x y z then pure (acc ++ [[x, y, z]]) else pure acc

/-- scbuilder.py:113-121: the list of triangles handed to the constructor. -/
def SCBuilder.chooseTriangles (b : SCBuilder) (condition : String) (col : String) (eps : ℚ)
    (triangles : Option (List (List Int))) : Py (List (List Int)) :=
  match triangles with
  | some ts => pure ts
  | none => if condition = "all" then pure b.triangles else b.trianglesDistBased col eps

/-- scbuilder.py:86-132 `to_simplicial_complex`. -/
def SCBuilder.toSimplicialComplex (K : Type) [CommRing K] (b : SCBuilder)
    (condition : String := "all") (col : String := "distance") (eps : ℚ := 3 / 2)
    (triangles : Option (List (List Int)) := none) : Py (SC K) := do
  let ts ← b.chooseTriangles condition col eps triangles
  SC.init b.nodes b.edges ts b.nodeFeatures b.edgeFeatures

end Pytspl
