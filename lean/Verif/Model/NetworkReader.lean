import Verif.Model.SCBuilder

/-!
# `pytspl/io/network_reader.py`

Text parsing is pandas' job and not modelled: a file is what `pd.read_csv` makes of it, either a
table with named columns (`Table`) or a headerless array of numbers (`CsvMat`); `none` is a file that
does not exist.  A missing entry of a table is NaN; a headerless array
has none.
-/

namespace Pytspl

/-- A pandas frame: column labels and, per row, the labelled cells (`df.iterrows()` yields such rows,
network_reader.py:43). -/
structure Table where
  cols : List String
  rows : List (Dict String Cell)
  rect : ∀ r ∈ rows, Dict.keys r = cols

/-- `df.columns = [f(s) for s in df.columns]` (network_reader.py:95, 274); simplification: if two labels
become equal, looking that label up gives the first one. -/
def Table.rename (t : Table) (f : String → String) : Table where
  cols := t.cols.map f
  rows := t.rows.map fun r => r.map fun kv => (f kv.1, kv.2)
  rect := by
    intro r hr
    obtain ⟨r', hr', rfl⟩ := List.mem_map.mp hr
    rw [← t.rect r' hr']
    simp [Dict.keys]

/-- `df.drop(labels, axis=1)` (network_reader.py:98): `KeyError` if a label is missing. -/
def Table.drop (t : Table) (labels : List String) : Py Table :=
  if labels.all fun l => decide (l ∈ t.cols) then
    .ok { cols := t.cols.filter fun c => decide (c ∉ labels)
          rows := t.rows.map fun r => r.filter fun kv => decide (kv.1 ∉ labels)
          rect := by
            intro r hr
            obtain ⟨r', hr', rfl⟩ := List.mem_map.mp hr
            rw [← t.rect r' hr']
            simp only [Dict.keys, List.filter_map]
            rfl }
  else .error .keyError

/-- `df[col]` (network_reader.py:278, 283-284): the column, `KeyError` if there is none of that name. -/
def Table.column (t : Table) (col : String) : Py (List Cell) :=
  if col ∈ t.cols then t.rows.mapM fun r => Dict.getItem r col else .error .keyError

/-- `list(range(n))` (network_reader.py:60, 238). -/
def pyRange (n : Int) : List Int := (List.range n.toNat).map fun i : ℕ => (i : Int)

/-- network_reader.py:45-50: the pair of node ids of one row. -/
def rowIds (src dst : String) (zero : Bool) (row : Dict String Cell) : Py Edge := do
  let fromNode ← (← Dict.getItem row src).toInt
  let toNode ← (← Dict.getItem row dst).toInt
  pure (if zero then (fromNode, toNode) else (fromNode - 1, toNode - 1))

/-- network_reader.py:43-58: one iteration of the loop over rows; the state is the node set and the
edge list. -/
def extractStep (src dst : String) (zero : Bool) (st : List Int × List Edge)
    (row : Dict String Cell) : Py (List Int × List Edge) := do
  let (a, b) ← rowIds src dst zero row
  let nodes := setAdd (setAdd st.1 a) b
  if (a, b) ∈ st.2 ∨ (b, a) ∈ st.2 then pure (nodes, st.2)
  else pure (nodes, st.2 ++ [(a, b)])

/-- network_reader.py:60: `list(range(max(nodes) + 1))`; `max` of an empty set is `ValueError`. -/
def nodesUpToMax (nodes : List Int) : Py (List Int) :=
  match nodes.max? with
  | some m => .ok (pyRange (m + 1))
  | none => .error .valueError

/-- network_reader.py:24-64 `_extract_nodes_edges`. -/
def extractNodesEdges (t : Table) (src dst : String) (zero : Bool) :
    Py (List Int × List Edge) := do
  let (nodes, edges) ← t.rows.foldlM (extractStep src dst zero) ([], [])
  let nodes ← nodesUpToMax nodes
  pure (nodes, sortedPairs edges)

/-- `df.iloc[i][feature_cols].to_dict()` (network_reader.py:117-119): `IndexError` past the end,
`KeyError` for a missing column. -/
def rowFeatures (t : Table) (featureCols : List String) (i : ℕ) : Py (Dict String Cell) :=
  match t.rows[i]? with
  | none => .error .indexError
  | some r => do
    let vs ← featureCols.mapM fun c => do
      let v ← Dict.getItem r c
      pure (c, v)
    pure (Dict.ofPairs vs)

/-- network_reader.py:116-119 and 167-170: `edge_features[(u, v)] = ...` for `i, (u, v)` in
`enumerate(edges)`. -/
def positionalFeatures (t : Table) (featureCols : List String) (edges : List Edge) :
    Py EdgeFeatures := do
  let fs ← edges.zipIdx.mapM fun ei => do
    let f ← rowFeatures t featureCols ei.2
    pure (ei.1, f)
  pure (Dict.ofPairs fs)

/-- network_reader.py:109-119 and 163-170: the table of edge features, empty without feature columns. -/
def edgeFeaturesOf (t : Table) (featureCols : List String) (edges : List Edge) : Py EdgeFeatures :=
  if 0 < featureCols.length then positionalFeatures t featureCols edges else .ok []

/-- network_reader.py:67-126 `read_tntp`. -/
def readTntp (file : Option Table) (src dst : String) (zero : Bool) : Py SCBuilder :=
  match file with
  | none => .error .fileNotFoundError
  | some df => do
    let df ← (df.rename pyStrip).drop ["~", ";"]
    let (nodes, edges) ← extractNodesEdges df src dst zero
    let featureCols := df.cols.filter fun c => decide (c ≠ src ∧ c ≠ dst)
    let edgeFeatures ← edgeFeaturesOf df featureCols edges
    pure { nodes, edges, nodeFeatures := [], edgeFeatures }

/-- network_reader.py:129-177 `read_csv`: `len(feature_cols)` of `None` is `TypeError`. -/
def readCsv (file : Option Table) (src dst : String) (featureCols : Option (List String))
    (zero : Bool) : Py SCBuilder :=
  match file with
  | none => .error .fileNotFoundError
  | some df => do
    let (nodes, edges) ← extractNodesEdges df src dst zero
    match featureCols with
    | none => .error .typeError
    | some fc =>
      let edgeFeatures ← edgeFeaturesOf df fc edges
      pure { nodes, edges, nodeFeatures := [], edgeFeatures }

/-- A headerless csv of numbers (network_reader.py:194, 222). -/
structure CsvMat (K : Type) where
  m : ℕ
  n : ℕ
  M : Matrix (Fin m) (Fin n) K

/-- `pd.read_csv(name, header=None).to_numpy()` (network_reader.py:194, 222): an array without
entries is an empty file, for which pandas raises `EmptyDataError`, a `ValueError`. -/
def readMat {K : Type} (file : Option (CsvMat K)) : Py (CsvMat K) :=
  match file with
  | none => .error .fileNotFoundError
  | some c => if c.m = 0 ∨ c.n = 0 then .error .valueError else .ok c

section mat
variable {K : Type} [DecidableEq K]

/-- `np.where(col == x)[0]` on one column (network_reader.py:230-231). -/
def whereEq {m n : ℕ} (M : Matrix (Fin m) (Fin n) K) (j : Fin n) (x : K) : List (Fin m) :=
  (List.finRange m).filter fun i => decide (M i j = x)

/-- `l[0]`, `IndexError` if empty (network_reader.py:230-231). -/
def firstItem {α : Type} (l : List α) : Py α :=
  match l with
  | [] => .error .indexError
  | a :: _ => .ok a

/-- network_reader.py:228-236 and wsn_loader.py:32-40: the edge of every column, in column order:
`(row of the first -1, row of the first 1)`. -/
def edgesOfColumns [One K] [Neg K] {m n : ℕ} (M : Matrix (Fin m) (Fin n) K) : Py (List Edge) :=
  (List.finRange n).mapM fun j => do
    let fromNode ← firstItem (whereEq M j (-1))
    let toNode ← firstItem (whereEq M j 1)
    pure (((fromNode : ℕ) : Int), ((toNode : ℕ) : Int))

/-- network_reader.py:225, 233-234: the set of nodes met. -/
def nodeSet (edges : List Edge) : List Int :=
  edges.foldl (fun s e => setAdd (setAdd s e.1) e.2) []

/-- network_reader.py:200-204: the vertices of one B2 column: rows with a non-zero entry, their edges'
end points as a set, sorted; `edges[ones]` is `IndexError` for a row beyond the edges. -/
def triangleOfColumn [Zero K] (edges : List Edge) {m n : ℕ} (B2 : Matrix (Fin m) (Fin n) K)
    (j : Fin n) : Py (List Int) := do
  let ones := (List.finRange m).filter fun i => decide (B2 i j ≠ 0)
  let es ← ones.mapM fun i : Fin m => match edges[(i : ℕ)]? with
    | some e => Except.ok e
    | none => Except.error PyErr.indexError
  pure (sortedInts (nodeSet es))

/-- network_reader.py:180-207 `read_B2` (the `assert` on the type of `edges` always holds for its
only caller). -/
def readB2 [Zero K] (file : Option (CsvMat K)) (edges : List Edge) : Py (List (List Int)) := do
  let c ← readMat file
  (List.finRange c.m).mapM fun j => triangleOfColumn edges c.M.transpose j

/-- network_reader.py:210-244 `read_B1_B2`. -/
def readB1B2 [Zero K] [One K] [Neg K] (file1 file2 : Option (CsvMat K)) :
    Py (SCBuilder × List (List Int)) := do
  let c ← readMat file1
  let edges ← edgesOfColumns c.M
  let nodes ← nodesUpToMax (nodeSet edges)
  let edges := sortedPairs edges
  let triangles ← readB2 file2 edges
  pure ({ nodes, edges }, triangles)

end mat

/-- `cell - 1` (network_reader.py:278): a string raises `TypeError`, NaN stays NaN. -/
def Cell.subOne : Cell → Py Cell
  | .num q => .ok (.num (q - 1))
  | .str _ => .error .typeError
  | .nan => .ok .nan

/-- `dict(zip(ids, points))` (network_reader.py:281-286).  In a column of numbers every NaN is a new object, equal to
no key, so it gets an entry of its own; in a column with a string all of them are the same object, hence one key. -/
def coordDict (l : List (Cell × Cell × Cell)) : Dict Cell (Cell × Cell) :=
  if l.any fun p => match p.1 with | .str _ => true | _ => false then Dict.ofPairs l
  else l.foldl (fun d p => if p.1 = .nan then d ++ [p] else d.set p.1 p.2) []

/-- network_reader.py:247-286 `read_coordinates`; a missing file gives `None`. -/
def readCoordinates (file : Option Table) (idCol xCol yCol : String) (zero : Bool) :
    Py (Option (Dict Cell (Cell × Cell))) :=
  match file with
  | none => .ok none
  | some df => do
    let df := df.rename pyStrip
    let ids ← df.column idCol
    let ids ← if zero then Except.ok ids else ids.mapM Cell.subOne
    let xs ← df.column xCol
    let ys ← df.column yCol
    pure (some (coordDict (ids.zip (xs.zip ys))))

/-- network_reader.py:289-307 `read_flow`: a missing file gives an empty frame. -/
def readFlow (file : Option Table) : Table :=
  match file with
  | none => { cols := [], rows := [], rect := by simp }
  | some df => df

end Pytspl
