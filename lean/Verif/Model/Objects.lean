import Verif.Model.SCBuilder

/-!
# Builders and complexes as Python objects

`SCBuilder` and `SimplicialComplex` keep references to the lists and dictionaries they are given, and a default
argument is one object shared by all calls.  Here the objects live in a heap and a program is a sequence of
commands; the values computed are those of `Verif.Model.SCBuilder` and `Verif.Model.SimplicialComplex`.
-/

namespace Pytspl

variable {K : Type} [CommRing K]

/-- The mutable lists and dictionaries of a program, by kind; a reference is a position
(the arguments of scbuilder.py:19-25 and simplicial_complex.py:28-35). -/
structure Heap where
  nodeLists : List (List Int)
  edgeLists : List (List Edge)
  triLists : List (List (List Int))
  nodeDicts : List NodeFeatures
  edgeDicts : List EdgeFeatures

/-- The objects that exist when the package has been imported: the defaults `{}` of `SCBuilder.__init__`
(scbuilder.py:23-24; dictionaries 0) and the defaults `[]`, `{}` of `SimplicialComplex.__init__`
(simplicial_complex.py:30-34; lists 0, dictionaries 1). -/
def Heap.initial : Heap := ⟨[[]], [[]], [[]], [[], []], [[], []]⟩

/-- References held by a builder (scbuilder.py:28-34). -/
structure BuilderObj where
  nodes : ℕ
  edges : ℕ
  nodeFeatures : ℕ
  edgeFeatures : ℕ

/-- What a complex holds: references (simplicial_complex.py:48-53) and its own arrays (lines 55-56). -/
structure ComplexObj (K : Type) where
  nodes : ℕ
  edges : ℕ
  triangles : ℕ
  nodeFeatures : ℕ
  edgeFeatures : ℕ
  B1 : PyArr K
  B2 : PyArr K

/-- State of a program (the objects of scbuilder.py:19-34 and simplicial_complex.py:28-56). -/
structure World (K : Type) where
  heap : Heap
  builders : List BuilderObj
  complexes : List (ComplexObj K)

/-- State after the import (the defaults of scbuilder.py:23-24 and simplicial_complex.py:30-34). -/
def World.initial : World K := ⟨Heap.initial, [], []⟩

/-- scbuilder.py:19-34 `__init__`: `none` is an argument that is not given. -/
def World.newBuilder (w : World K) (nodes edges : ℕ) (nodeFeatures edgeFeatures : Option ℕ) : World K :=
  { w with builders := w.builders ++ [⟨nodes, edges, nodeFeatures.getD 0, edgeFeatures.getD 0⟩] }

/-- The arrays computed by the constructor for the present contents of the lists (simplicial_complex.py:55-56). -/
def arraysOf (K : Type) [CommRing K] (nodes : List Int) (edges : List Edge) (triangles : List (List Int)) :
    Py (PyArr K × PyArr K) := do
  let B1 ← edgesToB1 (K := K) edges nodes.length
  let B2 ← trianglesToB2 (K := K) triangles edges
  pure (.mat _ _ B1, .mat _ _ B2)

/-- simplicial_complex.py:28-56 `__init__` on references; if it raises, no object is created. -/
def World.newComplex (w : World K) (nodes edges triangles nodeFeatures edgeFeatures : ℕ) : World K :=
  match w.heap.nodeLists[nodes]?, w.heap.edgeLists[edges]?, w.heap.triLists[triangles]? with
  | some ns, some es, some ts =>
    match arraysOf K ns es ts with
    | .ok (B1, B2) =>
      { w with complexes := w.complexes ++ [⟨nodes, edges, triangles, nodeFeatures, edgeFeatures, B1, B2⟩] }
    | .error _ => w
  | _, _, _ => w

/-- The builder's attributes as values, at present (scbuilder.py:28-34). -/
def World.builderValue (w : World K) (b : BuilderObj) : Option SCBuilder :=
  match w.heap.nodeLists[b.nodes]?, w.heap.edgeLists[b.edges]?, w.heap.nodeDicts[b.nodeFeatures]?,
    w.heap.edgeDicts[b.edgeFeatures]? with
  | some nodes, some edges, some nodeFeatures, some edgeFeatures => some { nodes, edges, nodeFeatures, edgeFeatures }
  | _, _, _, _ => none

/-- scbuilder.py:86-132 `to_simplicial_complex`: a list of triangles is passed on, or a new list is made. -/
def World.toComplex (w : World K) (i : ℕ) (condition col : String) (eps : ℚ) (triangles : Option ℕ) : World K :=
  match w.builders[i]? with
  | none => w
  | some b =>
    match triangles with
    | some t => w.newComplex b.nodes b.edges t b.nodeFeatures b.edgeFeatures
    | none =>
      match w.builderValue b with
      | none => w
      | some v =>
        match v.chooseTriangles condition col eps none with
        | .error _ => w
        | .ok ts =>
          let w := { w with heap := { w.heap with triLists := w.heap.triLists ++ [ts] } }
          w.newComplex b.nodes b.edges (w.heap.triLists.length - 1) b.nodeFeatures b.edgeFeatures

/-- What a program does with the package: create lists and dictionaries, change one of them in place (append,
delete or assign items: it then has another value), create builders and complexes
(scbuilder.py:19-34, 86-132, simplicial_complex.py:28-56). -/
inductive ProgCmd
  | makeNodes (v : List Int)
  | makeEdges (v : List Edge)
  | makeTriangles (v : List (List Int))
  | makeNodeDict (v : NodeFeatures)
  | makeEdgeDict (v : EdgeFeatures)
  | changeNodes (i : ℕ) (v : List Int)
  | changeEdges (i : ℕ) (v : List Edge)
  | changeTriangles (i : ℕ) (v : List (List Int))
  | changeNodeDict (i : ℕ) (v : NodeFeatures)
  | changeEdgeDict (i : ℕ) (v : EdgeFeatures)
  | builder (nodes edges : ℕ) (nodeFeatures edgeFeatures : Option ℕ)
  | build (i : ℕ) (condition col : String) (eps : ℚ) (triangles : Option ℕ)
  | complex (nodes edges triangles nodeFeatures edgeFeatures : Option ℕ)

/-- One command. `SimplicialComplex(...)` without an argument uses the shared default object
(simplicial_complex.py:30-34). -/
def World.exec (w : World K) : ProgCmd → World K
  | .makeNodes v => { w with heap := { w.heap with nodeLists := w.heap.nodeLists ++ [v] } }
  | .makeEdges v => { w with heap := { w.heap with edgeLists := w.heap.edgeLists ++ [v] } }
  | .makeTriangles v => { w with heap := { w.heap with triLists := w.heap.triLists ++ [v] } }
  | .makeNodeDict v => { w with heap := { w.heap with nodeDicts := w.heap.nodeDicts ++ [v] } }
  | .makeEdgeDict v => { w with heap := { w.heap with edgeDicts := w.heap.edgeDicts ++ [v] } }
  | .changeNodes i v => { w with heap := { w.heap with nodeLists := w.heap.nodeLists.set i v } }
  | .changeEdges i v => { w with heap := { w.heap with edgeLists := w.heap.edgeLists.set i v } }
  | .changeTriangles i v => { w with heap := { w.heap with triLists := w.heap.triLists.set i v } }
  | .changeNodeDict i v => { w with heap := { w.heap with nodeDicts := w.heap.nodeDicts.set i v } }
  | .changeEdgeDict i v => { w with heap := { w.heap with edgeDicts := w.heap.edgeDicts.set i v } }
  | .builder n e nf ef => w.newBuilder n e nf ef
  | .build i condition col eps t => w.toComplex i condition col eps t
  | .complex n e t nf ef => w.newComplex (n.getD 0) (e.getD 0) (t.getD 0) (nf.getD 1) (ef.getD 1)

/-- A program (calls of scbuilder.py:19-34, 86-132, simplicial_complex.py:28-56). -/
def World.run (w : World K) (cmds : List ProgCmd) : World K := cmds.foldl World.exec w

/-- Reading the attributes `nodes`, `edges`, `triangles` of a complex (simplicial_complex.py:48-50). -/
def World.simplicesOf (w : World K) (c : ComplexObj K) : Option (List Int × List Edge × List (List Int)) :=
  match w.heap.nodeLists[c.nodes]?, w.heap.edgeLists[c.edges]?, w.heap.triLists[c.triangles]? with
  | some ns, some es, some ts => some (ns, es, ts)
  | _, _, _ => none

/-- Reading the attributes `node_features` and `edge_features` of a complex (simplicial_complex.py:52-53). -/
def World.featuresOf (w : World K) (c : ComplexObj K) : Option (NodeFeatures × EdgeFeatures) :=
  match w.heap.nodeDicts[c.nodeFeatures]?, w.heap.edgeDicts[c.edgeFeatures]? with
  | some nf, some ef => some (nf, ef)
  | _, _ => none

end Pytspl
