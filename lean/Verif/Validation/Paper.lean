import Verif.Model.DataLoaders
import Verif.Lemmas.Concrete

/-!
# The model on the project's own test data: reading and shifting

The project's tests record outputs of the real code on the `paper` dataset. The model gives the same outputs. These
are checks of the model, on one input each, and not properties of the code; no claim refers to them. The inputs are
the files in /repo/pytspl/data/paper_data, the outputs are those asserted in the named test.
-/

namespace Pytspl.Validation

open Matrix

/-- a row of `edges.csv` -/
def edgeRow (a b d c : ℚ) : Dict String Cell :=
  [("Source", .num a), ("Target", .num b), ("Type", .str "Undirected"), ("Distance", .num d), ("Capacity", .num c)]

/-- pytspl/data/paper_data/edges.csv -/
def edgesCsv : Table where
  cols := ["Source", "Target", "Type", "Distance", "Capacity"]
  rows := [edgeRow 0 1 1 10, edgeRow 1 2 1 10, edgeRow 0 2 1 10, edgeRow 2 3 1 10, edgeRow 2 5 10 10,
    edgeRow 0 3 10 10, edgeRow 3 4 10 10, edgeRow 4 5 1 10, edgeRow 5 6 1 10, edgeRow 4 6 1 10]
  rect := by decide

/-- a row of `coordinates.csv` -/
def coordRow (i x y : ℚ) : Dict String Cell := [("Id", .num i), ("X", .num x), ("Y", .num y)]

/-- pytspl/data/paper_data/coordinates.csv -/
def coordinatesCsv : Table where
  cols := ["Id", "X", "Y"]
  rows := [coordRow 0 0 0, coordRow 1 1 (-1 / 2), coordRow 2 0 (-1), coordRow 3 (-1) (-1 / 2),
    coordRow 4 (-1) (-5 / 2), coordRow 5 0 (-2), coordRow 6 1 (-5 / 2)]
  rect := by decide

/-- pytspl/data/paper_data/flow.csv -/
def flowCsv : CsvMat ℚ where
  m := 10
  n := 1
  M := !![2.25; 0.13; 1.72; -2.12; 1.59; 1.08; -0.30; -0.21; 1.25; 1.45]

/-- pytspl/data/paper_data/B1.csv, and `INC_MAT_B1` in tests/test_network_reader.py -/
def paperB1 : Matrix (Fin 7) (Fin 10) ℤ :=
  !![-1, -1, -1, 0, 0, 0, 0, 0, 0, 0; 1, 0, 0, -1, 0, 0, 0, 0, 0, 0; 0, 1, 0, 1, -1, -1, 0, 0, 0, 0;
     0, 0, 1, 0, 1, 0, -1, 0, 0, 0; 0, 0, 0, 0, 0, 0, 1, -1, -1, 0; 0, 0, 0, 0, 0, 1, 0, 1, 0, -1;
     0, 0, 0, 0, 0, 0, 0, 0, 1, 1]

/-- pytspl/data/paper_data/B2t.csv -/
def paperB2t : Matrix (Fin 3) (Fin 10) ℤ :=
  !![1, -1, 0, 1, 0, 0, 0, 0, 0, 0; 0, 1, -1, 0, 1, 0, 0, 0, 0, 0; 0, 0, 0, 0, 0, 0, 0, 1, -1, 1]

/-- the edges in the order of the columns of B1 -/
def paperEdges : List Edge := [(0, 1), (0, 2), (0, 3), (1, 2), (2, 3), (2, 5), (3, 4), (4, 5), (4, 6), (5, 6)]

/-- one edge's features -/
def dist (q : ℚ) : Dict String Cell := [("Distance", .num q)]

/-- what `read_csv` returns; the distances are those of the rows in file order, on the sorted edges: edge (0, 3), which
the file gives the distance 10, gets 1, and edge (2, 3) gets 10 instead of 1 (see C39) -/
def paperBuilder : SCBuilder where
  nodes := [0, 1, 2, 3, 4, 5, 6]
  edges := paperEdges
  nodeFeatures := []
  edgeFeatures := paperEdges.zip [dist 1, dist 1, dist 1, dist 1, dist 10, dist 10, dist 10, dist 1, dist 1, dist 1]

/-- tests/test_network_reader.py `test_read_csv` -/
theorem read : readCsv (some edgesCsv) "Source" "Target" (some ["Distance"]) true = .ok paperBuilder := by
  rfl

/-- tests/test_scbuilder.py `test_triangles` -/
theorem triangles : paperBuilder.triangles = [[0, 1, 2], [0, 2, 3], [4, 5, 6]] := by
  decide +kernel

/-- tests/test_scbuilder.py `test_triangles_dist_based` -/
theorem trianglesDistBased :
    paperBuilder.trianglesDistBased "Distance" (3 / 2) = .ok [[0, 1, 2], [4, 5, 6]] := by
  have h : (paperBuilder.trianglesDistBased "Distance" (3 / 2)).toOption = some [[0, 1, 2], [4, 5, 6]] := by
    decide +kernel
  revert h
  cases paperBuilder.trianglesDistBased "Distance" (3 / 2) with
  | error e => intro h; cases h
  | ok a => intro h; rw [Option.some.inj h]

/-- the simplicial complex of the dataset -/
noncomputable def paper : SC ℝ :=
  ⟨[0, 1, 2, 3, 4, 5, 6], paperEdges, [[0, 1, 2], [0, 2, 3], [4, 5, 6]], [], paperBuilder.edgeFeatures,
    paperB1.map (Int.cast : ℤ → ℝ), paperB2t.transpose.map (Int.cast : ℤ → ℝ)⟩

theorem paper_init : SC.init (K := ℝ) [0, 1, 2, 3, 4, 5, 6] paperEdges [[0, 1, 2], [0, 2, 3], [4, 5, 6]] []
    paperBuilder.edgeFeatures = .ok paper := by
  have h1 : edgesToB1 paperEdges 7 = .ok paperB1 := okEq_spec (by decide +kernel)
  have h2 : trianglesToB2 [[0, 1, 2], [0, 2, 3], [4, 5, 6]] paperEdges = .ok paperB2t.transpose :=
    okEq_spec (by decide +kernel)
  rw [SC.init]
  have h1' := edgesToB1_cast h1
  have h2' := trianglesToB2_cast h2
  simp only [List.length_cons, List.length_nil, Nat.reduceAdd]
  rw [h1', h2']
  rfl

/-- tests/test_network_reader.py `test_read_csv`: the incidence matrices -/
theorem toSC : paperBuilder.toSimplicialComplex ℝ = .ok paper := by
  rw [SCBuilder.toSimplicialComplex, SCBuilder.chooseTriangles]
  simp only [if_true, triangles]
  exact paper_init

/-- the directory of the dataset; the other datasets are left out -/
def paperDir : DataDir where
  listing := []
  table := fun n => if n = "paper_data/edges.csv" then some edgesCsv
    else if n = "paper_data/coordinates.csv" then some coordinatesCsv else none
  mat := fun n => if n = "paper_data/flow.csv" then some flowCsv else none
  wsnB1 := ⟨0, 0, 0⟩
  wsnFlowRate := []
  wsnHead := []
  wsnHr := []
  place := fun _ _ => (.num 0, .num 0)

/-- tests/conftest.py: `load_dataset("paper")` -/
theorem load : ∃ coordinates, loadPaperData ℝ paperDir =
    .ok ⟨paper, coordinates, .dict (paperEdges.zip
      [2.25, 0.13, 1.72, -2.12, 1.59, 1.08, -0.30, -0.21, 1.25, 1.45])⟩ ∧
    coordinates.length = 7 ∧ coordinates.get? (.num 3) = some (.num (-1), .num (-1 / 2)) := by
  refine ⟨[(.num 0, .num 0, .num 0), (.num 1, .num 1, .num (-1 / 2)), (.num 2, .num 0, .num (-1)),
    (.num 3, .num (-1), .num (-1 / 2)), (.num 4, .num (-1), .num (-5 / 2)), (.num 5, .num 0, .num (-2)),
    (.num 6, .num 1, .num (-5 / 2))], ?_, by decide +kernel, by decide +kernel⟩
  have h1 : readCsv (paperDir.table "paper_data/edges.csv") "Source" "Target" (some ["Distance"]) true =
    .ok paperBuilder := read
  rw [loadPaperData, h1]
  simp only [bind, Except.bind, toSC]
  rfl

/-- tests/test_simplicial_complex.py `test_shape`, `test_max_dim`, `test_simplices`, `test_get_faces` -/
theorem simplices : paper.shape = (7, 10, 3) ∧ paper.maxDim = .ok 2 ∧
    paper.simplices = [[0], [1], [2], [3], [4], [5], [6], [0, 1], [0, 2], [0, 3], [1, 2], [2, 3], [2, 5], [3, 4],
      [4, 5], [4, 6], [5, 6], [0, 1, 2], [0, 2, 3], [4, 5, 6]] ∧ SC.getFaces [0, 1] = [[0], [1]] := by
  refine ⟨rfl, rfl, rfl, by decide⟩

end Pytspl.Validation
