import Verif.Spec.Tables
import Verif.Spec.Complex
import Verif.Model.DataLoaders
import Mathlib.Analysis.SpecialFunctions.Pow.Real

/-!
# What a dataset should contain, in terms of its files
-/

namespace Pytspl

/-- the row has node id `k`: what stands in the file if ids count from 0, else the number in the file minus one; a
missing id stays missing -/
def RowId (idCol : String) (zero : Bool) (row : Dict String Cell) (k : Cell) : Prop :=
  if zero then row.get? idCol = some k
  else (∃ q : ℚ, row.get? idCol = some (.num q) ∧ k = .num (q - 1)) ∨ (row.get? idCol = some .nan ∧ k = .nan)

/-- some id of the file is a text -/
def TextIds (t : Table) (idCol : String) : Prop := ∃ row ∈ t.rows, ∃ s, row.get? idCol = some (.str s)

/-- nodes and edges of the graph with these links: the edges in order, each pair once, in the direction
seen first; nodes from 0 to the largest id -/
def GraphOfLinks (links : List Edge) (nodes : List Int) (edges : List Edge) : Prop :=
  StrictlySorted edges ∧ (∀ e, e ∈ edges ↔ FirstSeen links e) ∧
    ∃ m, LargestId links m ∧ nodes = (List.range (m + 1).toNat).map fun i : ℕ => (i : Int)

/-- the triangles of the graph with these edges, each once, as increasing triples -/
def AllTriangles (edges : List Edge) (ts : List (List Int)) : Prop :=
  ts.Nodup ∧ ∀ t : List Int, t ∈ ts ↔ ∃ x y z, t = [x, y, z] ∧ x < y ∧ y < z ∧
    Joined edges x y ∧ Joined edges y z ∧ Joined edges x z

/-- The ids of the file and nothing else.  Each once, with the coordinates in the last row with that id, except that in
a column of numbers missing ids are all kept: one entry for each row without id, in order. -/
def CoordinatesOf (t : Table) (idCol xCol yCol : String) (zero : Bool) (d : Dict Cell (Cell × Cell)) : Prop :=
  (∀ k, k ∈ Dict.keys d ↔ ∃ row ∈ t.rows, RowId idCol zero row k) ∧
  (∀ k, k ≠ .nan ∨ TextIds t idCol → (Dict.keys d).count k ≤ 1 ∧
    ∀ x y, d.get? k = some (x, y) ↔ ∃ pre row post, t.rows = pre ++ row :: post ∧
      RowId idCol zero row k ∧ row.get? xCol = some x ∧ row.get? yCol = some y ∧
      ∀ row' ∈ post, ¬ RowId idCol zero row' k) ∧
  (¬ TextIds t idCol → List.Forall₂ (fun row p => row.get? xCol = some p.2.1 ∧ row.get? yCol = some p.2.2)
    (t.rows.filter fun row => decide (row.get? idCol = some .nan)) (d.filter fun p => decide (p.1 = .nan)))

/-- edge number `i` has value number `i` -/
def FlowByPosition (edges : List Edge) (value : ℕ → ℚ → Prop) (f : Dict Edge ℚ) : Prop :=
  Dict.keys f = edges ∧ ∀ (i : ℕ) (e : Edge), edges[i]? = some e → ∃ v, value i v ∧ f.get? e = some v

/-- `v` stands in row `i` of the first column -/
def InFirstColumn (c : CsvMat ℚ) (i : ℕ) (v : ℚ) : Prop :=
  ∃ (hi : i < c.m) (h0 : 0 < c.n), v = c.M ⟨i, hi⟩ ⟨0, h0⟩

/-- `v` is number `i` when the file is read row by row -/
def InReadingOrder (c : CsvMat ℚ) (i : ℕ) (v : ℚ) : Prop :=
  ∃ (r : Fin c.m) (k : Fin c.n), i = r * c.n + k ∧ v = c.M r k

/-- column `j` of an incidence matrix: the first `-1` is at the tail, the first `1` at the head -/
def ColumnEdge {m n : ℕ} (M : Matrix (Fin m) (Fin n) ℚ) (j : Fin n) (e : Edge) : Prop :=
  ∃ u v : Fin m, e = (((u : ℕ) : Int), ((v : ℕ) : Int)) ∧
    M u j = -1 ∧ (∀ i < u, M i j ≠ -1) ∧ M v j = 1 ∧ ∀ i < v, M i j ≠ 1

/-- row `k` of a transposed second incidence matrix: the vertices of the edges with a non-zero entry,
increasing -/
def RowTriangle (edges : List Edge) {m n : ℕ} (M : Matrix (Fin m) (Fin n) ℚ) (k : Fin m) (t : List Int) : Prop :=
  t.Pairwise (· < ·) ∧ ∀ v, v ∈ t ↔ ∃ (j : Fin n) (e : Edge), M k j ≠ 0 ∧ edges[(j : ℕ)]? = some e ∧ (v = e.1 ∨ v = e.2)

/-- nodes and edges of an incidence matrix: the edges of its columns; nodes from 0 to the largest index -/
def GraphOfMatrix {m n : ℕ} (M : Matrix (Fin m) (Fin n) ℚ) (columns : List Edge) (nodes : List Int) : Prop :=
  List.Forall₂ (fun j e => ColumnEdge M j e) (List.finRange n) columns ∧
    ∃ top, LargestId columns top ∧ nodes = (List.range (top + 1).toNat).map fun i : ℕ => (i : Int)

/-- loss of head along a pipe with resistance `h` and flow rate `q`: it opposes the flow -/
noncomputable def headLoss (h q : ℝ) : ℝ :=
  if 0 ≤ q then -(h * q ^ (1.852 : ℝ)) else h * (-q) ^ (1.852 : ℝ)

end Pytspl
