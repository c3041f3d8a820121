import Verif.Model.Py

/-!
# Specification vocabulary for complexes

Only lists of edges and triangles are mentioned: nothing here depends on how the code
builds or stores its matrices.
-/

namespace Pytspl

/-- node label `u` names row `i` of an array with `n` rows (negative labels wrap, as in numpy) -/
def NamesRow {n : ℕ} (u : Int) (i : Fin n) : Prop := u = (i : ℕ) ∨ u = (i : ℕ) - (n : Int)

/-- the label is a valid numpy index for `n` rows -/
def ValidLabel (n : ℕ) (u : Int) : Prop := -(n : Int) ≤ u ∧ u < n

/-- all endpoints are ordinary node numbers `0 .. n-1` -/
def EdgesInRange (n : ℕ) (edges : List Edge) : Prop :=
  ∀ e ∈ edges, (0 ≤ e.1 ∧ e.1 < n) ∧ (0 ≤ e.2 ∧ e.2 < n)

/-- no edge joins a node to itself -/
def NoLoops (edges : List Edge) : Prop := ∀ e ∈ edges, e.1 ≠ e.2

/-- no undirected edge is listed twice, in either orientation -/
def NoRepeats (edges : List Edge) : Prop := edges.Pairwise fun e f => e ≠ f ∧ e ≠ f.swap

/-- every edge is stored as (smaller, larger) -/
def Ascending (edges : List Edge) : Prop := ∀ e ∈ edges, e.1 < e.2

/-- nodes `u` and `v` are joined by an edge, whatever its stored orientation -/
def Joined (edges : List Edge) (u v : Int) : Prop := (u, v) ∈ edges ∨ (v, u) ∈ edges

/-- the triangle `[a,b,c]` has its three edges stored as `(a,b)`, `(b,c)`, `(a,c)` -/
def TriOriented (edges : List Edge) (t : List Int) : Prop :=
  ∃ a b c, t = [a, b, c] ∧ (a, b) ∈ edges ∧ (b, c) ∈ edges ∧ (a, c) ∈ edges

/-- the triangle is a triple whose three edges are present, in whatever orientation -/
def TriPresent (edges : List Edge) (t : List Int) : Prop :=
  ∃ a b c, t = [a, b, c] ∧ Joined edges a b ∧ Joined edges b c ∧ Joined edges a c

/-- every triangle's edges are stored in the order of the triangle's vertices -/
def Oriented (edges : List Edge) (triangles : List (List Int)) : Prop :=
  ∀ t ∈ triangles, TriOriented edges t

instance (n : ℕ) (edges : List Edge) : Decidable (EdgesInRange n edges) := by
  unfold EdgesInRange; infer_instance
instance (edges : List Edge) : Decidable (NoLoops edges) := by
  unfold NoLoops; infer_instance
instance (edges : List Edge) : Decidable (NoRepeats edges) := by
  unfold NoRepeats; infer_instance
instance (edges : List Edge) : Decidable (Ascending edges) := by
  unfold Ascending; infer_instance
instance (edges : List Edge) (u v : Int) : Decidable (Joined edges u v) := by
  unfold Joined; infer_instance

/-- value of a node signal at node label `u` (used for labels in range only) -/
def valueAt {n : ℕ} {K : Type} [Zero K] (x : Fin n → K) (u : Int) : K :=
  if h : 0 ≤ u ∧ u < n then x ⟨u.toNat, by omega⟩ else 0

end Pytspl
