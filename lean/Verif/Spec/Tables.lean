import Verif.Model.NetworkReader
import Mathlib.Data.Rat.Floor

/-!
# What the readers should return, in terms of the rows of the file
-/

namespace Pytspl

/-- strictly increasing in lexicographic order -/
def StrictlySorted (edges : List Edge) : Prop :=
  edges.Pairwise fun e f => e.1 < f.1 ∨ (e.1 = f.1 ∧ e.2 < f.2)

instance (edges : List Edge) : Decidable (StrictlySorted edges) := by
  unfold StrictlySorted; infer_instance

/-- `a` is `q` without its fractional part -/
def Truncates (q : ℚ) (a : Int) : Prop := (0 ≤ q ∧ a = ⌊q⌋) ∨ (q ≤ 0 ∧ a = ⌈q⌉)

/-- the number written with these decimal digits -/
def decimal (ds : List (Fin 10)) : ℕ := ds.foldl (fun (n : ℕ) (d : Fin 10) => 10 * n + (d : ℕ)) 0

/-- the text is the integer `a`: blanks, a sign or none, groups of digits separated by single underscores, blanks -/
def IntText (s : String) (a : Int) : Prop :=
  ∃ (w w' sign : List Char) (groups : List (List (Fin 10))),
    s.toList = w ++ (sign ++
      ['_'].intercalate (groups.map fun g => g.map fun d : Fin 10 => Char.ofNat (48 + (d : ℕ))) ++ w') ∧
    (∀ c ∈ w ++ w', pySpace c = true) ∧ groups ≠ [] ∧ (∀ g ∈ groups, g ≠ []) ∧
    ((sign = ['-'] ∧ a = -(decimal groups.flatten : Int)) ∨
      ((sign = [] ∨ sign = ['+']) ∧ a = decimal groups.flatten))

/-- the cell stands for the integer `a`: a number with that integer part, or a text that is that integer -/
def IdOf (c : Cell) (a : Int) : Prop :=
  (∃ q, c = .num q ∧ Truncates q a) ∨ ∃ s, c = .str s ∧ IntText s a

/-- the two columns of the row hold the integers `a` and `b` -/
def RowHolds (src dst : String) (row : Dict String Cell) (a b : Int) : Prop :=
  ∃ c d, row.get? src = some c ∧ row.get? dst = some d ∧ IdOf c a ∧ IdOf d b

/-- `links` are the zero-based links described by the rows, in row order: ids in the file count from 0
if `zero`, else from 1 -/
def Links (t : Table) (src dst : String) (zero : Bool) (links : List Edge) : Prop :=
  List.Forall₂ (fun row l => RowHolds src dst row (if zero then l.1 else l.1 + 1)
    (if zero then l.2 else l.2 + 1)) t.rows links

/-- link `e` is in the list and the pair was not linked before, in either direction -/
def FirstSeen (links : List Edge) (e : Edge) : Prop :=
  ∃ pre post, links = pre ++ e :: post ∧ e ∉ pre ∧ e.swap ∉ pre

/-- `m` is the largest node id of the links -/
def LargestId (links : List Edge) (m : Int) : Prop :=
  (∃ l ∈ links, l.1 = m ∨ l.2 = m) ∧ ∀ l ∈ links, l.1 ≤ m ∧ l.2 ≤ m

end Pytspl
