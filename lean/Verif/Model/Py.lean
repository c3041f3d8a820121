import Mathlib.Data.Matrix.Mul
import Mathlib.Data.Rat.Defs
import Mathlib.Algebra.Order.Ring.Rat
import Mathlib.Data.List.Lex
import Mathlib.Data.List.Sort

/-!
# Python primitives used by the model

Exceptions are values; every primitive below models a builtin of Python, numpy or
pandas that the modelled code relies on, so it has no line of its own in `/repo`;
the comment names a place where the code uses it.
-/

namespace Pytspl

/-- Exception classes raised on the modelled paths.  `nonFinite` is not a Python
exception: it marks a computation whose floating point result is inf/nan
(e.g. simplicial_complex.py:168 (`IndexError`), dataset_loader.py:53 (`ValueError`)). -/
inductive PyErr
  | indexError | valueError | keyError | typeError | assertionError
  | unboundLocalError | zeroDivisionError | attributeError | linAlgError
  | fileNotFoundError | dcpError | runtimeError | nonFinite
  deriving DecidableEq, Repr

/-- A Python computation that may raise (exceptions as values) (e.g. dataset_loader.py:33-74). -/
abbrev Py (α : Type) := Except PyErr α

deriving instance DecidableEq for Except

/-- An edge as stored by the library: an ordered pair of node labels (simplicial_complex.py:49). -/
abbrev Edge := Int × Int

/-- numpy integer indexing along an axis of length `n`, as in
`B1[from_node, j] = -1` (pytspl/simplicial_complex/simplicial_complex.py:83):
`0 ≤ i < n` is position `i`, `-n ≤ i < 0` is position `n + i`, anything else
raises `IndexError`. -/
def npIdx (n : ℕ) (i : Int) : Py (Fin n) :=
  if h : 0 ≤ i ∧ i < n then .ok ⟨i.toNat, by omega⟩
  else if h : -(n : Int) ≤ i ∧ i < 0 then .ok ⟨(i + n).toNat, by omega⟩
  else .error .indexError

/-- `list.index(x)`: position of the first occurrence, `ValueError` if absent, as in
`edges.index((a, b))` (simplicial_complex.py:102). -/
def listIndex {α : Type} [DecidableEq α] (l : List α) (x : α) : Py (Fin l.length) :=
  if h : l.idxOf x < l.length then .ok ⟨l.idxOf x, h⟩ else .error .valueError

/-- `try: l.index(x) except ValueError: l.index(y)` (simplicial_complex.py:101-104). -/
def listIndexOr {α : Type} [DecidableEq α] (l : List α) (x y : α) : Py (Fin l.length) :=
  match listIndex l x with
  | .ok i => .ok i
  | .error _ => listIndex l y

/-- `M[i, j] = x` on a dense numpy matrix (simplicial_complex.py:83). -/
def setEntry {m n : ℕ} {K : Type} (M : Matrix (Fin m) (Fin n) K) (i : Fin m) (j : Fin n) (x : K) :
    Matrix (Fin m) (Fin n) K :=
  Matrix.of fun i' j' => if i' = i ∧ j' = j then x else M i' j'

/-- A value of a pandas/networkx feature table: a number, a string, or the NaN pandas puts for a missing
entry (network_reader.py:92).  Every finite double is a rational number, and comparison is exact;
simplification: no infinities. -/
inductive Cell
  | num (q : ℚ)
  | str (s : String)
  | nan
  deriving DecidableEq

/-- Python truthiness of a cell (scbuilder.py:68-72); NaN is true. -/
def Cell.truthy : Cell → Bool
  | .num q => decide (q ≠ 0)
  | .str s => decide (s ≠ "")
  | .nan => true

/-- `cell < eps` for a float `eps` (scbuilder.py:77-81); comparing a string with a
number raises `TypeError`, comparing NaN gives `False`. -/
def Cell.lt : Cell → ℚ → Py Bool
  | .num q, e => .ok (decide (q < e))
  | .str _, _ => .error .typeError
  | .nan, _ => .ok false

/-- `str.isspace()` of one character, as used by `s.strip()` (network_reader.py:95, 274) and by `int(s)`. -/
def pySpace (c : Char) : Bool :=
  let n := c.toNat
  n == 32 || decide (9 ≤ n ∧ n ≤ 13) || decide (28 ≤ n ∧ n ≤ 31) || n == 0x85 || n == 0xa0 || n == 0x1680 ||
    decide (0x2000 ≤ n ∧ n ≤ 0x200a) || n == 0x2028 || n == 0x2029 || n == 0x202f || n == 0x205f || n == 0x3000

/-- `s.strip()` (network_reader.py:95, 274). -/
def pyStrip (s : String) : String :=
  String.ofList (((s.toList.dropWhile pySpace).reverse.dropWhile pySpace).reverse)

/-- The digits of `int(s)` (network_reader.py:45-46): digits, with single underscores between digits; `n` is the
number so far, `after` says whether the last character was a digit.  Simplification: ASCII digits only. -/
def pyDigits (n : ℕ) (after : Bool) : List Char → Option ℕ
  | [] => if after then some n else none
  | c :: cs =>
    if c.isDigit then pyDigits (10 * n + (c.toNat - 48)) true cs
    else if c = '_' ∧ after = true then pyDigits n false cs
    else none

/-- The number `int(s)` gives for a string (network_reader.py:45-46), `none` if it raises `ValueError`. -/
def pyIntText (s : String) : Option Int :=
  match (pyStrip s).toList with
  | [] => none
  | c :: cs =>
    if c = '-' then (pyDigits 0 false cs).map fun n : ℕ => -(n : Int)
    else if c = '+' then (pyDigits 0 false cs).map fun n : ℕ => (n : Int)
    else (pyDigits 0 false (c :: cs)).map fun n : ℕ => (n : Int)

/-- `int(x)` on a table value (network_reader.py:45-46): a number is truncated towards zero, a string is
parsed; NaN raises `ValueError`. -/
def Cell.toInt : Cell → Py Int
  | .num q => .ok (q.num.tdiv q.den)
  | .str s => match pyIntText s with
    | some a => .ok a
    | none => .error .valueError
  | .nan => .error .valueError

/-- An insertion-ordered Python dict, as an association list (e.g. scbuilder.py:33-34). -/
abbrev Dict (κ ν : Type) := List (κ × ν)

namespace Dict
variable {κ ν : Type} [DecidableEq κ]

/-- `d.get(k)` (lookups such as scbuilder.py:69). -/
def get? : Dict κ ν → κ → Option ν
  | [], _ => none
  | (k', v) :: d, k => if k' = k then some v else get? d k

/-- `d[k]`, `KeyError` when absent (scbuilder.py:69). -/
def getItem (d : Dict κ ν) (k : κ) : Py ν :=
  match d.get? k with
  | some v => .ok v
  | none => .error .keyError

/-- `d[k] = v`: overwrite in place, else append at the end (e.g. network_reader.py:116-119). -/
def set : Dict κ ν → κ → ν → Dict κ ν
  | [], k, v => [(k, v)]
  | (k', v') :: d, k, v => if k' = k then (k', v) :: d else (k', v') :: set d k v

/-- `dict(pairs)` / dict comprehension: later pairs overwrite earlier ones
(network_reader.py:284, plot.py:87). -/
def ofPairs (l : List (κ × ν)) : Dict κ ν := l.foldl (fun d p => d.set p.1 p.2) []

/-- `d.keys()` (e.g. simplicial_trend_filter.py:202). -/
def keys (d : Dict κ ν) : List κ := d.map Prod.fst

/-- `d.values()` (e.g. plot.py:277). -/
def values (d : Dict κ ν) : List ν := d.map Prod.snd

end Dict

/-- `itertools.combinations(l, r)` in its order (simplicial_complex.py:206). -/
def combinations {α : Type} : List α → ℕ → List (List α)
  | _, 0 => [[]]
  | [], _ + 1 => []
  | x :: xs, r + 1 => (combinations xs r).map (x :: ·) ++ combinations xs (r + 1)

/-- `sorted(xs)` for ints (scbuilder.py:48); like the other sorts below an insertion sort, any stable
sort gives the same list. -/
def sortedInts (l : List Int) : List Int := l.insertionSort fun a b => a ≤ b

/-- `sorted(list_of_tuples)`: lexicographic order (simplicial_complex.py:209). -/
def sortedTuples (l : List (List Int)) : List (List Int) :=
  l.insertionSort fun a b => a ≤ b

/-- lexicographic `≤` of Python pairs of ints (e.g. network_reader.py:62). -/
def pairLe (a b : Int × Int) : Bool := decide (a.1 < b.1) || (decide (a.1 = b.1) && decide (a.2 ≤ b.2))

/-- `edges.sort()` on a list of int pairs (network_reader.py:62). -/
def sortedPairs (l : List (Int × Int)) : List (Int × Int) :=
  l.insertionSort fun a b => pairLe a b = true

/-- `s.add(x)` for a set kept as a duplicate-free list (simplicial_complex.py:207). -/
def setAdd {α : Type} [DecidableEq α] (s : List α) (x : α) : List α :=
  if x ∈ s then s else s ++ [x]

end Pytspl
