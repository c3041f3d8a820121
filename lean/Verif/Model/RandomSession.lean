import Verif.Model.DataLoaders

/-!
# `pytspl/io/sc_generator.py` and the random generators it draws from

Python's module `random` and numpy's `np.random` each have one generator per process. Its state survives a call, and the
user can reset it with `random.seed` and `np.random.seed`.
-/

namespace Pytspl

/-- The random generators of a process.  `graph n p seed` is `list(nx.erdos_renyi_graph(n, p, seed).edges())`
(sc_generator.py:24): for an integer seed networkx makes a generator of its own, so the graph depends on the arguments
only.  `random` is `random.random()` (sc_generator.py:29).  `layout` is `nx.spring_layout` (sc_generator.py:48), which
without a seed draws from numpy's generator and gives every node a position. -/
structure RandomLib where
  PyState : Type
  NpState : Type
  seedPy : Int → PyState
  seedNp : Int → NpState
  random : PyState → ℚ × PyState
  range : ∀ s, 0 ≤ (random s).1 ∧ (random s).1 < 1
  graph : ℕ → ℚ → Int → List Edge
  edges : ∀ n p seed, ∀ e ∈ graph n p seed, 0 ≤ e.1 ∧ e.1 < e.2 ∧ e.2 < n
  nodup : ∀ n p seed, (graph n p seed).Nodup
  layout : NpState → List Int → List Edge → Dict Int (ℚ × ℚ) × NpState
  keys : ∀ s nodes es, (layout s nodes es).1.map Prod.fst = nodes

/-- The states of the two generators (drawn from in sc_generator.py:29, 48). -/
structure RandomState (lib : RandomLib) where
  py : lib.PyState
  np : lib.NpState

/-- sc_generator.py:29 `[random.random() for i in range(..)]`. -/
def RandomLib.draws (lib : RandomLib) : ℕ → lib.PyState → List ℚ × lib.PyState
  | 0, s => ([], s)
  | k + 1, s =>
    let r := lib.random s
    let rest := lib.draws k r.2
    (r.1 :: rest.1, rest.2)

/-- sc_generator.py:8-50 `generate_random_simplicial_complex`. -/
def RandomLib.generate (K : Type) [CommRing K] (lib : RandomLib) (n : ℕ) (p eps : ℚ) (seed : Int) (w : RandomState lib) :
    Py (SC K × Dict Int (ℚ × ℚ)) × RandomState lib :=
  let edges := lib.graph n p seed
  let r := lib.draws edges.length w.py
  match generateRandomSimplicialComplex K n edges r.1 eps with
  | .error e => (.error e, ⟨r.2, w.np⟩)
  | .ok sc =>
    let c := lib.layout w.np (pyRange n) edges
    (.ok (sc, c.1), ⟨r.2, c.2⟩)

/-- What a user does with random numbers: seed the generators (`random.seed`, `np.random.seed`), generate a complex
(sc_generator.py:8), or anything that draws from the generators, such as the trend filters
(simplicial_trend_filter.py:227, 329, 436). -/
inductive RandomCall (lib : RandomLib)
  | seedPy (s : Int)
  | seedNp (s : Int)
  | generate (n : ℕ) (p eps : ℚ) (seed : Int)
  | draw (f : RandomState lib → RandomState lib)

/-- One call: the complex returned, if it is a call of the generator (sc_generator.py:8-50). -/
def RandomLib.exec (K : Type) [CommRing K] (lib : RandomLib) (w : RandomState lib) :
    RandomCall lib → Option (Py (SC K × Dict Int (ℚ × ℚ))) × RandomState lib
  | .seedPy s => (none, ⟨lib.seedPy s, w.np⟩)
  | .seedNp s => (none, ⟨w.py, lib.seedNp s⟩)
  | .generate n p eps seed =>
    let r := lib.generate K n p eps seed w
    (some r.1, r.2)
  | .draw f => (none, f w)

/-- A program: what its calls return, and the states at the end (sc_generator.py:8-50). -/
def RandomLib.run (K : Type) [CommRing K] (lib : RandomLib) :
    List (RandomCall lib) → RandomState lib → List (Option (Py (SC K × Dict Int (ℚ × ℚ)))) × RandomState lib
  | [], w => ([], w)
  | c :: cs, w =>
    let r := lib.exec K w c
    let rest := RandomLib.run K lib cs r.2
    (r.1 :: rest.1, rest.2)

end Pytspl
