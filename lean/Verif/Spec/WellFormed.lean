import Verif.Model.SimplicialComplex
import Verif.Spec.Complex

/-!
# Complexes the theorems quantify over
-/

namespace Pytspl

variable {K : Type} [CommRing K]

/-- `sc` came out of the constructor, on ordinary node numbers, without self-loops, with
every triangle's edges stored in the order of the triangle's vertices ("consistently oriented"). -/
structure SC.WellFormed (sc : SC K) : Prop where
  built : sc.Built
  inRange : EdgesInRange sc.nodes.length sc.edges
  noLoops : NoLoops sc.edges
  oriented : Oriented sc.edges sc.triangles

/-- `sc` came out of the constructor, on a simple graph (no loops, no repeated edges); the
stored orientations are arbitrary. -/
structure SC.OnSimpleGraph (sc : SC K) : Prop where
  built : sc.Built
  inRange : EdgesInRange sc.nodes.length sc.edges
  noLoops : NoLoops sc.edges
  noRepeats : NoRepeats sc.edges

end Pytspl
