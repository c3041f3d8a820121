import Verif.Lemmas.Incidence

/-!
# Sample complexes used to show that hypotheses can be met
-/

namespace Pytspl

/-- nodes of the sample complex -/
def sampleNodes : List Int := [0, 1, 2, 3, 4]
/-- edges of the sample complex: a triangle 0-1-2 glued to a hollow square 1-2-4-3 -/
def sampleEdges : List Edge := [(0, 1), (0, 2), (1, 2), (1, 3), (2, 4), (3, 4)]
/-- its filled triangle -/
def sampleTriangles : List (List Int) := [[0, 1, 2]]

theorem sample_wellFormed (K : Type) [CommRing K] : ∃ sc : SC K, sc.WellFormed ∧
    sc.OnSimpleGraph ∧
    sc.nodes = sampleNodes ∧ sc.edges = sampleEdges ∧ sc.triangles = sampleTriangles := by
  obtain ⟨sc, h, hw⟩ := SC.exists_wellFormed K sampleNodes sampleEdges sampleTriangles [] []
    (by decide) (by decide) (by
      intro t ht
      simp only [sampleTriangles, List.mem_cons, List.not_mem_nil, or_false] at ht
      subst ht
      exact ⟨0, 1, 2, rfl, by decide, by decide, by decide⟩)
  obtain ⟨h1, h2, h3, -, -, -⟩ := SC.init_ok h
  exact ⟨sc, hw, ⟨hw.built, hw.inRange, hw.noLoops, by rw [h2]; decide⟩, h1, h2, h3⟩

/-- a single triangle whose first edge is stored descending -/
theorem descending_onSimpleGraph (K : Type) [CommRing K] : ∃ sc : SC K, sc.OnSimpleGraph ∧
    sc.nodes = [0, 1, 2] ∧ sc.edges = [(1, 0), (1, 2), (0, 2)] ∧ sc.triangles = [[0, 1, 2]] := by
  obtain ⟨sc, h, hw⟩ := SC.exists_simple K [0, 1, 2] [(1, 0), (1, 2), (0, 2)] [[0, 1, 2]] [] []
    (by decide) (by decide) (by decide) (by
      intro t ht
      simp only [List.mem_cons, List.not_mem_nil, or_false] at ht
      subst ht
      exact ⟨0, 1, 2, rfl, by decide, by decide, by decide⟩)
  obtain ⟨h1, h2, h3, -, -, -⟩ := SC.init_ok h
  exact ⟨sc, hw, h1, h2, h3⟩

/-- an unfilled square -/
theorem square_wellFormed (K : Type) [CommRing K] : ∃ sc : SC K, sc.WellFormed ∧
    sc.nodes = [0, 1, 2, 3] ∧ sc.edges = [(0, 1), (1, 2), (2, 3), (3, 0)] ∧ sc.triangles = [] := by
  obtain ⟨sc, h, hw⟩ := SC.exists_wellFormed K [0, 1, 2, 3] [(0, 1), (1, 2), (2, 3), (3, 0)] [] [] []
    (by decide) (by decide) (by
      intro t ht
      simp at ht)
  obtain ⟨h1, h2, h3, -, -, -⟩ := SC.init_ok h
  exact ⟨sc, hw, h1, h2, h3⟩

end Pytspl
