import Verif.Props.Operators
import Verif.Spec.Samples

/-!
# C136: the printed summary
-/

namespace Pytspl

variable {K : Type} [Field K] [DecidableEq K]

private theorem nat_text {a b : ℕ} (h : toString a = toString b) : a = b := by
  have h1 : Nat.repr a = Nat.repr b := h
  rw [Nat.repr_eq_ofList_toDigits, Nat.repr_eq_ofList_toDigits, String.ofList_inj] at h1
  rw [← Nat.ofDigitChars_toDigits (b := 10) (n := a) (by norm_num) le_rfl, h1,
    Nat.ofDigitChars_toDigits (by norm_num) le_rfl]

/-- C136: the summary starts with the numbers of nodes, edges and triangles, so two complexes with the same printed
text have the same shape. -/
theorem C136_text (sc sc' : SC K) :
    (∃ rest, sc.printSummary.1 = ["Num. of nodes: " ++ toString sc.nodes.length,
      "Num. of edges: " ++ toString sc.edges.length, "Num. of triangles: " ++ toString sc.triangles.length] ++ rest) ∧
    (sc.printSummary.1 = sc'.printSummary.1 → sc.shape = sc'.shape) := by
  have key : ∀ s : SC K, ∃ rest, s.printSummary.1 = ["Num. of nodes: " ++ toString s.nodes.length,
      "Num. of edges: " ++ toString s.edges.length, "Num. of triangles: " ++ toString s.triangles.length] ++ rest := by
    intro s
    unfold SC.printSummary
    cases s.maxDim <;> exact ⟨_, rfl⟩
  refine ⟨key sc, fun h => ?_⟩
  obtain ⟨r, hr⟩ := key sc
  obtain ⟨r', hr'⟩ := key sc'
  rw [hr, hr'] at h
  simp only [List.cons_append, List.cons.injEq, String.append_right_inj] at h
  obtain ⟨h1, h2, h3, -⟩ := h
  unfold SC.shape
  rw [nat_text h1, nat_text h2, nat_text h3]

/-- C136: for a constructed complex the last line names the dimension of the largest simplices; only the empty complex
makes the call raise, after four lines. -/
theorem C136_dimension (sc : SC K) (hb : sc.Built) :
    (sc.printSummary.2 = .ok () ↔ sc.shape ≠ (0, 0, 0)) ∧
    (sc.shape = (0, 0, 0) → sc.printSummary.2 = .error .valueError ∧ sc.printSummary.1.length = 4) ∧
    (sc.shape ≠ (0, 0, 0) → sc.printSummary.1.length = 5 ∧ sc.printSummary.1.getLast? =
      some (if sc.triangles ≠ [] then "Max Dimension: 2" else if sc.edges ≠ [] then "Max Dimension: 1"
        else "Max Dimension: 0")) := by
  obtain ⟨h2, h1, h0, he⟩ := C06_max_dim sc hb
  have hs : sc.shape = (0, 0, 0) ↔ sc.nodes = [] ∧ sc.edges = [] ∧ sc.triangles = [] := by
    simp [SC.shape, Prod.ext_iff]
  unfold SC.printSummary
  by_cases ht : sc.triangles = []
  · by_cases hE : sc.edges = []
    · by_cases hn : sc.nodes = []
      · rw [he ht hE hn]
        simp [hs, ht, hE, hn]
      · rw [h0 ht hE hn]
        simp [hs, ht, hE, hn]
        rfl
    · rw [h1 ht hE]
      simp [hs, ht, hE]
      rfl
  · rw [h2 ht]
    simp [hs, ht]
    rfl

/-- C136: two constructed complexes with the same shape print the same summary, with the same outcome. -/
theorem C136_same (sc sc' : SC K) (hb : sc.Built) (hb' : sc'.Built) :
    sc.printSummary = sc'.printSummary ↔ sc.shape = sc'.shape := by
  refine ⟨fun h => (C136_text sc sc').2 (by rw [h]), fun h => ?_⟩
  obtain ⟨h2, h1, h0, he⟩ := C06_max_dim sc hb
  obtain ⟨h2', h1', h0', he'⟩ := C06_max_dim sc' hb'
  simp only [SC.shape, Prod.mk.injEq] at h
  obtain ⟨e1, e2, e3⟩ := h
  have hd : sc.maxDim = sc'.maxDim := by
    have nil : ∀ {α β : Type} {l : List α} {l' : List β}, l.length = l'.length → (l = [] ↔ l' = []) := by
      intro α β l l' hl
      rw [← List.length_eq_zero_iff, hl, List.length_eq_zero_iff]
    by_cases ht : sc.triangles = []
    · by_cases hE : sc.edges = []
      · by_cases hn : sc.nodes = []
        · rw [he ht hE hn, he' ((nil e3).1 ht) ((nil e2).1 hE) ((nil e1).1 hn)]
        · rw [h0 ht hE hn, h0' ((nil e3).1 ht) ((nil e2).1 hE) (mt (nil e1).2 hn)]
      · rw [h1 ht hE, h1' ((nil e3).1 ht) (mt (nil e2).2 hE)]
    · rw [h2 ht, h2' (mt (nil e3).2 ht)]
  unfold SC.printSummary
  rw [hd, e1, e2, e3]

/-- the summary of a network with five nodes, six edges and a triangle -/
example : ∃ sc : SC ℚ, sc.Built ∧ sc.printSummary = (["Num. of nodes: 5", "Num. of edges: 6", "Num. of triangles: 1",
    "Shape: (5, 6, 1)", "Max Dimension: 2"], .ok ()) := by
  obtain ⟨sc, hw, -, h1, h2, h3⟩ := sample_wellFormed ℚ
  refine ⟨sc, hw.built, ?_⟩
  have hd := (C06_max_dim sc hw.built).1 (by rw [h3]; decide)
  unfold SC.printSummary
  rw [hd, h1, h2, h3]
  decide +kernel

end Pytspl
