import Verif.Lemmas.Readers
import Verif.Lemmas.Incidence
import Mathlib.Algebra.CharZero.Defs

/-!
# Properties of the incidence matrix reader: C40
-/

namespace Pytspl

variable {K : Type} [CommRing K] [DecidableEq K]

private theorem bind_ok {α β : Type} {x : Py α} {f : α → Py β} {r : β} (h : (x >>= f) = .ok r) :
    ∃ a, x = .ok a ∧ f a = .ok r := by
  cases x with
  | error e => cases h
  | ok a => exact ⟨a, rfl, h⟩

omit [CommRing K] in
private theorem first_of_unique {m n : ℕ} (M : Matrix (Fin m) (Fin n) K) (j : Fin n) (x : K) (u : Fin m)
    (h : ∀ i, M i j = x ↔ i = u) : firstItem (whereEq M j x) = .ok u := by
  have hm : ∀ i, i ∈ whereEq M j x ↔ i = u := by
    intro i
    simp [whereEq, h]
  cases hl : whereEq M j x with
  | nil =>
    have := (hm u).mpr rfl
    rw [hl] at this
    simp at this
  | cons a l =>
    have := (hm a).mp (by rw [hl]; simp)
    rw [this]
    rfl

private theorem map_finRange_getElem {α : Type} (l : List α) :
    (List.finRange l.length).map (fun j => l[j]) = l := by
  apply List.ext_getElem
  · simp
  · intro i h1 h2
    simp

theorem mem_nodeSet (edges : List Edge) (v : Int) :
    v ∈ nodeSet edges ↔ ∃ e ∈ edges, e.1 = v ∨ e.2 = v := by
  have key : ∀ (l : List Edge) (s : List Int),
      v ∈ l.foldl (fun s e => setAdd (setAdd s e.1) e.2) s ↔ v ∈ s ∨ ∃ e ∈ l, e.1 = v ∨ e.2 = v := by
    intro l
    induction l with
    | nil => simp
    | cons e l ih =>
      intro s
      rw [List.foldl_cons, ih]
      simp only [mem_setAdd, List.mem_cons, exists_eq_or_imp, @eq_comm _ v, or_assoc]
  rw [nodeSet, key]
  simp

theorem nodup_nodeSet (edges : List Edge) : (nodeSet edges).Nodup := by
  have key : ∀ (l : List Edge) (s : List Int), s.Nodup →
      (l.foldl (fun s e => setAdd (setAdd s e.1) e.2) s).Nodup := by
    intro l
    induction l with
    | nil => simp
    | cons e l ih =>
      intro s hs
      exact ih _ (nodup_setAdd (nodup_setAdd hs _) _)
  exact key edges [] (by simp)

/-- the edges written to the incidence matrix are read back column by column -/
theorem edgesOfColumns_B1 [CharZero K] {sc : SC K} (hb : sc.Built)
    (hr : EdgesInRange sc.nodes.length sc.edges) (hl : NoLoops sc.edges) :
    edgesOfColumns sc.B1 = .ok sc.edges := by
  unfold edgesOfColumns
  rw [mapM_ok _ _ fun j => sc.edges[j]]
  · rw [map_finRange_getElem]
  · intro j _
    obtain ⟨u, v, hu, hv, hB⟩ := edgesToB1_ok_entry hb.b1 j
    have hm : sc.edges[j] ∈ sc.edges := List.getElem_mem _
    obtain ⟨⟨a0, a1⟩, b0, b1⟩ := hr _ hm
    have hne := hl _ hm
    have hu' : sc.edges[j].1 = (u : ℕ) := by
      rcases npIdx_ok_iff.mp hu with h | h
      · exact h
      · have := u.2; omega
    have hv' : sc.edges[j].2 = (v : ℕ) := by
      rcases npIdx_ok_iff.mp hv with h | h
      · exact h
      · have := v.2; omega
    have huv : u ≠ v := by
      rintro rfl
      exact hne (hu'.trans hv'.symm)
    have h1 : (1 : K) ≠ -1 := by
      intro h
      have : (2 : K) = 0 := by linear_combination h
      exact two_ne_zero this
    rw [first_of_unique sc.B1 j (-1) u (by
        intro i
        rw [hB i]
        by_cases hiv : i = v
        · subst hiv
          simp only [if_true]
          exact ⟨fun h => absurd h h1, fun h => absurd h.symm huv⟩
        · rw [if_neg hiv]
          by_cases hiu : i = u
          · simp [hiu]
          · rw [if_neg hiu]
            simp [hiu, eq_comm]),
      first_of_unique sc.B1 j 1 v (by
        intro i
        rw [hB i]
        by_cases hiv : i = v
        · simp [hiv]
        · rw [if_neg hiv]
          by_cases hiu : i = u
          · simp only [if_pos hiu, hiv, iff_false]
            exact fun h => h1 h.symm
          · rw [if_neg hiu]
            simp [hiv])]
    simp only [bind, Except.bind, pure, Except.pure, ← hu', ← hv']

/-- the vertices of a triangle are read back from its column -/
theorem triangleOfColumn_B2 [CharZero K] {sc : SC K} (hb : sc.Built) (ha : Ascending sc.edges)
    (j : Fin sc.triangles.length) {a b c : Int} (ht : sc.triangles[j] = [a, b, c]) (hab : a < b)
    (hbc : b < c) : triangleOfColumn sc.edges sc.B2 j = .ok [a, b, c] := by
  obtain ⟨a', b', c', ia, ib, ic, h0, h1, h2, h3, hB⟩ := trianglesToB2_ok_entry hb.b2 j
  rw [ht] at h0
  simp only [List.cons.injEq, and_true] at h0
  obtain ⟨rfl, rfl, rfl⟩ := h0
  have get : ∀ {u v : Int} {k : Fin sc.edges.length}, u < v →
      listIndexOr sc.edges (u, v) (v, u) = .ok k → sc.edges[k] = (u, v) := by
    intro u v k huv hk
    rcases listIndexOr_get hk with h | ⟨-, h⟩
    · exact h
    · have := ha _ (List.getElem_mem k.2)
      have h' : sc.edges[(k : ℕ)] = (v, u) := h
      rw [h'] at this
      simp only at this
      omega
  have e1 := get hab h1
  have e2 := get hbc h2
  have e3 := get (show a < c by omega) h3
  have hnz : ∀ i, sc.B2 i j ≠ 0 ↔ i = ia ∨ i = ib ∨ i = ic := by
    intro i
    rw [hB i]
    by_cases x : i = ib
    · simp [x]
    by_cases y : i = ic
    · rw [if_neg x, if_pos y]; simp [y]
    by_cases z : i = ia
    · rw [if_neg x, if_neg y, if_pos z]; simp [z]
    · simp [x, y, z]
  unfold triangleOfColumn
  simp only
  rw [mapM_ok _ _ (fun i : Fin sc.edges.length => sc.edges[i]) (by
    intro i _
    simp [Fin.getElem_fin])]
  simp only [bind, Except.bind, pure, Except.pure, Except.ok.injEq]
  apply sorted_unique (sortedInts_pairwise _)
  · simp only [List.pairwise_cons, List.mem_cons, List.not_mem_nil, or_false, forall_eq_or_imp, forall_eq]
    refine ⟨by omega, by omega, by simp, by simp⟩
  · refine (sortedInts_perm _).trans ?_
    rw [List.perm_ext_iff_of_nodup (nodup_nodeSet _) (by simp; omega)]
    intro v
    rw [mem_nodeSet]
    constructor
    · rintro ⟨e, he, hv⟩
      obtain ⟨i, hi, rfl⟩ := List.mem_map.mp he
      have hi' := of_decide_eq_true (List.mem_filter.mp hi).2
      rcases (hnz i).mp hi' with rfl | rfl | rfl
      · rw [e1] at hv
        simp only [List.mem_cons, List.not_mem_nil, or_false] at hv ⊢
        omega
      · rw [e2] at hv
        simp only [List.mem_cons, List.not_mem_nil, or_false] at hv ⊢
        omega
      · rw [e3] at hv
        simp only [List.mem_cons, List.not_mem_nil, or_false] at hv ⊢
        omega
    · intro hv
      have mem : ∀ i, i = ia ∨ i = ib ∨ i = ic → sc.edges[i] ∈
          ((List.finRange sc.edges.length).filter fun i => decide (sc.B2 i j ≠ 0)).map
            fun i => sc.edges[i] := by
        intro i hi
        exact List.mem_map.mpr ⟨i, List.mem_filter.mpr ⟨by simp, decide_eq_true ((hnz i).mpr hi)⟩, rfl⟩
      simp only [List.mem_cons, List.not_mem_nil, or_false] at hv
      rcases hv with rfl | rfl | rfl
      · exact ⟨_, mem ia (by simp), by rw [e1]; simp⟩
      · exact ⟨_, mem ia (by simp), by rw [e1]; simp⟩
      · exact ⟨_, mem ib (by simp), by rw [e2]; simp⟩

/-- C40: writing the two incidence matrices and reading them back gives the same nodes, edges and
triangles, and building from them gives the same complex. -/
theorem C40_round_trip [CharZero K] (sc : SC K) (hb : sc.Built) (hs : StrictlySorted sc.edges)
    (ha : ∀ e ∈ sc.edges, 0 ≤ e.1 ∧ e.1 < e.2 ∧ e.2 < sc.nodes.length)
    (hn : sc.nodes = (List.range sc.nodes.length).map fun i : ℕ => (i : Int))
    (hlast : ∃ e ∈ sc.edges, e.2 + 1 = sc.nodes.length)
    (ht : ∀ t ∈ sc.triangles, ∃ a b c, t = [a, b, c] ∧ a < b ∧ b < c) (hne : sc.triangles ≠ []) :
    ∃ b, readB1B2 (some ⟨sc.nodes.length, sc.edges.length, sc.B1⟩)
        (some ⟨sc.triangles.length, sc.edges.length, sc.B2.transpose⟩) = .ok (b, sc.triangles) ∧
      b.nodes = sc.nodes ∧ b.edges = sc.edges ∧
      ∃ sc', b.toSimplicialComplex K (triangles := some sc.triangles) = .ok sc' ∧
        (sc.nodeFeatures = [] → sc.edgeFeatures = [] → sc' = sc) := by
  obtain ⟨e0, he0, he0'⟩ := hlast
  have hE : sc.edges.length ≠ 0 := fun h => by
    rw [List.length_eq_zero_iff.mp h] at he0
    simp at he0
  have hN : sc.nodes.length ≠ 0 := fun h => by
    have := ha e0 he0
    omega
  have hT : sc.triangles.length ≠ 0 := fun h => hne (List.length_eq_zero_iff.mp h)
  have h1 : readMat (some (⟨sc.nodes.length, sc.edges.length, sc.B1⟩ : CsvMat K)) =
      .ok ⟨sc.nodes.length, sc.edges.length, sc.B1⟩ := by
    unfold readMat
    simp only
    rw [if_neg (by omega)]
  have h2 : readMat (some (⟨sc.triangles.length, sc.edges.length, sc.B2.transpose⟩ : CsvMat K)) =
      .ok ⟨sc.triangles.length, sc.edges.length, sc.B2.transpose⟩ := by
    unfold readMat
    simp only
    rw [if_neg (by omega)]
  have h3 := edgesOfColumns_B1 hb (fun e he => by have := ha e he; omega)
    (fun e he => by have := ha e he; omega)
  have hmem : ∀ v, v ∈ nodeSet sc.edges → v ≤ (sc.nodes.length : Int) - 1 := by
    intro v hv
    obtain ⟨e, he, h⟩ := (mem_nodeSet _ _).mp hv
    have := ha e he
    omega
  have h4 : nodesUpToMax (nodeSet sc.edges) = .ok sc.nodes := by
    have hin : ((sc.nodes.length : Int) - 1) ∈ nodeSet sc.edges :=
      (mem_nodeSet _ _).mpr ⟨e0, he0, .inr (by omega)⟩
    obtain ⟨m, hm1, hm2, hm3⟩ := nodesUpToMax_nonempty (List.ne_nil_of_mem hin)
    have : m = (sc.nodes.length : Int) - 1 := le_antisymm (hmem m hm1) (hm2 _ hin)
    rw [hm3, this]
    unfold pyRange
    rw [show ((sc.nodes.length : Int) - 1 + 1).toNat = sc.nodes.length by omega, ← hn]
  have h5 : readB2 (some (⟨sc.triangles.length, sc.edges.length, sc.B2.transpose⟩ : CsvMat K)) sc.edges =
      .ok sc.triangles := by
    unfold readB2
    rw [h2]
    simp only [bind, Except.bind]
    rw [mapM_ok _ _ fun j : Fin sc.triangles.length => sc.triangles[j]]
    · rw [map_finRange_getElem]
    · intro j _
      obtain ⟨a, b, c, h, hab, hbc⟩ := ht _ (List.getElem_mem j.2)
      rw [Matrix.transpose_transpose]
      exact (triangleOfColumn_B2 hb (fun e he => (ha e he).2.1) j h hab hbc).trans
        (congrArg _ h.symm)
  refine ⟨{ nodes := sc.nodes, edges := sc.edges }, ?_, rfl, rfl, ?_⟩
  · unfold readB1B2
    simp only [h1, bind, Except.bind, h3, h4]
    rw [sortedPairs_of_sorted hs, h5]
    rfl
  · have hinit : ∃ sc' : SC K, SC.init sc.nodes sc.edges sc.triangles [] [] = .ok sc' := by
      refine ⟨⟨sc.nodes, sc.edges, sc.triangles, [], [], sc.B1, sc.B2⟩, ?_⟩
      unfold SC.init
      rw [hb.b1, hb.b2]
      rfl
    obtain ⟨sc', h⟩ := hinit
    refine ⟨sc', h, fun h1 h2 => ?_⟩
    have hb' := hb
    unfold SC.Built at hb'
    rw [h1, h2, h] at hb'
    exact Except.ok.inj hb'

/-- C40: a complex without triangles (or without edges) cannot be read back: its file is empty and
pandas raises `EmptyDataError`, a `ValueError`. -/
theorem C40_no_triangles [CharZero K] (sc : SC K) (hb : sc.Built)
    (ha : ∀ e ∈ sc.edges, 0 ≤ e.1 ∧ e.1 < e.2 ∧ e.2 < sc.nodes.length) (ht : sc.triangles = []) :
    readB1B2 (some ⟨sc.nodes.length, sc.edges.length, sc.B1⟩)
        (some ⟨sc.triangles.length, sc.edges.length, sc.B2.transpose⟩) = .error .valueError := by
  unfold readB1B2 readMat
  simp only
  by_cases h : sc.nodes.length = 0 ∨ sc.edges.length = 0
  · rw [if_pos h]
    rfl
  · rw [if_neg h]
    simp only [bind, Except.bind]
    rw [edgesOfColumns_B1 hb (fun e he => by have := ha e he; omega)
      (fun e he => by have := ha e he; omega)]
    simp only
    have hE : sc.edges ≠ [] := fun h' => h (.inr (by simp [h']))
    obtain ⟨e, es, hes⟩ := List.exists_cons_of_ne_nil hE
    have hin : e.1 ∈ nodeSet sc.edges := (mem_nodeSet _ _).mpr ⟨e, by rw [hes]; simp, .inl rfl⟩
    obtain ⟨m, -, -, hm3⟩ := nodesUpToMax_nonempty (List.ne_nil_of_mem hin)
    rw [hm3]
    simp only [readB2, readMat]
    rw [if_pos (.inl (by simp [ht]))]
    rfl

/-- the hypotheses of C40 are met by two glued triangles -/
example : ∃ sc : SC ℤ, sc.Built ∧ StrictlySorted sc.edges ∧
    (∀ e ∈ sc.edges, 0 ≤ e.1 ∧ e.1 < e.2 ∧ e.2 < sc.nodes.length) ∧
    sc.nodes = (List.range sc.nodes.length).map (fun i : ℕ => (i : Int)) ∧
    (∃ e ∈ sc.edges, e.2 + 1 = sc.nodes.length) ∧
    (∀ t ∈ sc.triangles, ∃ a b c, t = [a, b, c] ∧ a < b ∧ b < c) ∧ sc.triangles ≠ [] := by
  obtain ⟨sc, h, -⟩ := SC.exists_wellFormed ℤ [0, 1, 2, 3] [(0, 1), (0, 2), (1, 2), (1, 3), (2, 3)]
    [[0, 1, 2], [1, 2, 3]] [] [] (by decide) (by decide) (by
      intro t ht
      simp only [List.mem_cons, List.not_mem_nil, or_false] at ht
      rcases ht with rfl | rfl
      · exact ⟨0, 1, 2, rfl, by decide, by decide, by decide⟩
      · exact ⟨1, 2, 3, rfl, by decide, by decide, by decide⟩)
  obtain ⟨h1, h2, h3, -, -, hb⟩ := SC.init_ok h
  refine ⟨sc, hb, ?_, ?_, ?_, ?_, ?_, ?_⟩
  · rw [h2]; decide
  · rw [h2, h1]; decide
  · rw [h1]; decide
  · rw [h2, h1]; exact ⟨(1, 3), by decide, by decide⟩
  · rw [h3]
    intro t ht
    simp only [List.mem_cons, List.not_mem_nil, or_false] at ht
    rcases ht with rfl | rfl
    · exact ⟨0, 1, 2, rfl, by decide, by decide⟩
    · exact ⟨1, 2, 3, rfl, by decide, by decide⟩
  · rw [h3]; simp

/-- C40, limit: with the edge columns in another order the round trip succeeds but silently reads
another triangle. -/
theorem C40_unsorted_counterexample : ∃ (sc : SC ℤ) (b : SCBuilder), sc.Built ∧
    sc.edges = [(0, 1), (0, 3), (0, 2), (1, 3), (1, 2), (2, 3)] ∧ sc.triangles = [[0, 1, 3]] ∧
    readB1B2 (some ⟨sc.nodes.length, sc.edges.length, sc.B1⟩)
        (some ⟨sc.triangles.length, sc.edges.length, sc.B2.transpose⟩) = .ok (b, [[0, 1, 2]]) ∧
    ∃ sc' : SC ℤ, b.toSimplicialComplex ℤ (triangles := some [[0, 1, 2]]) = .ok sc' := by
  have key : (do
      let sc ← SC.init (K := ℤ) [0, 1, 2, 3] [(0, 1), (0, 3), (0, 2), (1, 3), (1, 2), (2, 3)]
        [[0, 1, 3]] [] []
      let r ← readB1B2 (some ⟨sc.nodes.length, sc.edges.length, sc.B1⟩)
        (some ⟨sc.triangles.length, sc.edges.length, sc.B2.transpose⟩)
      let sc' ← r.1.toSimplicialComplex ℤ (triangles := some r.2)
      pure (r.2, sc'.triangles) : Py _) = .ok ([[0, 1, 2]], [[0, 1, 2]]) := by decide +kernel
  obtain ⟨sc, h1, key⟩ := bind_ok key
  obtain ⟨⟨b, ts⟩, h2, key⟩ := bind_ok key
  obtain ⟨sc', h3, key⟩ := bind_ok key
  have := Except.ok.inj key
  simp only [Prod.mk.injEq] at this
  obtain ⟨-, he, htr, -, -, hbu⟩ := SC.init_ok h1
  obtain ⟨rfl, -⟩ := this
  exact ⟨sc, b, hbu, he, htr, h2, sc', h3⟩

end Pytspl
