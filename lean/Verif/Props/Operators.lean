import Verif.Lemmas.Adjacency
import Verif.Spec.Samples
import Mathlib.Data.Real.Basic
import Mathlib.LinearAlgebra.Matrix.DotProduct
import Mathlib.Tactic.LinearCombination
import Mathlib.Tactic.NormNum

/-!
# Properties C06, C08 - C17: sizes, adjacency, Laplacians, shifting, divergence, curl, features
-/

namespace Pytspl

open Matrix

variable {K : Type} [CommRing K]

/-! ## C06 -/

omit [CommRing K] in
/-- C06: `simplices` lists first the nodes, then the edges, then the triangles, each in the stored order. -/
theorem C06_order (sc : SC K) :
    (∀ (i : ℕ) (v : Int), sc.nodes[i]? = some v → sc.simplices[i]? = some [v]) ∧
    (∀ (j : ℕ) (e : Edge), sc.edges[j]? = some e → sc.simplices[sc.nodes.length + j]? = some [e.1, e.2]) ∧
    (∀ (t : ℕ) (s : List Int), sc.triangles[t]? = some s →
      sc.simplices[sc.nodes.length + sc.edges.length + t]? = some s) := by
  refine ⟨fun i v h => ?_, fun j e h => ?_, fun t s h => ?_⟩
  · have hi := (List.getElem?_eq_some_iff.mp h).1
    unfold SC.simplices
    rw [List.append_assoc, List.getElem?_append_left (by simpa using hi), List.getElem?_map, h]; rfl
  · have hj := (List.getElem?_eq_some_iff.mp h).1
    unfold SC.simplices
    rw [List.append_assoc, List.getElem?_append_right (by simp), List.getElem?_append_left (by simpa using hj),
      List.getElem?_map]
    simp [h]
  · unfold SC.simplices
    rw [List.getElem?_append_right (by simp)]
    simpa using h

omit [CommRing K] in
/-- C06: `shape`, `simplices`, `max_dim` describe the three lists. -/
theorem C06_shape_simplices (sc : SC K) :
    sc.shape = (sc.nodes.length, sc.edges.length, sc.triangles.length) ∧
    sc.simplices.length = sc.nodes.length + sc.edges.length + sc.triangles.length ∧
    (∀ s, s ∈ sc.simplices ↔ (∃ v ∈ sc.nodes, s = [v]) ∨ (∃ e ∈ sc.edges, s = [e.1, e.2]) ∨
      s ∈ sc.triangles) := by
  refine ⟨rfl, by simp [SC.simplices]; omega, ?_⟩
  intro s
  simp only [SC.simplices, List.mem_append, List.mem_map]
  constructor
  · rintro ((⟨v, hv, rfl⟩ | ⟨e, he, rfl⟩) | h)
    · exact .inl ⟨v, hv, rfl⟩
    · exact .inr (.inl ⟨e, he, rfl⟩)
    · exact .inr (.inr h)
  · rintro (⟨v, hv, rfl⟩ | ⟨e, he, rfl⟩ | h)
    · exact .inl (.inl ⟨v, hv, rfl⟩)
    · exact .inl (.inr ⟨e, he, rfl⟩)
    · exact .inr h

omit [CommRing K] in
private theorem maxDim_eq (sc : SC K) (m : ℕ) (hm : ∃ s ∈ sc.simplices, s.length = m)
    (hle : ∀ s ∈ sc.simplices, s.length ≤ m) : sc.maxDim = .ok ((m : Int) - 1) := by
  unfold SC.maxDim
  have : (sc.simplices.map List.length).max? = some m := by
    rw [List.max?_eq_some_iff]
    refine ⟨?_, ?_⟩
    · obtain ⟨s, hs, rfl⟩ := hm
      exact List.mem_map.mpr ⟨s, hs, rfl⟩
    · intro b hb
      obtain ⟨s, hs, rfl⟩ := List.mem_map.mp hb
      exact hle s hs
  rw [this]

/-- C06: `max_dim` of a constructed complex is the dimension of its largest simplex, and
raises `ValueError` on the empty complex. -/
theorem C06_max_dim (sc : SC K) (hb : sc.Built) :
    (sc.triangles ≠ [] → sc.maxDim = .ok 2) ∧
    (sc.triangles = [] → sc.edges ≠ [] → sc.maxDim = .ok 1) ∧
    (sc.triangles = [] → sc.edges = [] → sc.nodes ≠ [] → sc.maxDim = .ok 0) ∧
    (sc.triangles = [] → sc.edges = [] → sc.nodes = [] → sc.maxDim = .error .valueError) := by
  have hmem := (C06_shape_simplices sc).2.2
  have htri : ∀ t ∈ sc.triangles, t.length = 3 := by
    intro t ht
    obtain ⟨k, hk, rfl⟩ := List.getElem_of_mem ht
    obtain ⟨a, b, c, -, -, -, h, -⟩ := hb.tri_entry ⟨k, hk⟩
    simp only [Fin.getElem_fin] at h
    rw [h]; rfl
  refine ⟨?_, ?_, ?_, ?_⟩
  · intro h
    obtain ⟨t, ht⟩ := List.exists_mem_of_ne_nil _ h
    apply maxDim_eq sc 3 ⟨t, (hmem t).mpr (.inr (.inr ht)), htri t ht⟩
    intro s hs
    rcases (hmem s).mp hs with ⟨v, _, rfl⟩ | ⟨e, _, rfl⟩ | h
    · simp
    · simp
    · exact (htri s h).le
  · intro h0 h
    obtain ⟨e, he⟩ := List.exists_mem_of_ne_nil _ h
    apply maxDim_eq sc 2 ⟨[e.1, e.2], (hmem _).mpr (.inr (.inl ⟨e, he, rfl⟩)), rfl⟩
    intro s hs
    rcases (hmem s).mp hs with ⟨v, _, rfl⟩ | ⟨e, _, rfl⟩ | h
    · simp
    · simp
    · rw [h0] at h; simp at h
  · intro h0 h1 h
    obtain ⟨v, hv⟩ := List.exists_mem_of_ne_nil _ h
    apply maxDim_eq sc 1 ⟨[v], (hmem _).mpr (.inl ⟨v, hv, rfl⟩), rfl⟩
    intro s hs
    rcases (hmem s).mp hs with ⟨v, _, rfl⟩ | ⟨e, he, rfl⟩ | h
    · simp
    · rw [h1] at he; simp at he
    · rw [h0] at h; simp at h
  · intro h0 h1 h2
    simp [SC.maxDim, SC.simplices, h0, h1, h2]

example : ∃ sc : SC ℤ, sc.Built ∧ sc.triangles ≠ [] := by
  obtain ⟨sc, h, -, -, -, h3⟩ := sample_wellFormed ℤ
  exact ⟨sc, h.built, by rw [h3]; decide⟩

/-! ## C08 -/

/-- C08: on a loop-free complex the adjacency matrix is 0/1 with a 1 exactly at joined pairs
(hence symmetric with zero diagonal). -/
theorem C08_adjacency_exact [DecidableEq K] [Nontrivial K] (sc : SC K) (hb : sc.Built)
    (hr : EdgesInRange sc.nodes.length sc.edges) (hl : NoLoops sc.edges) :
    ∃ A, sc.adjacencyMatrix = .ok A ∧
      (∀ i j : Fin sc.nodes.length, A i j = if Joined sc.edges (i : ℕ) (j : ℕ) then 1 else 0) ∧
      A.transpose = A ∧ ∀ i, A i i = 0 := by
  have hex : ∀ c : Fin sc.E, ∃ u v : Fin sc.N, npIdx sc.nodes.length sc.edges[c].1 = .ok u ∧
      npIdx sc.nodes.length sc.edges[c].2 = .ok v ∧ u ≠ v ∧ sc.edges[c].1 = (u : ℕ) ∧
      sc.edges[c].2 = (v : ℕ) := by
    intro c
    obtain ⟨u, v, hu, hv, -⟩ := edgesToB1_ok_entry hb.b1 c
    have hm : sc.edges[c] ∈ sc.edges := List.getElem_mem _
    have e1 := npIdx_inRange hu (hr _ hm).1.1
    have e2 := npIdx_inRange hv (hr _ hm).2.1
    refine ⟨u, v, hu, hv, ?_, e1, e2⟩
    rintro rfl
    exact hl _ hm (e1.trans e2.symm)
  choose u v hu hv huv e1 e2 using hex
  obtain ⟨A, hA, h1, h0⟩ := adjFold_ok hb u v hu hv huv (List.finRange sc.E) 0
  have hj : ∀ i j : Fin sc.N, (∃ c ∈ List.finRange sc.E, (i = u c ∧ j = v c) ∨ (i = v c ∧ j = u c)) ↔
      Joined sc.edges (i : ℕ) (j : ℕ) := by
    intro i j
    constructor
    · rintro ⟨c, -, ⟨rfl, rfl⟩ | ⟨rfl, rfl⟩⟩
      · left
        have : sc.edges[c] = (((u c : ℕ) : Int), ((v c : ℕ) : Int)) := Prod.ext (e1 c) (e2 c)
        exact this ▸ List.getElem_mem _
      · right
        have : sc.edges[c] = (((u c : ℕ) : Int), ((v c : ℕ) : Int)) := Prod.ext (e1 c) (e2 c)
        exact this ▸ List.getElem_mem _
    · rintro (h | h)
      · obtain ⟨k, hk, he⟩ := List.getElem_of_mem h
        refine ⟨⟨k, hk⟩, List.mem_finRange _, .inl ?_⟩
        have g1 := e1 ⟨k, hk⟩
        have g2 := e2 ⟨k, hk⟩
        simp only [Fin.getElem_fin, he] at g1 g2
        exact ⟨Fin.ext (by exact_mod_cast g1), Fin.ext (by exact_mod_cast g2)⟩
      · obtain ⟨k, hk, he⟩ := List.getElem_of_mem h
        refine ⟨⟨k, hk⟩, List.mem_finRange _, .inr ?_⟩
        have g1 := e1 ⟨k, hk⟩
        have g2 := e2 ⟨k, hk⟩
        simp only [Fin.getElem_fin, he] at g1 g2
        exact ⟨Fin.ext (by exact_mod_cast g2), Fin.ext (by exact_mod_cast g1)⟩
  have hform : ∀ i j : Fin sc.nodes.length,
      A i j = if Joined sc.edges (i : ℕ) (j : ℕ) then 1 else 0 := by
    intro i j
    by_cases h : Joined sc.edges (i : ℕ) (j : ℕ)
    · rw [h1 i j ((hj i j).mpr h), if_pos h]
    · rw [h0 i j (fun h' => h ((hj i j).mp h')), if_neg h]; rfl
  refine ⟨A, hA, hform, ?_, ?_⟩
  · ext i j
    rw [Matrix.transpose_apply, hform, hform]
    have : Joined sc.edges (j : ℕ) (i : ℕ) ↔ Joined sc.edges (i : ℕ) (j : ℕ) := by
      unfold Joined; exact Or.comm
    simp only [this]
  · intro i
    rw [hform, if_neg]
    rintro (h | h) <;> exact hl _ h rfl

/-- C08: a self-loop makes `adjacency_matrix()` raise `IndexError`. -/
theorem C08_adjacency_loop [DecidableEq K] [Nontrivial K] (sc : SC K) (hb : sc.Built)
    (h : ¬ NoLoops sc.edges) : sc.adjacencyMatrix = .error .indexError := by
  unfold NoLoops at h
  push Not at h
  obtain ⟨e, he, heq⟩ := h
  obtain ⟨k, hk, rfl⟩ := List.getElem_of_mem he
  apply adjFold_loop hb
  refine ⟨⟨k, hk⟩, List.mem_finRange _, ?_⟩
  obtain ⟨u, v, hu, hv, -⟩ := edgesToB1_ok_entry hb.b1 ⟨k, hk⟩
  refine ⟨u, hu, ?_⟩
  simp only [Fin.getElem_fin] at hu ⊢
  rw [← heq]; exact hu

example : ∃ sc : SC ℤ, sc.Built ∧ EdgesInRange sc.nodes.length sc.edges ∧ NoLoops sc.edges ∧
    sc.edges ≠ [] := by
  obtain ⟨sc, h, -, -, h2, -⟩ := sample_wellFormed ℤ
  exact ⟨sc, h.built, h.inRange, h.noLoops, by rw [h2]; decide⟩

example : ∃ sc : SC ℤ, sc.Built ∧ ¬ NoLoops sc.edges := by
  obtain ⟨sc, h⟩ := SC.exists_built ℤ [0, 1] [(0, 1), (1, 1)] [] [] []
    (by simp [ValidLabel]) (by simp)
  obtain ⟨-, h2, -, -, -, hb⟩ := SC.init_ok h
  exact ⟨sc, hb, by rw [h2]; decide⟩

/-! ## C09, C10 -/

/-- number of edges of the list that touch node `v` -/
def degreeOf (edges : List Edge) (v : Int) : ℕ :=
  (edges.filter fun e => decide (e.1 = v ∨ e.2 = v)).length

private theorem sum_list_count {edges : List Edge} (p : Edge → Bool) :
    (∑ j : Fin edges.length, if p edges[j] then (1 : K) else 0) = ((edges.filter p).length : K) := by
  induction edges with
  | nil => simp
  | cons e l ih =>
    have hs := Fin.sum_univ_succ (n := l.length)
      (fun j : Fin (l.length + 1) => if p (e :: l)[(j : ℕ)] then (1 : K) else 0)
    have hs' : (∑ j : Fin (e :: l).length, if p (e :: l)[j] then (1 : K) else 0) =
        (if p e then (1 : K) else 0) + ∑ j : Fin l.length, if p l[j] then (1 : K) else 0 := hs
    rw [hs', ih]
    by_cases h : p e
    · simp [h]; ring
    · simp [h]

private theorem filter_length_le_one {edges : List Edge} (hn : NoRepeats edges) (hl : NoLoops edges)
    (u v : Int) : (edges.filter fun e => decide (e = (u, v) ∨ e = (v, u))).length =
      if Joined edges u v then 1 else 0 := by
  induction edges with
  | nil => simp [Joined]
  | cons e l ih =>
    have hn' := List.pairwise_cons.mp hn
    have ih' := ih hn'.2 (fun f hf => hl f (by simp [hf]))
    by_cases he : e = (u, v) ∨ e = (v, u)
    · have hnj : ¬ Joined l u v := by
        rintro (h | h)
        · have := hn'.1 _ h
          rcases he with rfl | rfl
          · exact this.1 rfl
          · exact this.2 rfl
        · have := hn'.1 _ h
          rcases he with rfl | rfl
          · exact this.2 rfl
          · exact this.1 rfl
      rw [if_neg hnj] at ih'
      have hj : Joined (e :: l) u v := by
        rcases he with rfl | rfl
        · exact .inl (by simp)
        · exact .inr (by simp)
      rw [List.filter_cons_of_pos (by simpa using he), List.length_cons, ih', if_pos hj]
    · rw [List.filter_cons_of_neg (by simpa using he), ih']
      have : Joined (e :: l) u v ↔ Joined l u v := by
        unfold Joined
        simp only [List.mem_cons]
        constructor
        · rintro ((h | h) | (h | h))
          · exact absurd (.inl h.symm) he
          · exact .inl h
          · exact absurd (.inr h.symm) he
          · exact .inr h
        · rintro (h | h)
          · exact .inl (.inr h)
          · exact .inr (.inr h)
      simp only [this]

private theorem entry_case (x y p q : Int) (hk : x ≠ y) (hpq : p ≠ q) :
    ((if p = y then (1 : K) else 0) - if p = x then 1 else 0) *
      ((if q = y then 1 else 0) - if q = x then 1 else 0) =
    -if x = p ∧ y = q ∨ x = q ∧ y = p then 1 else 0 := by
  simp only [eq_comm (a := x), eq_comm (a := y)]
  by_cases h1 : p = x
  · subst h1
    by_cases h4 : q = y
    · subst h4; simp [hk, Ne.symm hk]
    · simp [h4, hk, Ne.symm hpq]
  · by_cases h2 : p = y
    · subst h2
      by_cases h4 : q = x
      · subst h4; simp [hk, Ne.symm hk]
      · simp [h4, h1, Ne.symm hpq]
    · simp [h1, h2]

/-- C09: on a simple graph the Laplacian has the degrees on its diagonal and `-1` exactly at
joined pairs, it is degree matrix minus adjacency matrix, and its rows sum to zero. -/
theorem C09_laplacian_exact (sc : SC K) (h : sc.OnSimpleGraph) :
    sc.hodgeLaplacianMatrix 0 = .ok (.mat sc.nodes.length sc.nodes.length sc.L0) ∧
    (∀ i : Fin sc.nodes.length, sc.L0 i i = (degreeOf sc.edges (i : ℕ) : K)) ∧
    (∀ i j : Fin sc.nodes.length, i ≠ j →
      sc.L0 i j = if Joined sc.edges (i : ℕ) (j : ℕ) then -1 else 0) ∧
    (∀ i : Fin sc.nodes.length, ∑ j, sc.L0 i j = 0) := by
  have hent : ∀ i j : Fin sc.N, sc.L0 i j = ∑ k : Fin sc.E,
      ((if ((i : ℕ) : Int) = sc.edges[k].2 then (1 : K) else 0)
      - (if ((i : ℕ) : Int) = sc.edges[k].1 then 1 else 0)) *
      ((if ((j : ℕ) : Int) = sc.edges[k].2 then 1 else 0)
      - (if ((j : ℕ) : Int) = sc.edges[k].1 then 1 else 0)) := by
    intro i j
    unfold SC.L0
    rw [Matrix.mul_apply]
    refine Finset.sum_congr rfl fun k _ => ?_
    rw [Matrix.transpose_apply, h.built.b1_entry h.inRange h.noLoops,
      h.built.b1_entry h.inRange h.noLoops]
  have hloop : ∀ k : Fin sc.E, sc.edges[k].1 ≠ sc.edges[k].2 :=
    fun k => h.noLoops _ (List.getElem_mem _)
  refine ⟨rfl, ?_, ?_, ?_⟩
  · intro i
    rw [hent]
    unfold degreeOf
    rw [← sum_list_count]
    refine Finset.sum_congr rfl fun k _ => ?_
    have hk := hloop k
    generalize sc.edges[k] = e at hk ⊢
    obtain ⟨x, y⟩ := e
    simp only at hk ⊢
    by_cases h1 : ((i : ℕ) : Int) = x
    · subst h1; simp [hk, hk.symm]
    · by_cases h2 : ((i : ℕ) : Int) = y
      · subst h2; simp [hk, hk.symm]
      · have h1' : ¬ x = ((i : ℕ) : Int) := fun g => h1 g.symm
        have h2' : ¬ y = ((i : ℕ) : Int) := fun g => h2 g.symm
        simp [h1, h2, h1', h2']
  · intro i j hij
    have hij' : ((i : ℕ) : Int) ≠ ((j : ℕ) : Int) := by
      intro g; apply hij; exact Fin.ext (by exact_mod_cast g)
    have := filter_length_le_one h.noRepeats h.noLoops (i : ℕ) (j : ℕ)
    have h2 : ((if Joined sc.edges (i : ℕ) (j : ℕ) then 1 else 0 : ℕ) : K) =
        ((sc.edges.filter fun e => decide (e = (((i : ℕ) : Int), ((j : ℕ) : Int)) ∨
          e = (((j : ℕ) : Int), ((i : ℕ) : Int)))).length : K) := by rw [this]
    rw [← sum_list_count] at h2
    have h3 : sc.L0 i j = - ((if Joined sc.edges (i : ℕ) (j : ℕ) then 1 else 0 : ℕ) : K) := by
      rw [h2, hent, ← Finset.sum_neg_distrib]
      refine Finset.sum_congr rfl fun k _ => ?_
      have hk := hloop k
      generalize sc.edges[k] = e at hk ⊢
      obtain ⟨x, y⟩ := e
      simp only [Prod.mk.injEq, decide_eq_true_eq] at hk ⊢
      generalize ((i : ℕ) : Int) = p at hij' ⊢
      generalize ((j : ℕ) : Int) = q at hij' ⊢
      exact entry_case x y p q hk hij'
    rw [h3]
    by_cases hj : Joined sc.edges (i : ℕ) (j : ℕ) <;> simp [hj]
  · intro i
    have : ∀ j, sc.L0 i j = ∑ k, sc.B1 i k * sc.B1 j k := by
      intro j; unfold SC.L0; rw [Matrix.mul_apply]; rfl
    simp only [this]
    rw [Finset.sum_comm]
    refine Finset.sum_eq_zero fun k _ => ?_
    rw [← Finset.mul_sum]
    have hcol : ∑ j : Fin sc.N, sc.B1 j k = 0 := by
      obtain ⟨u, v, hu, hv, hB⟩ := edgesToB1_ok_entry h.built.b1 k
      have huv : u ≠ v := by
        rintro rfl
        have hm : sc.edges[k] ∈ sc.edges := List.getElem_mem _
        exact hloop k ((npIdx_inRange hu (h.inRange _ hm).1.1).trans
          (npIdx_inRange hv (h.inRange _ hm).2.1).symm)
      have : ∀ j, sc.B1 j k = (if j = v then 1 else 0) - (if j = u then 1 else 0) := by
        intro j
        rw [hB]
        by_cases h1 : j = v
        · subst h1; simp [huv.symm]
        · by_cases h2 : j = u
          · subst h2; simp [h1]
          · simp [h1, h2]
      simp [this]
    rw [hcol, mul_zero]

example : ∃ sc : SC ℤ, sc.OnSimpleGraph ∧ sc.edges ≠ [] := by
  obtain ⟨sc, -, h, -, h2, -⟩ := sample_wellFormed ℤ
  exact ⟨sc, h, by rw [h2]; decide⟩

theorem b1_transpose_apply {sc : SC K} (hb : sc.Built)
    (hr : EdgesInRange sc.nodes.length sc.edges) (hl : NoLoops sc.edges) (x : Fin sc.N → K)
    (j : Fin sc.E) :
    (sc.B1.transpose.mulVec x) j = valueAt x sc.edges[j].2 - valueAt x sc.edges[j].1 := by
  have hval : ∀ u : Int, (0 ≤ u ∧ u < sc.nodes.length) →
      ∑ i : Fin sc.N, (if ((i : ℕ) : Int) = u then (1 : K) else 0) * x i = valueAt x u := by
    intro u hu
    unfold valueAt
    rw [dif_pos hu]
    rw [Finset.sum_eq_single (⟨u.toNat, by simp only [SC.N]; omega⟩ : Fin sc.N)]
    · have : ((u.toNat : ℕ) : Int) = u := by omega
      simp [this]
    · intro i _ hi
      have : ((i : ℕ) : Int) ≠ u := by
        intro g; apply hi; ext; simp; omega
      simp [this]
    · simp
  have hm : sc.edges[j] ∈ sc.edges := List.getElem_mem _
  rw [← hval _ (hr _ hm).2, ← hval _ (hr _ hm).1, ← Finset.sum_sub_distrib]
  rw [Matrix.mulVec_eq_sum, Finset.sum_apply]
  refine Finset.sum_congr rfl fun i _ => ?_
  have : (sc.B1.transpose.transpose i) j = sc.B1 i j := rfl
  simp only [Pi.smul_apply, this, MulOpposite.smul_eq_mul_unop, MulOpposite.unop_op]
  rw [hb.b1_entry hr hl]
  ring

/-- C10, quadratic form: for every node signal, `x.T @ L0 @ x` is the sum over edges of the squared
difference of the endpoint values. -/
theorem C10_laplacian_quadratic (sc : SC K) (hb : sc.Built)
    (hr : EdgesInRange sc.nodes.length sc.edges) (hl : NoLoops sc.edges) (x : Fin sc.N → K) :
    x ⬝ᵥ sc.L0.mulVec x =
      ∑ j : Fin sc.edges.length, (valueAt x sc.edges[j].2 - valueAt x sc.edges[j].1) ^ 2 := by
  unfold SC.L0
  rw [← Matrix.mulVec_mulVec, Matrix.dotProduct_mulVec, ← Matrix.mulVec_transpose]
  unfold dotProduct
  refine Finset.sum_congr rfl fun j _ => ?_
  rw [b1_transpose_apply hb hr hl]
  ring

/-- C10, kernel: `L0 @ x == 0` iff `x` agrees at the two ends of every edge. -/
theorem C10_laplacian_kernel (sc : SC ℝ) (hb : sc.Built)
    (hr : EdgesInRange sc.nodes.length sc.edges) (hl : NoLoops sc.edges) (x : Fin sc.N → ℝ) :
    sc.L0.mulVec x = 0 ↔ ∀ e ∈ sc.edges, valueAt x e.1 = valueAt x e.2 := by
  constructor
  · intro h e he
    have hq := C10_laplacian_quadratic sc hb hr hl x
    rw [h, dotProduct_zero] at hq
    obtain ⟨k, hk, rfl⟩ := List.getElem_of_mem he
    have := (Finset.sum_eq_zero_iff_of_nonneg (fun j _ => sq_nonneg _)).mp hq.symm ⟨k, hk⟩
      (Finset.mem_univ _)
    have := pow_eq_zero_iff (two_ne_zero) |>.mp this
    simp only [Fin.getElem_fin] at this
    linarith
  · intro h
    have : sc.B1.transpose.mulVec x = 0 := by
      funext j
      have hm : sc.edges[j] ∈ sc.edges := List.getElem_mem _
      rw [b1_transpose_apply hb hr hl, h _ hm]
      simp
    unfold SC.L0
    rw [← Matrix.mulVec_mulVec, this, Matrix.mulVec_zero]

example : ∃ sc : SC ℝ, sc.Built ∧ EdgesInRange sc.nodes.length sc.edges ∧ NoLoops sc.edges ∧
    sc.edges ≠ [] := by
  obtain ⟨sc, h, -, -, h2, -⟩ := sample_wellFormed ℝ
  exact ⟨sc, h.built, h.inRange, h.noLoops, by rw [h2]; decide⟩

/-! ## C11, C12, C13 -/

/-- `M` is symmetric with non-negative quadratic form -/
def SymmPSD {n : ℕ} (M : Matrix (Fin n) (Fin n) ℝ) : Prop :=
  M.transpose = M ∧ ∀ x : Fin n → ℝ, 0 ≤ x ⬝ᵥ M.mulVec x

theorem symmPSD_gram {m n : ℕ} (B : Matrix (Fin m) (Fin n) ℝ) : SymmPSD (B.transpose * B) := by
  refine ⟨by simp [Matrix.transpose_mul], fun x => ?_⟩
  rw [← Matrix.mulVec_mulVec, Matrix.dotProduct_mulVec, Matrix.vecMul_transpose]
  exact Finset.sum_nonneg fun i _ => mul_self_nonneg _

theorem symmPSD_gram' {m n : ℕ} (B : Matrix (Fin m) (Fin n) ℝ) : SymmPSD (B * B.transpose) := by
  have := symmPSD_gram B.transpose
  simpa using this

theorem SymmPSD.add {n : ℕ} {A B : Matrix (Fin n) (Fin n) ℝ} (hA : SymmPSD A) (hB : SymmPSD B) :
    SymmPSD (A + B) := by
  refine ⟨by rw [Matrix.transpose_add, hA.1, hB.1], fun x => ?_⟩
  rw [Matrix.add_mulVec, dotProduct_add]
  exact add_nonneg (hA.2 x) (hB.2 x)

/-- C11: every Laplacian the API returns is symmetric positive semidefinite, for any stored
orientations, and the Hodge Laplacian is the sum of the lower and the upper one. -/
theorem C11_laplacians_psd (sc : SC ℝ) (rank : Int) (M : PyArr ℝ)
    (h : sc.lowerLaplacianMatrix rank = .ok M ∨ sc.upperLaplacianMatrix rank = .ok M ∨
      sc.hodgeLaplacianMatrix rank = .ok M) :
    ∃ (n : ℕ) (A : Matrix (Fin n) (Fin n) ℝ), M = .mat n n A ∧ SymmPSD A := by
  have g0 : SymmPSD sc.L0 := symmPSD_gram' _
  have g1 : SymmPSD sc.L1l := symmPSD_gram _
  have g2 : SymmPSD sc.L1u := symmPSD_gram' _
  have g3 : SymmPSD sc.L2l := symmPSD_gram _
  rcases h with h | h | h
  · unfold SC.lowerLaplacianMatrix at h
    split at h
    · cases h; exact ⟨_, _, rfl, g1⟩
    · split at h
      · cases h; exact ⟨_, _, rfl, g3⟩
      · cases h
  · unfold SC.upperLaplacianMatrix at h
    split at h
    · cases h; exact ⟨_, _, rfl, g0⟩
    · split at h
      · cases h; exact ⟨_, _, rfl, g2⟩
      · cases h
  · unfold SC.hodgeLaplacianMatrix at h
    split at h
    · cases h; exact ⟨_, _, rfl, g0⟩
    · split at h
      · cases h; exact ⟨_, _, rfl, g1.add g2⟩
      · cases h

/-- C11: the values behind the ranks, in terms of the incidence matrices. -/
theorem C11_laplacian_values (sc : SC K) :
    sc.hodgeLaplacianMatrix 1 =
      .ok (.mat sc.E sc.E (sc.B1.transpose * sc.B1 + sc.B2 * sc.B2.transpose)) ∧
    sc.lowerLaplacianMatrix 1 = .ok (.mat sc.E sc.E (sc.B1.transpose * sc.B1)) ∧
    sc.upperLaplacianMatrix 1 = .ok (.mat sc.E sc.E (sc.B2 * sc.B2.transpose)) ∧
    sc.lowerLaplacianMatrix 2 = .ok (.mat sc.T sc.T (sc.B2.transpose * sc.B2)) ∧
    sc.hodgeLaplacianMatrix 0 = .ok (.mat sc.N sc.N (sc.B1 * sc.B1.transpose)) ∧
    sc.upperLaplacianMatrix 0 = .ok (.mat sc.N sc.N (sc.B1 * sc.B1.transpose)) :=
  ⟨rfl, rfl, rfl, rfl, rfl, rfl⟩

/-- C12: lower and upper Laplacian annihilate each other on consistently oriented complexes. -/
theorem C12_lower_upper_annihilate (sc : SC K) (h : sc.WellFormed) :
    sc.L1l * sc.L1u = 0 ∧ sc.L1u * sc.L1l = 0 := by
  have h0 := h.b1_mul_b2
  constructor
  · unfold SC.L1l SC.L1u
    rw [Matrix.mul_assoc, ← Matrix.mul_assoc sc.B1, h0, Matrix.zero_mul, Matrix.mul_zero]
  · unfold SC.L1l SC.L1u
    have ht : sc.B2.transpose * sc.B1.transpose = 0 := by
      rw [← Matrix.transpose_mul, h0, Matrix.transpose_zero]
    rw [Matrix.mul_assoc, ← Matrix.mul_assoc sc.B2.transpose, ht, Matrix.zero_mul, Matrix.mul_zero]

/-- C12: a flow is in the kernel of the Hodge Laplacian iff its divergence and its curl vanish. -/
theorem C12_hodge_kernel (sc : SC ℝ) (f : Fin sc.E → ℝ) :
    sc.L1.mulVec f = 0 ↔ sc.getDivergence f = 0 ∧ sc.getCurl f = 0 := by
  constructor
  · intro h
    have hq : f ⬝ᵥ sc.L1.mulVec f = 0 := by rw [h, dotProduct_zero]
    unfold SC.L1 SC.L1l SC.L1u at hq
    rw [Matrix.add_mulVec, dotProduct_add, ← Matrix.mulVec_mulVec, ← Matrix.mulVec_mulVec,
      Matrix.dotProduct_mulVec, Matrix.vecMul_transpose, Matrix.dotProduct_mulVec f sc.B2,
      ← Matrix.mulVec_transpose] at hq
    have n1 : 0 ≤ sc.B1.mulVec f ⬝ᵥ sc.B1.mulVec f := Finset.sum_nonneg fun i _ => mul_self_nonneg _
    have n2 : 0 ≤ sc.B2.transpose.mulVec f ⬝ᵥ sc.B2.transpose.mulVec f :=
      Finset.sum_nonneg fun i _ => mul_self_nonneg _
    have z1 : sc.B1.mulVec f ⬝ᵥ sc.B1.mulVec f = 0 := by linarith
    have z2 : sc.B2.transpose.mulVec f ⬝ᵥ sc.B2.transpose.mulVec f = 0 := by linarith
    exact ⟨dotProduct_self_eq_zero.mp z1, dotProduct_self_eq_zero.mp z2⟩
  · rintro ⟨h1, h2⟩
    unfold SC.getDivergence at h1
    unfold SC.getCurl at h2
    unfold SC.L1 SC.L1l SC.L1u
    rw [Matrix.add_mulVec, ← Matrix.mulVec_mulVec, ← Matrix.mulVec_mulVec, h1, h2]
    simp

example : ∃ sc : SC ℝ, sc.WellFormed ∧ sc.triangles ≠ [] := by
  obtain ⟨sc, h, -, -, -, h3⟩ := sample_wellFormed ℝ
  exact ⟨sc, h, by rw [h3]; decide⟩

/-- C13: which ranks are accepted, and `ValueError` for all others. -/
theorem C13_rank_validation (sc : SC K) (rank : Int) :
    ((∃ M, sc.incidenceMatrix rank = .ok M) ↔ rank = 0 ∨ rank = 1 ∨ rank = 2) ∧
    ((∃ M, sc.lowerLaplacianMatrix rank = .ok M) ↔ rank = 1 ∨ rank = 2) ∧
    ((∃ M, sc.upperLaplacianMatrix rank = .ok M) ↔ rank = 0 ∨ rank = 1) ∧
    ((∃ M, sc.hodgeLaplacianMatrix rank = .ok M) ↔ rank = 0 ∨ rank = 1) ∧
    (¬ (rank = 0 ∨ rank = 1 ∨ rank = 2) → sc.incidenceMatrix rank = .error .valueError) ∧
    (¬ (rank = 1 ∨ rank = 2) → sc.lowerLaplacianMatrix rank = .error .valueError) ∧
    (¬ (rank = 0 ∨ rank = 1) → sc.upperLaplacianMatrix rank = .error .valueError) ∧
    (¬ (rank = 0 ∨ rank = 1) → sc.hodgeLaplacianMatrix rank = .error .valueError) ∧
    sc.incidenceMatrix 0 = .ok (.vec sc.nodes.length fun _ => 1) := by
  unfold SC.incidenceMatrix SC.lowerLaplacianMatrix SC.upperLaplacianMatrix SC.hodgeLaplacianMatrix
  refine ⟨?_, ?_, ?_, ?_, ?_, ?_, ?_, ?_, rfl⟩
  · by_cases h0 : rank = 0 <;> by_cases h1 : rank = 1 <;> by_cases h2 : rank = 2 <;> simp [h0, h1, h2]
  · by_cases h1 : rank = 1 <;> by_cases h2 : rank = 2 <;> simp [h1, h2]
  · by_cases h0 : rank = 0 <;> by_cases h1 : rank = 1 <;> simp [h0, h1]
  · by_cases h0 : rank = 0 <;> by_cases h1 : rank = 1 <;> simp [h0, h1]
  · rintro h; push Not at h; simp [h]
  · rintro h; push Not at h; simp [h]
  · rintro h; push Not at h; simp [h]
  · rintro h; push Not at h; simp [h]

/-! ## C14 -/

/-- C14 (partial): for `steps` 1 and 2, k-step shifting is `(L1l^k + L1u^k) f`, and `L1^k f` on a
consistently oriented complex.  Missing: `steps >= 3`, where the code still applies two steps
(`C14_steps_ge_three`, `C14_counterexample`). -/
theorem C14_k_step_partial (sc : SC K) (f : Fin sc.E → K) (k : ℕ) (hk : k = 1 ∨ k = 2) :
    sc.applyKStepShifting f k = (sc.L1l ^ k + sc.L1u ^ k).mulVec f ∧
    sc.applyLowerShifting f k = (sc.L1l ^ k).mulVec f ∧
    sc.applyUpperShifting f k = (sc.L1u ^ k).mulVec f ∧
    (sc.WellFormed → sc.applyKStepShifting f k = (sc.L1 ^ k).mulVec f) := by
  have hmain : sc.applyLowerShifting f k = (sc.L1l ^ k).mulVec f ∧
      sc.applyUpperShifting f k = (sc.L1u ^ k).mulVec f := by
    rcases hk with rfl | rfl
    · simp [SC.applyLowerShifting, SC.applyUpperShifting]
    · simp [SC.applyLowerShifting, SC.applyUpperShifting, pow_two, Matrix.mulVec_mulVec]
  refine ⟨?_, hmain.1, hmain.2, ?_⟩
  · unfold SC.applyKStepShifting
    rw [hmain.1, hmain.2, Matrix.add_mulVec]
  · intro hw
    unfold SC.applyKStepShifting
    rw [hmain.1, hmain.2, ← Matrix.add_mulVec]
    obtain ⟨h1, h2⟩ := C12_lower_upper_annihilate sc hw
    congr 1
    rcases hk with rfl | rfl
    · simp [SC.L1]
    · rw [pow_two, pow_two, pow_two, SC.L1, Matrix.add_mul, Matrix.mul_add, Matrix.mul_add, h1, h2]
      simp

/-- C14, what the code does for every other value of `steps`: two steps. -/
theorem C14_steps_ge_three (sc : SC K) (f : Fin sc.E → K) (k : Int) (hk : k ≠ 1) :
    sc.applyKStepShifting f k = (sc.L1l ^ 2 + sc.L1u ^ 2).mulVec f := by
  simp [SC.applyKStepShifting, SC.applyLowerShifting, SC.applyUpperShifting, hk, pow_two,
    Matrix.add_mulVec, Matrix.mulVec_mulVec]

/-- C14, counterexample to the full claim: three steps on a single edge. -/
theorem C14_counterexample : ∃ (sc : SC ℤ) (f : Fin sc.E → ℤ), sc.WellFormed ∧
    sc.applyKStepShifting f 3 ≠ (sc.L1l ^ 3 + sc.L1u ^ 3).mulVec f ∧
    sc.applyKStepShifting f 3 ≠ (sc.L1 ^ 3).mulVec f := by
  obtain ⟨sc, h, hw⟩ := SC.exists_wellFormed ℤ [0, 1] [(0, 1)] [] [] []
    (by decide) (by decide) (by intro t ht; simp at ht)
  obtain ⟨hn, he, htr, -, -, hb⟩ := SC.init_ok h
  have hL : sc.L1l = 2 := by
    have hE : sc.E = 1 := by simp [SC.E, he]
    have hN : sc.N = 2 := by simp [SC.N, hn]
    ext i j
    have : j = i := Fin.ext (by omega)
    subst this
    have hj : (j : ℕ) = 0 := by omega
    unfold SC.L1l
    rw [Matrix.mul_apply]
    have : ∀ k : Fin sc.N, sc.B1.transpose j k * sc.B1 k j = 1 := by
      intro k
      rw [Matrix.transpose_apply, hb.b1_entry hw.inRange hw.noLoops]
      have he' : sc.edges[j] = (0, 1) := by
        simp only [Fin.getElem_fin, hj, he, List.getElem_cons_zero]
      rw [he']
      have : (k : ℕ) = 0 ∨ (k : ℕ) = 1 := by omega
      rcases this with h | h <;> simp [h]
    rw [Finset.sum_congr rfl fun k _ => this k]
    simp only [Finset.sum_const, Finset.card_univ, Fintype.card_fin, nsmul_eq_mul, mul_one, hN]
    rw [Matrix.ofNat_apply]
    simp
  have hU : sc.L1u = 0 := by
    ext i j
    unfold SC.L1u
    rw [Matrix.mul_apply]
    have hT : sc.T = 0 := by simp [SC.T, htr]
    apply Finset.sum_eq_zero
    intro k _
    exact absurd k.2 (by simp only [SC.T] at hT; omega)
  have hE : 0 < sc.E := by simp [SC.E, he]
  have e8 : ((2 : Matrix (Fin sc.E) (Fin sc.E) ℤ) ^ 3) = (8 : ℤ) • 1 := by
    rw [← one_add_one_eq_two]
    simp only [pow_succ, pow_zero, Matrix.mul_add, Matrix.mul_one]
    ext i j
    simp only [Matrix.add_apply, Matrix.smul_apply, smul_eq_mul]; ring
  have e4 : ((2 : Matrix (Fin sc.E) (Fin sc.E) ℤ) ^ 2) = (4 : ℤ) • 1 := by
    rw [← one_add_one_eq_two]
    simp only [pow_succ, pow_zero, Matrix.mul_add, Matrix.mul_one]
    ext i j
    simp only [Matrix.add_apply, Matrix.smul_apply, smul_eq_mul]; ring
  have hlhs : sc.applyKStepShifting (fun _ => 1) 3 = fun _ => 4 := by
    rw [C14_steps_ge_three sc _ 3 (by decide), hL, hU, e4]
    funext i
    simp
  refine ⟨sc, fun _ => 1, hw, ?_, ?_⟩
  · rw [hlhs, hL, hU, e8]
    intro heq
    have := congrFun heq ⟨0, hE⟩
    simp at this
  · rw [hlhs, SC.L1, hL, hU, add_zero, e8]
    intro heq
    have := congrFun heq ⟨0, hE⟩
    simp at this

/-! ## C15, C16 -/

/-- C15: divergence at a node is the flow into it minus the flow out of it; divergences add up
to zero. -/
theorem C15_divergence (sc : SC K) (hb : sc.Built)
    (hr : EdgesInRange sc.nodes.length sc.edges) (hl : NoLoops sc.edges) (f : Fin sc.E → K) :
    (∀ i : Fin sc.nodes.length, sc.getDivergence f i =
      (∑ j : Fin sc.edges.length, if sc.edges[j].2 = ((i : ℕ) : Int) then f j else 0) -
      (∑ j : Fin sc.edges.length, if sc.edges[j].1 = ((i : ℕ) : Int) then f j else 0)) ∧
    ∑ i, sc.getDivergence f i = 0 := by
  constructor
  · intro i
    have hd : sc.getDivergence f i = ∑ j : Fin sc.edges.length, sc.B1 i j * f j := rfl
    rw [hd, ← Finset.sum_sub_distrib]
    refine Finset.sum_congr rfl fun j _ => ?_
    rw [hb.b1_entry hr hl]
    simp only [eq_comm (a := sc.edges[j].2), eq_comm (a := sc.edges[j].1), sub_mul, ite_mul,
      one_mul, zero_mul]
  · have : ∑ i, sc.getDivergence f i = (fun _ => (1 : K)) ⬝ᵥ sc.B1.mulVec f := by
      unfold dotProduct SC.getDivergence; simp
    rw [this, Matrix.dotProduct_mulVec, ← Matrix.mulVec_transpose]
    have hz : sc.B1.transpose.mulVec (fun _ => (1 : K)) = 0 := by
      funext j
      rw [b1_transpose_apply hb hr hl]
      have hm : sc.edges[j] ∈ sc.edges := List.getElem_mem _
      unfold valueAt
      rw [dif_pos (hr _ hm).1, dif_pos (hr _ hm).2]
      simp
    rw [hz, zero_dotProduct]

/-- C16: curl on triangle `[a,b,c]` is `f(ab) + f(bc) - f(ac)`, with the flow value stored at the
(first) position of each edge, whatever its stored orientation. -/
theorem C16_curl_exact (sc : SC K) (hb : sc.Built) (hl : NoLoops sc.edges) (f : Fin sc.E → K)
    (t : Fin sc.triangles.length) :
    ∃ a b c, ∃ iab ibc iac : Fin sc.edges.length, sc.triangles[t] = [a, b, c] ∧
      (sc.edges[iab] = (a, b) ∨ ((a, b) ∉ sc.edges ∧ sc.edges[iab] = (b, a))) ∧
      (sc.edges[ibc] = (b, c) ∨ ((b, c) ∉ sc.edges ∧ sc.edges[ibc] = (c, b))) ∧
      (sc.edges[iac] = (a, c) ∨ ((a, c) ∉ sc.edges ∧ sc.edges[iac] = (c, a))) ∧
      sc.getCurl f t = f iab + f ibc - f iac := by
  obtain ⟨a, b, c, ia, ib, ic, h0, h1, h2, h3, -, -, -, hs⟩ := hb.sum_b2 hl t
  refine ⟨a, b, c, ia, ib, ic, h0, listIndexOr_get h1, listIndexOr_get h2, listIndexOr_get h3, ?_⟩
  rw [← hs f]
  have hc : sc.getCurl f t = ∑ j : Fin sc.edges.length, sc.B2 j t * f j := rfl
  rw [hc]
  exact Finset.sum_congr rfl fun j _ => mul_comm _ _

/-- C16: on a consistently oriented complex gradients have no curl and triangle circulations
have no divergence. -/
theorem C16_curl_of_gradient (sc : SC K) (h : sc.WellFormed) (x : Fin sc.N → K) (y : Fin sc.T → K) :
    sc.getCurl (sc.B1.transpose.mulVec x) = 0 ∧ sc.getDivergence (sc.B2.mulVec y) = 0 := by
  have h0 := h.b1_mul_b2
  constructor
  · unfold SC.getCurl
    rw [Matrix.mulVec_mulVec, ← Matrix.transpose_mul, h0]
    simp
  · unfold SC.getDivergence
    rw [Matrix.mulVec_mulVec, h0]
    simp

/-! ## C17 -/

private theorem ofPairs_nodup {κ ν : Type} [DecidableEq κ] (l : List (κ × ν))
    (h : (l.map Prod.fst).Nodup) : Dict.ofPairs l = l := by
  have key : ∀ (l d : List (κ × ν)), ((d ++ l).map Prod.fst).Nodup →
      l.foldl (fun d p => Dict.set d p.1 p.2) d = d ++ l := by
    intro l
    induction l with
    | nil => intro d _; simp
    | cons p l ih =>
      intro d hd
      have hset : ∀ (d : List (κ × ν)) (k : κ) (v : ν), k ∉ d.map Prod.fst →
          Dict.set d k v = d ++ [(k, v)] := by
        intro d k v hk
        induction d with
        | nil => rfl
        | cons q d ihd =>
          simp only [List.map_cons, List.mem_cons, not_or] at hk
          have hq : ¬ q.1 = k := fun h => hk.1 h.symm
          simp [Dict.set, hq, ihd hk.2]
      rw [List.foldl_cons, hset d p.1 p.2 ?_, ih]
      · simp
      · simpa using hd
      · intro hmem
        simp only [List.map_append, List.map_cons] at hd
        exact (List.nodup_append.mp hd).2.2 _ hmem _ (by simp) rfl
  unfold Dict.ofPairs
  simpa using key l [] (by simpa using h)

omit [CommRing K] in
/-- C17: the feature accessors.  Keys of a Python dict are distinct, which is the hypothesis. -/
theorem C17_edge_features (sc : SC K) (hk : (Dict.keys sc.edgeFeatures).Nodup) (name : String)
    (hname : name ≠ "") :
    ((∃ d, sc.getEdgeFeatures (some name) = .ok (.inr d)) ↔
      ∀ kv ∈ sc.edgeFeatures, ∃ v, Dict.get? kv.2 name = some v) ∧
    (∀ d, sc.getEdgeFeatures (some name) = .ok (.inr d) →
      Dict.keys d = Dict.keys sc.edgeFeatures ∧
      ∀ kv ∈ sc.edgeFeatures, Dict.get? d kv.1 = Dict.get? kv.2 name) ∧
    (sc.getEdgeFeatures (some name) = .error .keyError ↔
      ∃ kv ∈ sc.edgeFeatures, Dict.get? kv.2 name = none) ∧
    sc.getEdgeFeatures none = .ok (.inl sc.edgeFeatures) ∧
    sc.getEdgeFeatures (some "") = .ok (.inl sc.edgeFeatures) ∧
    (sc.edgeFeatures = [] → sc.edgeFeatureNames = []) ∧
    (∀ e fs rest, sc.edgeFeatures = (e, fs) :: rest → sc.edgeFeatureNames = Dict.keys fs) := by
  have key : ∀ l : EdgeFeatures,
      ((∃ kv ∈ l, Dict.get? kv.2 name = none) ∧ (l.mapM fun kv => do
        let v ← Dict.getItem kv.2 name
        pure (kv.1, v) : Py (List (Edge × Cell))) = .error .keyError) ∨
      ((∀ kv ∈ l, ∃ v, Dict.get? kv.2 name = some v) ∧ ∃ items, (l.mapM fun kv => do
        let v ← Dict.getItem kv.2 name
        pure (kv.1, v) : Py (List (Edge × Cell))) = .ok items ∧
        items.map Prod.fst = l.map Prod.fst ∧
        ∀ kv ∈ l, ∃ v, Dict.get? kv.2 name = some v ∧ (kv.1, v) ∈ items) := by
    intro l
    induction l with
    | nil => right; exact ⟨by simp, [], rfl, rfl, by simp⟩
    | cons kv l ih =>
      rw [List.mapM_cons]
      cases hv : Dict.get? kv.2 name with
      | none =>
        left
        refine ⟨⟨kv, by simp, hv⟩, ?_⟩
        simp [Dict.getItem, hv, bind, Except.bind]
      | some v =>
        rcases ih with ⟨⟨kv', h1, h2⟩, h3⟩ | ⟨h1, items, h2, h3, h4⟩
        · left
          refine ⟨⟨kv', by simp [h1], h2⟩, ?_⟩
          rw [h3]
          simp [Dict.getItem, hv, bind, Except.bind, pure, Except.pure]
        · right
          refine ⟨?_, (kv.1, v) :: items, ?_, by simp [h3], ?_⟩
          · intro x hx
            rcases List.mem_cons.mp hx with rfl | hx
            · exact ⟨v, hv⟩
            · exact h1 x hx
          · rw [h2]
            simp [Dict.getItem, hv, bind, Except.bind, pure, Except.pure]
          · intro x hx
            rcases List.mem_cons.mp hx with rfl | hx
            · exact ⟨v, hv, by simp⟩
            · obtain ⟨w, hw, hm⟩ := h4 x hx
              exact ⟨w, hw, by simp [hm]⟩
  have lookup_mem : ∀ (d : List (Edge × Cell)) (k : Edge) (v : Cell), (d.map Prod.fst).Nodup →
      (k, v) ∈ d → Dict.get? d k = some v := by
    intro d
    induction d with
    | nil => intro k v _ h; simp at h
    | cons p d ih =>
      intro k v hnd hm
      simp only [List.map_cons, List.nodup_cons] at hnd
      rcases List.mem_cons.mp hm with rfl | hm
      · simp [Dict.get?]
      · have : p.1 ≠ k := by
          rintro rfl
          exact hnd.1 (List.mem_map.mpr ⟨_, hm, rfl⟩)
        simp [Dict.get?, this, ih k v hnd.2 hm]
  have hget : sc.getEdgeFeatures (some name) = (do
      let items ← sc.edgeFeatures.mapM fun kv => do
        let v ← Dict.getItem kv.2 name
        pure (kv.1, v)
      pure (.inr (Dict.ofPairs items))) := by
    simp [SC.getEdgeFeatures, hname]
  refine ⟨?_, ?_, ?_, rfl, by simp [SC.getEdgeFeatures], ?_, ?_⟩
  · rcases key sc.edgeFeatures with ⟨⟨kv, h1, h2⟩, h3⟩ | ⟨h1, items, h2, h3, h4⟩
    · constructor
      · rintro ⟨d, hd⟩
        rw [hget, h3] at hd; cases hd
      · intro h
        obtain ⟨v, hv⟩ := h kv h1
        rw [h2] at hv; cases hv
    · constructor
      · intro _; exact h1
      · intro _
        rw [hget, h2]
        exact ⟨_, rfl⟩
  · intro d hd
    rcases key sc.edgeFeatures with ⟨⟨kv, h1, h2⟩, h3⟩ | ⟨h1, items, h2, h3, h4⟩
    · rw [hget, h3] at hd; cases hd
    · rw [hget, h2] at hd
      have hnd : (items.map Prod.fst).Nodup := by rw [h3]; exact hk
      have hd' : d = items := by
        simp only [bind, Except.bind, pure, Except.pure, Except.ok.injEq, Sum.inr.injEq] at hd
        rw [← hd, ofPairs_nodup _ hnd]
      subst hd'
      refine ⟨h3, ?_⟩
      intro kv hkv
      obtain ⟨v, hv, hm⟩ := h4 kv hkv
      rw [hv]
      exact lookup_mem _ _ _ hnd hm
  · rcases key sc.edgeFeatures with ⟨h1, h3⟩ | ⟨h1, items, h2, h3, h4⟩
    · exact ⟨fun _ => h1, fun _ => by rw [hget, h3]; rfl⟩
    · constructor
      · intro h; rw [hget, h2] at h; cases h
      · rintro ⟨kv, hkv, hn⟩
        obtain ⟨v, hv⟩ := h1 kv hkv
        rw [hv] at hn; cases hn
  · intro h; simp [SC.edgeFeatureNames, h]
  · intro e fs rest h; simp [SC.edgeFeatureNames, h]

example : ∃ sc : SC ℤ, (Dict.keys sc.edgeFeatures).Nodup ∧ sc.edgeFeatures ≠ [] ∧ sc.Built := by
  obtain ⟨sc, h⟩ := SC.exists_built ℤ [0, 1, 2] [(0, 1), (1, 2)] [] []
    [((0, 1), [("distance", .num 3)]), ((1, 2), [("distance", .num 4)])]
    (by simp [ValidLabel]) (by simp)
  obtain ⟨-, -, -, -, hf, hb⟩ := SC.init_ok h
  exact ⟨sc, by rw [hf]; decide, by rw [hf]; decide, hb⟩

end Pytspl
