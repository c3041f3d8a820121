import Verif.Model.SCBuilder
import Verif.Lemmas.Sorting
import Verif.Spec.Complex
import Mathlib.Data.List.Perm.Basic
import Mathlib.Data.List.Nodup

/-!
# Correctness of the clique enumeration
-/

namespace Pytspl

open List

variable (nb : Int → List Int)

set_option wf.preprocess false in
/-- the sublists of `c` in which every later element is in `nb` of every earlier one -/
def cliqueSubs (nb : Int → List Int) : List Int → List (List Int)
  | [] => [[]]
  | u :: rest => cliqueSubs nb rest ++
      (cliqueSubs nb (rest.filter fun w => decide (w ∈ nb u))).map (u :: ·)
termination_by l => l.length
decreasing_by
  · simp
  · have := List.length_filter_le (fun w => decide (w ∈ nb u)) rest
    simp only [List.length_cons]; omega

theorem mem_cliqueSubs (c s : List Int) :
    s ∈ cliqueSubs nb c ↔ s.Sublist c ∧ s.Pairwise (fun u w => w ∈ nb u) := by
  induction c using cliqueSubs.induct (nb := nb) generalizing s with
  | case1 =>
    simp only [cliqueSubs, mem_singleton, sublist_nil]
    exact ⟨fun h => ⟨h, by simp [h]⟩, fun h => h.1⟩
  | case2 u rest ih1 ih2 =>
    rw [cliqueSubs, mem_append, ih1, mem_map]
    simp only [ih2]
    constructor
    · rintro (⟨h1, h2⟩ | ⟨t, ⟨h1, h2⟩, rfl⟩)
      · exact ⟨h1.cons u, h2⟩
      · refine ⟨(h1.trans filter_sublist).cons_cons u, ?_⟩
        rw [pairwise_cons]
        refine ⟨fun a ha => ?_, h2⟩
        have := h1.subset ha
        rw [mem_filter] at this
        simpa using this.2
    · rintro ⟨h1, h2⟩
      cases h1 with
      | cons _ h => exact .inl ⟨h, h2⟩
      | @cons_cons t _ _ h =>
        rw [pairwise_cons] at h2
        refine .inr ⟨t, ⟨?_, h2.2⟩, rfl⟩
        have : t = t.filter fun w => decide (w ∈ nb u) := by
          rw [eq_comm, filter_eq_self]
          intro a ha; simpa using h2.1 a ha
        rw [this]
        exact h.filter _

theorem nodup_cliqueSubs {c : List Int} (hc : c.Nodup) : (cliqueSubs nb c).Nodup := by
  induction c using cliqueSubs.induct (nb := nb) with
  | case1 => simp [cliqueSubs]
  | case2 u rest ih1 ih2 =>
    rw [cliqueSubs, nodup_append]
    have hc' := nodup_cons.mp hc
    refine ⟨ih1 hc'.2, ?_, ?_⟩
    · exact (ih2 (hc'.2.filter _)).map (fun a b h => (List.cons.inj h).2)
    · intro a ha b hb
      rw [mem_map] at hb
      obtain ⟨t, -, rfl⟩ := hb
      rintro rfl
      have := ((mem_cliqueSubs nb _ _).mp ha).1.subset (mem_cons_self)
      exact hc'.1 this

theorem push_perm (base c : List Int) :
    (base :: (pushCliques nb base c).flatMap fun p => (cliqueSubs nb p.2).map (p.1 ++ ·)).Perm
      ((cliqueSubs nb c).map (base ++ ·)) := by
  induction c with
  | nil => simp [pushCliques, cliqueSubs]
  | cons u rest ih =>
    rw [pushCliques, flatMap_cons, cliqueSubs, map_append, map_map]
    have h1 : (cliqueSubs nb (rest.filter fun w => decide (w ∈ nb u))).map (base ++ [u] ++ ·) =
        (cliqueSubs nb (rest.filter fun w => decide (w ∈ nb u))).map
          ((fun x => base ++ x) ∘ fun x => u :: x) := by
      apply map_congr_left
      intro x _
      simp
    simp only [h1]
    calc _ ~ _ ++ (base :: _) := (perm_middle).symm
      _ ~ _ := (ih.append_left _).trans perm_append_comm

theorem cliqueLoop_perm (q : List (List Int × List Int)) :
    (cliqueLoop nb q).Perm (q.flatMap fun p => (cliqueSubs nb p.2).map (p.1 ++ ·)) := by
  induction q using cliqueLoop.induct (nb := nb) with
  | case1 => simp [cliqueLoop]
  | case2 base cn queue ih =>
    rw [cliqueLoop, flatMap_cons]
    rw [flatMap_append] at ih
    calc _ ~ base :: (_ ++ _) := ih.cons base
      _ ~ _ ++ (base :: _) := (perm_middle).symm
      _ ~ _ ++ _ := (push_perm nb base cn).append_left _
      _ ~ _ := perm_append_comm

theorem graphNodes_spec (edges : List Edge) : (graphNodes edges).Nodup ∧
    ∀ u, u ∈ graphNodes edges ↔ ∃ e ∈ edges, e.1 = u ∨ e.2 = u := by
  have key : ∀ (es : List Edge) (s : List Int), s.Nodup →
      (es.foldl (fun s e => setAdd (setAdd s e.1) e.2) s).Nodup ∧
      ∀ u, u ∈ es.foldl (fun s e => setAdd (setAdd s e.1) e.2) s ↔
        u ∈ s ∨ ∃ e ∈ es, e.1 = u ∨ e.2 = u := by
    intro es
    induction es with
    | nil => intro s hs; simp [hs]
    | cons e es ih =>
      intro s hs
      obtain ⟨h1, h2⟩ := ih _ (nodup_setAdd (nodup_setAdd hs e.1) e.2)
      refine ⟨h1, fun u => ?_⟩
      rw [foldl_cons, h2, mem_setAdd, mem_setAdd]
      simp only [mem_cons, exists_eq_or_imp, eq_comm (a := u), or_assoc]
  obtain ⟨h1, h2⟩ := key edges [] (by simp)
  exact ⟨h1, fun u => by rw [graphNodes, h2]; simp⟩

theorem graphAdj_iff (edges : List Edge) (u v : Int) : graphAdj edges u v = true ↔ Joined edges u v := by
  simp [graphAdj, Joined]

/-- for a later node, being in `laterNbrs` is adjacency -/
theorem laterNbrs_of_split {edges : List Edge} {pre rest : List Int} {u : Int}
    (h : graphNodes edges = pre ++ u :: rest) :
    laterNbrs edges u = rest.filter (graphAdj edges u) := by
  have hnd := (graphNodes_spec edges).1
  rw [h] at hnd
  have hu : u ∉ pre := by
    intro hm
    exact (nodup_append.mp hnd).2.2 _ hm _ (by simp) rfl
  unfold laterNbrs
  rw [h, idxOf_append_of_notMem hu]
  simp

/-- the initial queue is what pushing all nodes on an empty base would give -/
theorem init_queue (edges : List Edge) :
    ((graphNodes edges).map fun u => ([u], laterNbrs edges u)) =
      pushCliques (laterNbrs edges) [] (graphNodes edges) := by
  have key : ∀ (rest pre : List Int), graphNodes edges = pre ++ rest →
      (rest.map fun u => ([u], laterNbrs edges u)) = pushCliques (laterNbrs edges) [] rest := by
    intro rest
    induction rest with
    | nil => intro pre _; rfl
    | cons u rest ih =>
      intro pre h
      rw [pushCliques, map_cons, ih (pre ++ [u]) (by simp [h])]
      simp only [nil_append, cons.injEq, Prod.mk.injEq, true_and, and_true]
      rw [laterNbrs_of_split h]
      apply filter_congr
      intro w hw
      simp [mem_filter, hw]
  exact key _ [] rfl

theorem enumerateAllCliques_perm (edges : List Edge) :
    ([] :: enumerateAllCliques edges).Perm (cliqueSubs (laterNbrs edges) (graphNodes edges)) := by
  unfold enumerateAllCliques
  rw [init_queue]
  refine ((cliqueLoop_perm _ _).cons []).trans ?_
  have := push_perm (laterNbrs edges) [] (graphNodes edges)
  simpa using this

theorem pairwise_laterNbrs (edges : List Edge) {s : List Int} (hs : s.Sublist (graphNodes edges)) :
    s.Pairwise (fun u w => w ∈ laterNbrs edges u) ↔ s.Pairwise (Joined edges) := by
  have key : ∀ (rest pre : List Int), graphNodes edges = pre ++ rest → ∀ s : List Int, s.Sublist rest →
      (s.Pairwise (fun u w => w ∈ laterNbrs edges u) ↔ s.Pairwise (Joined edges)) := by
    intro rest
    induction rest with
    | nil => intro pre _ s hs; simp [sublist_nil.mp hs]
    | cons u rest ih =>
      intro pre h s hs
      have ih' := ih (pre ++ [u]) (by simp [h])
      cases hs with
      | cons _ h' => exact ih' s h'
      | @cons_cons t _ _ h' =>
        rw [pairwise_cons, pairwise_cons, ih' t h', laterNbrs_of_split h]
        refine and_congr_left fun _ => forall₂_congr fun w hw => ?_
        simp [mem_filter, h'.subset hw, graphAdj_iff]
  exact key _ [] rfl s hs

/-- two sublists of a duplicate-free list with the same elements are equal -/
theorem sublist_eq_of_perm {α : Type} {l s t : List α} (hl : l.Nodup) (hs : s.Sublist l)
    (ht : t.Sublist l) (hp : s.Perm t) : s = t := by
  induction l generalizing s t with
  | nil => rw [sublist_nil.mp hs, sublist_nil.mp ht]
  | cons a l ih =>
    have hl' := nodup_cons.mp hl
    cases hs with
    | cons _ hs =>
      cases ht with
      | cons _ ht => exact ih hl'.2 hs ht hp
      | cons_cons _ ht => exact absurd (hs.subset (hp.symm.subset (by simp))) hl'.1
    | cons_cons _ hs =>
      cases ht with
      | cons _ ht => exact absurd (ht.subset (hp.subset (by simp))) hl'.1
      | cons_cons _ ht => rw [ih hl'.2 hs ht (hp.cons_inv)]

theorem Joined.symm {edges : List Edge} {u v : Int} (h : Joined edges u v) : Joined edges v u := Or.symm h

theorem Joined.mem_graphNodes {edges : List Edge} {u v : Int} (h : Joined edges u v) :
    u ∈ graphNodes edges := by
  rw [(graphNodes_spec edges).2]
  rcases h with h | h
  · exact ⟨_, h, .inl rfl⟩
  · exact ⟨_, h, .inr rfl⟩

/-- the cliques of size 3, before sorting -/
theorem cliques3 (edges : List Edge) :
    (((enumerateAllCliques edges).filter fun x => decide (x.length = 3)).Nodup) ∧
    ∀ t, t ∈ ((enumerateAllCliques edges).filter fun x => decide (x.length = 3)) ↔
      t.Sublist (graphNodes edges) ∧ t.Pairwise (Joined edges) ∧ t.length = 3 := by
  have hp := enumerateAllCliques_perm edges
  have hnd := (hp.nodup_iff).mpr (nodup_cliqueSubs (laterNbrs edges) (graphNodes_spec edges).1)
  refine ⟨(nodup_cons.mp hnd).2.filter _, fun t => ?_⟩
  rw [mem_filter]
  have hmem : t ∈ ([] :: enumerateAllCliques edges) ↔
      t.Sublist (graphNodes edges) ∧ t.Pairwise (Joined edges) := by
    rw [hp.mem_iff, mem_cliqueSubs]
    exact and_congr_right fun h => pairwise_laterNbrs edges h
  simp only [decide_eq_true_eq]
  constructor
  · rintro ⟨h1, h2⟩
    obtain ⟨h3, h4⟩ := hmem.mp (by simp [h1])
    exact ⟨h3, h4, h2⟩
  · rintro ⟨h1, h2, h3⟩
    refine ⟨?_, h3⟩
    have := hmem.mpr ⟨h1, h2⟩
    rcases mem_cons.mp this with rfl | h
    · simp at h3
    · exact h

theorem pairwise_three {R : Int → Int → Prop} (a b c : Int) :
    [a, b, c].Pairwise R ↔ R a b ∧ R a c ∧ R b c := by
  simp [and_assoc]

theorem triangles_nodup (b : SCBuilder) : b.triangles.Nodup := by
  obtain ⟨hnd, hmem⟩ := cliques3 b.edges
  unfold SCBuilder.triangles
  refine (nodup_map_iff_inj_on hnd).mpr ?_
  intro x hx y hy h
  have h1 := (hmem x).mp hx
  have h2 := (hmem y).mp hy
  refine sublist_eq_of_perm (graphNodes_spec b.edges).1 h1.1 h2.1 ?_
  exact (sortedInts_perm x).symm.trans (h ▸ sortedInts_perm y)

theorem mem_triangles (b : SCBuilder) (t : List Int) : t ∈ b.triangles ↔
    ∃ x y z, t = [x, y, z] ∧ x < y ∧ y < z ∧ Joined b.edges x y ∧ Joined b.edges y z ∧
      Joined b.edges x z := by
  obtain ⟨-, hmem⟩ := cliques3 b.edges
  have hgn := (graphNodes_spec b.edges).1
  unfold SCBuilder.triangles
  rw [mem_map]
  constructor
  · rintro ⟨s, hs, rfl⟩
    obtain ⟨h1, h2, h3⟩ := (hmem s).mp hs
    have hlt := sortedInts_lt (h1.nodup hgn)
    have hlen : (sortedInts s).length = 3 := by rw [(sortedInts_perm s).length_eq, h3]
    have hj : (sortedInts s).Pairwise (Joined b.edges) :=
      ((sortedInts_perm s).pairwise_iff (fun {_ _} h => Joined.symm h)).mpr h2
    generalize sortedInts s = r at hlt hlen hj
    obtain ⟨x, y, z, rfl⟩ := length_eq_three.mp hlen
    rw [pairwise_three] at hlt hj
    exact ⟨x, y, z, rfl, hlt.1, hlt.2.2, hj.1, hj.2.2, hj.2.1⟩
  · rintro ⟨x, y, z, rfl, hxy, hyz, j1, j2, j3⟩
    have hnd : [x, y, z].Nodup := by simp; omega
    have hsub : [x, y, z] ⊆ graphNodes b.edges := by
      intro w hw
      simp only [mem_cons, not_mem_nil, or_false] at hw
      rcases hw with rfl | rfl | rfl
      · exact j1.mem_graphNodes
      · exact j2.mem_graphNodes
      · exact j2.symm.mem_graphNodes
    obtain ⟨s, hp, hs⟩ := (hnd.subperm hsub)
    refine ⟨s, (hmem s).mpr ⟨hs, ?_, by rw [hp.length_eq]; rfl⟩, ?_⟩
    · rw [hp.pairwise_iff (fun {_ _} h => Joined.symm h), pairwise_three]
      exact ⟨j1, j3, j2⟩
    · refine sorted_unique (sortedInts_pairwise _) ?_ ((sortedInts_perm s).trans hp)
      rw [pairwise_three]; omega

end Pytspl
