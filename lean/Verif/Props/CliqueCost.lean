import Verif.Lemmas.Cliques
import Mathlib.Data.Finset.Powerset
import Mathlib.Data.Finset.Card

/-!
# C138: how much work it is to find the triangles

`triangles` goes through all cliques that networkx enumerates and keeps those with three nodes.  One pass of the
loop of networkx yields one clique, so the number of passes is the length of the enumeration.
-/

namespace Pytspl

/-- `s` is a non-empty set of nodes of the graph which are pairwise joined by edges -/
def IsCliqueSet (edges : List Edge) (s : Finset Int) : Prop :=
  s.Nonempty ∧ (∀ u ∈ s, ∃ e ∈ edges, e.1 = u ∨ e.2 = u) ∧ ∀ u ∈ s, ∀ v ∈ s, u ≠ v → Joined edges u v

private theorem mem_enum (edges : List Edge) (t : List Int) : t ∈ enumerateAllCliques edges ↔
    t ≠ [] ∧ t.Sublist (graphNodes edges) ∧ t.Pairwise (Joined edges) := by
  have hp := enumerateAllCliques_perm edges
  have hnd := (hp.nodup_iff).mpr (nodup_cliqueSubs (laterNbrs edges) (graphNodes_spec edges).1)
  have hmem : t ∈ ([] :: enumerateAllCliques edges) ↔
      t.Sublist (graphNodes edges) ∧ t.Pairwise (Joined edges) := by
    rw [hp.mem_iff, mem_cliqueSubs]
    exact and_congr_right fun h => pairwise_laterNbrs edges h
  rw [← hmem, List.mem_cons]
  constructor
  · intro h
    refine ⟨?_, .inr h⟩
    rintro rfl
    exact (List.nodup_cons.mp hnd).1 h
  · rintro ⟨h1, h2⟩
    exact h2.resolve_left h1

private theorem nodup_enum (edges : List Edge) : (enumerateAllCliques edges).Nodup :=
  (List.nodup_cons.mp ((enumerateAllCliques_perm edges).nodup_iff.mpr
    (nodup_cliqueSubs (laterNbrs edges) (graphNodes_spec edges).1))).2

/-- C138: every clique of the graph, of any size, is visited exactly once, and nothing else is. -/
theorem C138_visits (b : SCBuilder) :
    ((enumerateAllCliques b.edges).map List.toFinset).Nodup ∧
    (∀ t ∈ enumerateAllCliques b.edges, t.Nodup) ∧
    ∀ s, s ∈ (enumerateAllCliques b.edges).map List.toFinset ↔ IsCliqueSet b.edges s := by
  have hg := graphNodes_spec b.edges
  have hn : ∀ t ∈ enumerateAllCliques b.edges, t.Nodup := fun t ht =>
    ((mem_enum _ _).1 ht).2.1.nodup hg.1
  refine ⟨?_, hn, fun s => ?_⟩
  · refine List.Nodup.map_on ?_ (nodup_enum _)
    intro x hx y hy hxy
    obtain ⟨-, hx1, -⟩ := (mem_enum _ _).1 hx
    obtain ⟨-, hy1, -⟩ := (mem_enum _ _).1 hy
    refine sublist_eq_of_perm hg.1 hx1 hy1 ?_
    rw [List.perm_ext_iff_of_nodup (hn x hx) (hn y hy)]
    intro a
    rw [← List.mem_toFinset, hxy, List.mem_toFinset]
  · rw [List.mem_map]
    constructor
    · rintro ⟨t, ht, rfl⟩
      obtain ⟨h0, h1, h2⟩ := (mem_enum _ _).1 ht
      refine ⟨?_, fun u hu => ?_, fun u hu v hv huv => ?_⟩
      · rw [List.toFinset_nonempty_iff]; exact h0
      · rw [List.mem_toFinset] at hu
        exact (hg.2 u).1 (h1.subset hu)
      · rw [List.mem_toFinset] at hu hv
        have : Std.Symm (Joined b.edges) := ⟨fun _ _ h => h.symm⟩
        exact h2.forall hu hv huv
    · rintro ⟨h0, h1, h2⟩
      have hs : ∀ u ∈ s, u ∈ graphNodes b.edges := fun u hu => (hg.2 u).2 (h1 u hu)
      refine ⟨(graphNodes b.edges).filter fun u => decide (u ∈ s), ?_, ?_⟩
      · rw [mem_enum]
        refine ⟨?_, List.filter_sublist, ?_⟩
        · obtain ⟨u, hu⟩ := h0
          intro he
          have : u ∈ (graphNodes b.edges).filter fun u => decide (u ∈ s) := by simp [hs u hu, hu]
          rw [he] at this
          simp at this
        · have hnd : ((graphNodes b.edges).filter fun u => decide (u ∈ s)).Pairwise (· ≠ ·) := hg.1.filter _
          refine hnd.imp_of_mem ?_
          intro u v hu hv huv
          simp only [List.mem_filter, decide_eq_true_eq] at hu hv
          exact h2 u hu.2 v hv.2 huv
      · ext u
        simp only [List.mem_toFinset, List.mem_filter, decide_eq_true_eq]
        exact ⟨fun h => h.2, fun h => ⟨hs u h, h⟩⟩

private theorem visits_card (edges : List Edge) : ∃ F : Finset (Finset Int), (∀ s, s ∈ F ↔ IsCliqueSet edges s) ∧
    F.card = (enumerateAllCliques edges).length := by
  obtain ⟨h1, -, h2⟩ := C138_visits { nodes := [], edges := edges }
  refine ⟨((enumerateAllCliques edges).map List.toFinset).toFinset, fun s => ?_, ?_⟩
  · rw [List.mem_toFinset]; exact h2 s
  · rw [List.toFinset_card_of_nodup h1, List.length_map]

/-- C138: as soon as `k` nodes are pairwise joined, at least `2 ^ k - 1` passes are made, although they contribute
no more than `k` choose 3 triangles. -/
theorem C138_exponential (b : SCBuilder) (s : Finset Int) (hs : IsCliqueSet b.edges s) :
    2 ^ s.card - 1 ≤ (enumerateAllCliques b.edges).length := by
  obtain ⟨F, hF, hc⟩ := visits_card b.edges
  have hsub : s.powerset.erase ∅ ⊆ F := by
    intro t ht
    rw [Finset.mem_erase, Finset.mem_powerset] at ht
    rw [hF]
    exact ⟨Finset.nonempty_iff_ne_empty.2 ht.1, fun u hu => hs.2.1 u (ht.2 hu), fun u hu v hv =>
      hs.2.2 u (ht.2 hu) v (ht.2 hv)⟩
  have h := Finset.card_le_card hsub
  rwa [Finset.card_erase_of_mem (Finset.empty_mem_powerset s), Finset.card_powerset, hc] at h

/-- C138: on `n` nodes there are at most `2 ^ n - 1` passes, and exactly that many if every two of the nodes are
joined; the triangles found are the sets of three nodes among the visited ones. -/
theorem C138_bound (b : SCBuilder) (nodes : Finset Int) (hn : ∀ u, u ∈ nodes ↔ ∃ e ∈ b.edges, e.1 = u ∨ e.2 = u) :
    (enumerateAllCliques b.edges).length ≤ 2 ^ nodes.card - 1 ∧
    ((∀ u ∈ nodes, ∀ v ∈ nodes, u ≠ v → Joined b.edges u v) →
      (enumerateAllCliques b.edges).length = 2 ^ nodes.card - 1 ∧ b.triangles.length = nodes.card.choose 3) := by
  obtain ⟨F, hF, hc⟩ := visits_card b.edges
  have hle : F ⊆ nodes.powerset.erase ∅ := by
    intro t ht
    rw [hF] at ht
    rw [Finset.mem_erase, Finset.mem_powerset]
    exact ⟨Finset.nonempty_iff_ne_empty.1 ht.1, fun u hu => (hn u).2 (ht.2.1 u hu)⟩
  have hcard : (nodes.powerset.erase ∅).card = 2 ^ nodes.card - 1 := by
    rw [Finset.card_erase_of_mem (Finset.empty_mem_powerset nodes), Finset.card_powerset]
  refine ⟨?_, fun hcomp => ?_⟩
  · rw [← hc, ← hcard]; exact Finset.card_le_card hle
  · have hEq : F = nodes.powerset.erase ∅ := by
      refine Finset.Subset.antisymm hle fun t ht => ?_
      rw [Finset.mem_erase, Finset.mem_powerset] at ht
      rw [hF]
      exact ⟨Finset.nonempty_iff_ne_empty.2 ht.1, fun u hu => (hn u).1 (ht.2 hu), fun u hu v hv =>
        hcomp u (ht.2 hu) v (ht.2 hv)⟩
    refine ⟨by rw [← hc, hEq, hcard], ?_⟩
    have h1 : b.triangles.length = ((enumerateAllCliques b.edges).filter fun x => decide (x.length = 3)).length := by
      unfold SCBuilder.triangles
      rw [List.length_map]
    obtain ⟨hnd, htn, hm⟩ := C138_visits b
    have h2 : (((enumerateAllCliques b.edges).filter fun x => decide (x.length = 3)).map List.toFinset).toFinset =
        nodes.powersetCard 3 := by
      ext t
      rw [List.mem_toFinset, List.mem_map, Finset.mem_powersetCard]
      constructor
      · rintro ⟨l, hl, rfl⟩
        rw [List.mem_filter, decide_eq_true_eq] at hl
        have h3 := (hm l.toFinset).1 (List.mem_map.2 ⟨l, hl.1, rfl⟩)
        exact ⟨fun u hu => (hn u).2 (h3.2.1 u hu), by rw [List.toFinset_card_of_nodup (htn l hl.1), hl.2]⟩
      · rintro ⟨hsub, h3⟩
        have hcl : IsCliqueSet b.edges t := ⟨Finset.card_pos.1 (by omega), fun u hu => (hn u).1 (hsub hu),
          fun u hu v hv => hcomp u (hsub hu) v (hsub hv)⟩
        obtain ⟨l, hl, rfl⟩ := List.mem_map.1 ((hm t).2 hcl)
        refine ⟨l, ?_, rfl⟩
        rw [List.mem_filter, decide_eq_true_eq, ← h3, List.toFinset_card_of_nodup (htn l hl)]
        exact ⟨hl, rfl⟩
    rw [h1, ← Finset.card_powersetCard, ← h2, List.toFinset_card_of_nodup, List.length_map]
    exact (List.filter_sublist.map List.toFinset).nodup hnd

/-- three nodes joined pairwise: seven passes for one triangle -/
example : (enumerateAllCliques [(0, 1), (0, 2), (1, 2)]).length = 7 ∧
    ({ nodes := [0, 1, 2], edges := [(0, 1), (0, 2), (1, 2)] } : SCBuilder).triangles.length = 1 := by
  have h := (C138_bound { nodes := [0, 1, 2], edges := [(0, 1), (0, 2), (1, 2)] } {0, 1, 2} (by
    intro u; simp; omega)).2 (by simp [Joined])
  exact h

end Pytspl
