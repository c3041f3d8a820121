import Verif.Props.Eigen
import Mathlib.Combinatorics.SimpleGraph.LapMatrix
import Mathlib.Combinatorics.SimpleGraph.Acyclic

/-!
# C98: the operators see the topology

The specification is Mathlib's: the graph of a complex as a `SimpleGraph`, its connected components and
its Laplacian matrix.
-/

namespace Pytspl

open Matrix

/-- The graph with nodes `0 .. n-1` in which two different nodes are adjacent if an edge of the list
joins them. -/
def graphOf (n : ℕ) (edges : List Edge) : SimpleGraph (Fin n) where
  Adj i j := i ≠ j ∧ Joined edges ((i : ℕ) : Int) ((j : ℕ) : Int)
  symm := ⟨fun _ _ h => ⟨h.1.symm, h.2.symm⟩⟩
  loopless := ⟨fun _ h => h.1 rfl⟩

instance (n : ℕ) (edges : List Edge) : DecidableRel (graphOf n edges).Adj :=
  fun _ _ => inferInstanceAs (Decidable (_ ∧ _))

/-- number of connected components of the graph of a complex -/
noncomputable def SC.numComponents {K : Type} (sc : SC K) : ℕ :=
  Nat.card (graphOf sc.nodes.length sc.edges).ConnectedComponent

private theorem valueAt_fin {n : ℕ} (x : Fin n → ℝ) (i : Fin n) : valueAt x ((i : ℕ) : Int) = x i := by
  unfold valueAt
  rw [dif_pos ⟨by omega, by omega⟩]
  congr 1

/-- The kernel of the node Laplacian is the kernel of Mathlib's Laplacian of the graph. -/
theorem L0_kernel_graph (sc : SC ℝ) (hb : sc.Built) (hr : EdgesInRange sc.nodes.length sc.edges)
    (hl : NoLoops sc.edges) (x : Fin sc.N → ℝ) :
    sc.L0.mulVec x = 0 ↔ ((graphOf sc.nodes.length sc.edges).lapMatrix ℝ).mulVec x = 0 := by
  rw [C10_laplacian_kernel sc hb hr hl, SimpleGraph.lapMatrix_mulVec_eq_zero_iff_forall_adj]
  constructor
  · rintro h i j ⟨-, hj | hj⟩
    · have := h _ hj
      simpa [valueAt_fin] using this
    · have := h _ hj
      simpa [valueAt_fin] using this.symm
  · intro h e he
    obtain ⟨⟨a1, a2⟩, b1, b2⟩ := hr e he
    obtain ⟨i, hi⟩ : ∃ i : Fin sc.nodes.length, e.1 = ((i : ℕ) : Int) := ⟨⟨e.1.toNat, by omega⟩, by simp; omega⟩
    obtain ⟨j, hj⟩ : ∃ j : Fin sc.nodes.length, e.2 = ((j : ℕ) : Int) := ⟨⟨e.2.toNat, by omega⟩, by simp; omega⟩
    rw [hi, hj, valueAt_fin, valueAt_fin]
    apply h
    refine ⟨?_, Or.inl ?_⟩
    · rintro rfl
      exact hl e he (hi.trans hj.symm)
    · rw [← hi, ← hj]; exact he

/-- C98: `N = rank(B1) + number of connected components`; every two nodes of a component have the same value
in a signal of the kernel. -/
theorem C98_components (sc : SC ℝ) (hb : sc.Built) (hr : EdgesInRange sc.nodes.length sc.edges)
    (hl : NoLoops sc.edges) :
    sc.B1.rank + sc.numComponents = sc.nodes.length ∧
    ∀ x : Fin sc.N → ℝ, sc.L0.mulVec x = 0 ↔
      ∀ i j, (graphOf sc.nodes.length sc.edges).Reachable i j → x i = x j := by
  classical
  constructor
  · have h1 : sc.L0.toLin'.ker = ((graphOf sc.nodes.length sc.edges).lapMatrix ℝ).toLin'.ker := by
      ext x
      simp only [LinearMap.mem_ker, Matrix.toLin'_apply]
      exact L0_kernel_graph sc hb hr hl x
    have h2 := SimpleGraph.card_connectedComponent_eq_finrank_ker_toLin'_lapMatrix
      (G := graphOf sc.nodes.length sc.edges)
    rw [← h1] at h2
    have h3 := LinearMap.finrank_range_add_finrank_ker sc.L0.toLin'
    rw [Module.finrank_fin_fun] at h3
    unfold SC.numComponents
    rw [Nat.card_eq_fintype_card, h2]
    have h4 : Module.finrank ℝ (LinearMap.range sc.L0.toLin') = sc.B1.rank := by
      have : sc.L0.rank = sc.B1.rank := by
        unfold SC.L0
        exact rank_self_mul_transpose _
      rw [← this]
      rfl
    rw [h4] at h3
    exact h3
  · intro x
    rw [L0_kernel_graph sc hb hr hl, SimpleGraph.lapMatrix_mulVec_eq_zero_iff_forall_reachable]

/-- C98: the dimension of the space of harmonic flows, and Euler's formula:
`#nodes - #edges + #triangles = #components - dim harmonic + dim ker(B2)`. -/
theorem C98_euler (sc : SC ℝ) (hw : sc.WellFormed) :
    Module.finrank ℝ (sc.L1.toLin'.ker) + sc.nodes.length + sc.B2.rank = sc.edges.length + sc.numComponents ∧
    (sc.nodes.length : ℤ) - sc.edges.length + sc.triangles.length =
      sc.numComponents - Module.finrank ℝ (sc.L1.toLin'.ker) + Module.finrank ℝ (sc.B2.toLin'.ker) := by
  obtain ⟨lib⟩ := NumLib.exists
  have h1 := (C98_components sc hw.built hw.inRange hw.noLoops).1
  have h2 := LinearMap.finrank_range_add_finrank_ker sc.L1.toLin'
  rw [Module.finrank_fin_fun] at h2
  have h3 := LinearMap.finrank_range_add_finrank_ker sc.B2.toLin'
  rw [Module.finrank_fin_fun] at h3
  have h4 : Module.finrank ℝ (LinearMap.range sc.L1.toLin') = sc.B1.rank + sc.B2.rank := by
    rw [← rank_add lib hw]
    rfl
  have h5 : Module.finrank ℝ (LinearMap.range sc.B2.toLin') = sc.B2.rank := rfl
  change _ = sc.edges.length at h2
  change _ = sc.triangles.length at h3
  constructor <;> omega

/-- C98: what the eigenvector functions return: one gradient eigenvector for each node but one per connected
component, and as many harmonic eigenvectors as there are independent unfilled cycles. -/
theorem C98_eigenvectors (lib : NumLib) (sc : SC ℝ) (hw : sc.WellFormed) (tol : ℝ) (ht : machineEps ≤ tol)
    (hgap : NoSmallEigenvalue sc.L1 tol) (eh ec eg : EigPairs sc.E) (hp : EigParts lib sc tol eh ec eg) :
    eg.num + sc.numComponents = sc.nodes.length ∧
    eh.num + ec.num + sc.nodes.length = sc.edges.length + sc.numComponents ∧
    (sc.triangles = [] → eh.num + sc.nodes.length = sc.edges.length + sc.numComponents) := by
  obtain ⟨k1, k2, k3, -⟩ := C27_counts hw tol ht hgap eh ec eg hp
  have h1 := (C98_components sc hw.built hw.inRange hw.noLoops).1
  change _ = sc.edges.length at k1
  refine ⟨by omega, by omega, fun h => ?_⟩
  have : sc.B2.rank ≤ sc.triangles.length := by
    have := rank_le_card_width sc.B2
    simpa using this
  have h0 : sc.triangles.length = 0 := by rw [h]; rfl
  omega

/-- The unit flow on an edge that is a bridge is a gradient, and on another edge it is not. -/
private theorem unit_gradient (sc : SC ℝ) (h : sc.OnSimpleGraph) (j : Fin sc.E) (i k : Fin sc.nodes.length)
    (hi : sc.edges[j].1 = ((i : ℕ) : Int)) (hk : sc.edges[j].2 = ((k : ℕ) : Int)) :
    (graphOf sc.nodes.length sc.edges).IsBridge s(i, k) ↔
      ∃ x : Fin sc.N → ℝ, sc.B1.transpose.mulVec x = Pi.single j 1 := by
  classical
  set G := (graphOf sc.nodes.length sc.edges).deleteEdges {s(i, k)} with hG
  have hval := fun (x : Fin sc.N → ℝ) => b1_transpose_apply h.built h.inRange h.noLoops x
  rw [SimpleGraph.isBridge_iff]
  constructor
  · intro hb
    refine ⟨fun w => if G.Reachable i w then 0 else 1, ?_⟩
    funext j'
    rw [hval]
    by_cases hj : j' = j
    · subst hj
      rw [hi, hk, valueAt_fin, valueAt_fin, Pi.single_eq_same, if_neg hb, if_pos (SimpleGraph.Reachable.refl _)]
      norm_num
    · rw [Pi.single_eq_of_ne hj]
      have hm : sc.edges[j'] ∈ sc.edges := List.getElem_mem _
      obtain ⟨⟨a1, a2⟩, b1, b2⟩ := h.inRange _ hm
      obtain ⟨p, hp⟩ : ∃ i : Fin sc.nodes.length, sc.edges[j'].1 = ((i : ℕ) : Int) :=
        ⟨⟨sc.edges[j'].1.toNat, by omega⟩, (Int.toNat_of_nonneg a1).symm⟩
      obtain ⟨q, hq⟩ : ∃ i : Fin sc.nodes.length, sc.edges[j'].2 = ((i : ℕ) : Int) :=
        ⟨⟨sc.edges[j'].2.toNat, by omega⟩, (Int.toNat_of_nonneg b1).symm⟩
      have hne : sc.edges[j'] ≠ sc.edges[j] ∧ sc.edges[j'] ≠ sc.edges[j].swap := by
        have hpw := List.pairwise_iff_getElem.mp h.noRepeats
        rcases lt_or_gt_of_ne (fun hh => hj (Fin.ext hh) : (j' : ℕ) ≠ j) with hlt | hlt
        · exact hpw _ _ _ _ hlt
        · obtain ⟨h1, h2⟩ := hpw _ _ j.isLt j'.isLt hlt
          refine ⟨fun hh => h1 hh.symm, fun hh => h2 ?_⟩
          have : sc.edges[(j' : ℕ)] = sc.edges[(j : ℕ)].swap := hh
          rw [this, Prod.swap_swap]
      have hadj : G.Adj p q := by
        rw [hG, SimpleGraph.deleteEdges_adj]
        refine ⟨⟨?_, Or.inl ?_⟩, ?_⟩
        · rintro rfl
          exact h.noLoops _ hm (hp.trans hq.symm)
        · rw [← hp, ← hq]; exact hm
        · intro hs
          rw [Set.mem_singleton_iff, Sym2.eq_iff] at hs
          rcases hs with ⟨rfl, rfl⟩ | ⟨rfl, rfl⟩
          · exact hne.1 (Prod.ext (hp.trans hi.symm) (hq.trans hk.symm))
          · exact hne.2 (Prod.ext (hp.trans hk.symm) (hq.trans hi.symm))
      rw [hp, hq, valueAt_fin, valueAt_fin]
      have : G.Reachable i p ↔ G.Reachable i q :=
        ⟨fun r => r.trans hadj.reachable, fun r => r.trans hadj.symm.reachable⟩
      simp only [this, sub_self]
  · rintro ⟨x, hx⟩ hr
    have hconst : ∀ p q, G.Adj p q → x p = x q := by
      intro p q hpq
      rw [hG, SimpleGraph.deleteEdges_adj] at hpq
      obtain ⟨⟨-, hj⟩, hs⟩ := hpq
      rw [Set.mem_singleton_iff, Sym2.eq_iff] at hs
      have key : ∀ p q : Fin sc.nodes.length, (((p : ℕ) : Int), ((q : ℕ) : Int)) ∈ sc.edges →
          ¬ (p = i ∧ q = k) → x p = x q := by
        intro p q hm hn
        obtain ⟨n, hn', he⟩ := List.getElem_of_mem hm
        have h1 := congrFun hx ⟨n, hn'⟩
        rw [hval, Pi.single_eq_of_ne] at h1
        · simp only [Fin.getElem_fin] at h1
          rw [he, valueAt_fin, valueAt_fin] at h1
          linarith
        · rintro rfl
          simp only [Fin.getElem_fin] at hi hk
          rw [he] at hi hk
          refine hn ⟨Fin.ext ?_, Fin.ext ?_⟩
          · simpa using hi
          · simpa using hk
      rcases hj with hj | hj
      · exact key _ _ hj (fun hh => hs (Or.inl hh))
      · exact (key _ _ hj (fun hh => hs (Or.inr ⟨hh.2, hh.1⟩))).symm
    have hreach : ∀ p q, G.Reachable p q → x p = x q := by
      rintro p q ⟨w⟩
      induction w with
      | nil => rfl
      | cons ha _ ih => exact (hconst _ _ ha).trans ih
    have hik := hreach i k hr
    have := congrFun hx j
    rw [hval, hi, hk, valueAt_fin, valueAt_fin, Pi.single_eq_same] at this
    linarith

/-- C98: on a simple graph every flow is its own gradient component exactly when the graph has no cycle. -/
theorem C98_forest (lib : NumLib) (sc : SC ℝ) (h : sc.OnSimpleGraph) :
    (∀ f : Fin sc.E → ℝ, sc.getComponentFlow lib f "gradient" false = .ok f) ↔
      (graphOf sc.nodes.length sc.edges).IsAcyclic := by
  have hgrad : (∀ f : Fin sc.E → ℝ, sc.getComponentFlow lib f "gradient" false = .ok f) ↔
      ∀ f : Fin sc.E → ℝ, ∃ x : Fin sc.N → ℝ, sc.B1.transpose.mulVec x = f := by
    refine forall_congr' fun f => ?_
    obtain ⟨g, c, hh, hp⟩ := HodgeParts.exists lib sc f
    have hg := hp.grad
    constructor
    · intro hf
      rw [hf] at hg
      cases hg
      exact hp.proj.1.1
    · rintro ⟨x, hx⟩
      have := hp.proj.1.unique (IsProj.self ⟨x, hx⟩)
      rw [hg, this]
  rw [hgrad, SimpleGraph.isAcyclic_iff_forall_adj_isBridge]
  constructor
  · rintro hf i k ⟨-, hj | hj⟩
    · obtain ⟨n, hn, he⟩ := List.getElem_of_mem hj
      exact (unit_gradient sc h ⟨n, hn⟩ i k (by simp [he]) (by simp [he])).mpr (hf _)
    · obtain ⟨n, hn, he⟩ := List.getElem_of_mem hj
      rw [Sym2.eq_swap]
      exact (unit_gradient sc h ⟨n, hn⟩ k i (by simp [he]) (by simp [he])).mpr (hf _)
  · intro hb f
    have hu : ∀ j : Fin sc.E, ∃ x : Fin sc.N → ℝ, sc.B1.transpose.mulVec x = Pi.single j 1 := by
      intro j
      have hm : sc.edges[j] ∈ sc.edges := List.getElem_mem _
      obtain ⟨⟨a1, a2⟩, b1, b2⟩ := h.inRange _ hm
      obtain ⟨p, hp⟩ : ∃ i : Fin sc.nodes.length, sc.edges[j].1 = ((i : ℕ) : Int) :=
        ⟨⟨sc.edges[j].1.toNat, by omega⟩, (Int.toNat_of_nonneg a1).symm⟩
      obtain ⟨q, hq⟩ : ∃ i : Fin sc.nodes.length, sc.edges[j].2 = ((i : ℕ) : Int) :=
        ⟨⟨sc.edges[j].2.toNat, by omega⟩, (Int.toNat_of_nonneg b1).symm⟩
      refine (unit_gradient sc h j p q hp hq).mp (hb ⟨?_, Or.inl ?_⟩)
      · rintro rfl
        exact h.noLoops _ hm (hp.trans hq.symm)
      · rw [← hp, ← hq]; exact hm
    choose x hx using hu
    refine ⟨∑ j, f j • x j, ?_⟩
    rw [Matrix.mulVec_sum]
    simp only [Matrix.mulVec_smul, hx]
    funext k
    simp [Finset.sum_apply, Pi.single_apply]

example : ∃ sc : SC ℝ, sc.WellFormed ∧ sc.OnSimpleGraph ∧ sc.edges.length = 6 ∧ sc.triangles.length = 1 := by
  obtain ⟨sc, h, h', -, h2, h3⟩ := sample_wellFormed ℝ
  exact ⟨sc, h, h', by rw [h2]; decide, by rw [h3]; decide⟩

example : ∃ sc : SC ℝ, sc.OnSimpleGraph ∧ sc.edges ≠ [] ∧ (graphOf sc.nodes.length sc.edges).IsAcyclic := by
  obtain ⟨sc, h, hw⟩ := SC.exists_simple ℝ [0, 1] [(0, 1)] [] [] [] (by decide) (by decide) (by decide) (by simp)
  obtain ⟨h1, h2, h3, -, -, -⟩ := SC.init_ok h
  refine ⟨sc, hw, by rw [h2]; decide, SimpleGraph.IsAcyclic.of_card_le_two ?_⟩
  rw [ENat.card_eq_coe_fintype_card, Fintype.card_fin, h1]
  rfl

end Pytspl
