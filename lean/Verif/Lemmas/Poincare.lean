import Verif.Props.Topology

/-!
# A discrete Poincaré inequality

Differences of a node signal along a path are bounded by the differences along the edges.
-/

namespace Pytspl

open Matrix

variable {n : ℕ}

/-- Any two nodes which are connected at all are connected by a walk of at most `D` edges. -/
def DiameterLE (G : SimpleGraph (Fin n)) (D : ℕ) : Prop :=
  ∀ i j, G.Reachable i j → ∃ w : G.Walk i j, w.length ≤ D

/-- The diameter of a graph is less than the number of its nodes. -/
theorem diameterLE_card (G : SimpleGraph (Fin n)) : DiameterLE G (n - 1) := by
  intro i j h
  obtain ⟨p, hp⟩ := h.exists_isPath
  refine ⟨p, ?_⟩
  have := hp.length_lt
  rw [Fintype.card_fin] at this
  omega

private def weight (q : Fin n → ℝ) : Sym2 (Fin n) → ℝ :=
  Sym2.lift ⟨fun a b => (q a - q b) ^ 2, fun a b => by ring⟩

private theorem weight_nonneg (q : Fin n → ℝ) (e : Sym2 (Fin n)) : 0 ≤ weight q e := by
  induction e with
  | _ a b => exact sq_nonneg _

private theorem walk_bound {G : SimpleGraph (Fin n)} (q : Fin n → ℝ) {i j : Fin n} (p : G.Walk i j) :
    (q i - q j) ^ 2 ≤ p.length * (p.edges.map (weight q)).sum := by
  induction p with
  | nil => simp
  | @cons a b c h p ih =>
    rw [SimpleGraph.Walk.edges_cons, List.map_cons, List.sum_cons, SimpleGraph.Walk.length_cons]
    have hw : weight q s(a, b) = (q a - q b) ^ 2 := rfl
    rw [hw]
    push_cast
    have hn : (0 : ℝ) ≤ p.length := Nat.cast_nonneg _
    set W := (p.edges.map (weight q)).sum with hW
    have hW0 : 0 ≤ W := List.sum_nonneg fun x hx => by
      obtain ⟨e, -, rfl⟩ := List.mem_map.mp hx
      exact weight_nonneg q e
    have e1 : q a - q c = (q a - q b) + (q b - q c) := by ring
    rw [e1]
    generalize q a - q b = d at *
    generalize q b - q c = r at *
    rcases Nat.eq_zero_or_pos p.length with h0 | h0
    · rw [h0] at ih ⊢
      have : r = 0 := by
        have : r ^ 2 ≤ 0 := by simpa using ih
        nlinarith
      rw [this]
      push_cast
      nlinarith
    · have hn1 : (1 : ℝ) ≤ p.length := by exact_mod_cast h0
      generalize (p.length : ℝ) = m at *
      have k : 0 ≤ m * ((m + 1) * (d ^ 2 + W) - (d + r) ^ 2) := by
        nlinarith [sq_nonneg (m * d - r), mul_nonneg hn hW0]
      have := nonneg_of_mul_nonneg_right k (by linarith)
      linarith

/-- squared difference of two connected nodes, by the differences over the edges of the list -/
theorem difference_bound (edges : List Edge) (hr : EdgesInRange n edges) (D : ℕ) (hD : DiameterLE (graphOf n edges) D)
    (q : Fin n → ℝ) (i j : Fin n) (h : (graphOf n edges).Reachable i j) :
    (q i - q j) ^ 2 ≤ D * ∑ k : Fin edges.length, (valueAt q edges[k].2 - valueAt q edges[k].1) ^ 2 := by
  classical
  obtain ⟨w, hw⟩ := hD i j h
  have hp := w.bypass_isPath
  have hl := w.length_bypass_le_length
  refine (walk_bound q w.bypass).trans ?_
  have hends : ∀ k : Fin edges.length, ∃ a b : Fin n, edges[k].1 = ((a : ℕ) : Int) ∧ edges[k].2 = ((b : ℕ) : Int) := by
    intro k
    have hm : edges[k] ∈ edges := List.getElem_mem _
    obtain ⟨⟨a1, a2⟩, b1, b2⟩ := hr _ hm
    exact ⟨⟨edges[k].1.toNat, by omega⟩, ⟨edges[k].2.toNat, by omega⟩, by simp only; omega, by simp only; omega⟩
  choose a b ha hb using hends
  have hval : ∀ x : Fin n, valueAt q ((x : ℕ) : Int) = q x := by
    intro x
    unfold valueAt
    rw [dif_pos ⟨by omega, by omega⟩]
    congr 1
  have hsum : (w.bypass.edges.map (weight q)).sum ≤
      ∑ k : Fin edges.length, (valueAt q edges[k].2 - valueAt q edges[k].1) ^ 2 := by
    have hnd : w.bypass.edges.Nodup := SimpleGraph.Walk.edges_nodup_of_support_nodup hp.support_nodup
    rw [← List.sum_toFinset _ hnd]
    calc ∑ e ∈ w.bypass.edges.toFinset, weight q e
        ≤ ∑ e ∈ Finset.univ.image (fun k : Fin edges.length => s(b k, a k)), weight q e := by
          apply Finset.sum_le_sum_of_subset_of_nonneg _ fun e _ _ => weight_nonneg q e
          intro e he
          rw [List.mem_toFinset] at he
          have hadj := w.bypass.edges_subset_edgeSet he
          induction e with
          | _ x y =>
            obtain ⟨-, hj | hj⟩ := hadj
            · obtain ⟨k, hk, e1⟩ := List.getElem_of_mem hj
              refine Finset.mem_image.mpr ⟨⟨k, hk⟩, Finset.mem_univ _, ?_⟩
              have h1 := ha ⟨k, hk⟩
              have h2 := hb ⟨k, hk⟩
              simp only [Fin.getElem_fin, e1] at h1 h2
              have g1 : x = a ⟨k, hk⟩ := Fin.ext (by exact_mod_cast h1)
              have g2 : y = b ⟨k, hk⟩ := Fin.ext (by exact_mod_cast h2)
              rw [← g1, ← g2]
              exact Sym2.eq_swap
            · obtain ⟨k, hk, e1⟩ := List.getElem_of_mem hj
              refine Finset.mem_image.mpr ⟨⟨k, hk⟩, Finset.mem_univ _, ?_⟩
              have h1 := ha ⟨k, hk⟩
              have h2 := hb ⟨k, hk⟩
              simp only [Fin.getElem_fin, e1] at h1 h2
              have g1 : y = a ⟨k, hk⟩ := Fin.ext (by exact_mod_cast h1)
              have g2 : x = b ⟨k, hk⟩ := Fin.ext (by exact_mod_cast h2)
              rw [← g1, ← g2]
      _ ≤ ∑ k : Fin edges.length, weight q s(b k, a k) :=
          Finset.sum_image_le_of_nonneg fun _ _ => weight_nonneg q _
      _ = _ := by
          refine Finset.sum_congr rfl fun k _ => ?_
          rw [ha k, hb k, hval, hval]
          rfl
  have hle : (w.bypass.length : ℝ) ≤ D := by exact_mod_cast hl.trans hw
  refine mul_le_mul hle hsum ?_ (Nat.cast_nonneg _)
  exact List.sum_nonneg fun x hx => by
    obtain ⟨e, -, rfl⟩ := List.mem_map.mp hx
    exact weight_nonneg q e

/-- Every potential difference flow is the potential difference flow of a potential whose squares are bounded by
`(N - 1) D` times those of the flow. -/
theorem small_potential (sc : SC ℝ) (hb : sc.Built) (hr : EdgesInRange sc.nodes.length sc.edges)
    (hl : NoLoops sc.edges) (D : ℕ) (hD : DiameterLE (graphOf sc.nodes.length sc.edges) D) (q : Fin sc.N → ℝ) :
    ∃ p : Fin sc.N → ℝ, sc.B1.transpose.mulVec p = sc.B1.transpose.mulVec q ∧
      p ⬝ᵥ p ≤ ((sc.nodes.length - 1 : ℕ) * D : ℝ) *
        (sc.B1.transpose.mulVec q ⬝ᵥ sc.B1.transpose.mulVec q) := by
  classical
  set G := graphOf sc.nodes.length sc.edges with hG
  let r : Fin sc.nodes.length → Fin sc.nodes.length := fun i => (G.connectedComponentMk i).out
  have hreach : ∀ i, G.Reachable i (r i) := fun i =>
    SimpleGraph.ConnectedComponent.exact (Quot.out_eq (G.connectedComponentMk i)).symm
  have hrr : ∀ i j, G.Reachable i j → r i = r j := by
    intro i j h
    have : G.connectedComponentMk i = G.connectedComponentMk j := SimpleGraph.ConnectedComponent.sound h
    simp only [r, this]
  set S := sc.B1.transpose.mulVec q ⬝ᵥ sc.B1.transpose.mulVec q with hS
  have hS' : S = ∑ k : Fin sc.edges.length, (valueAt q sc.edges[k].2 - valueAt q sc.edges[k].1) ^ 2 := by
    rw [hS]
    refine Finset.sum_congr rfl fun k _ => ?_
    rw [b1_transpose_apply hb hr hl q k]
    ring
  have hS0 : 0 ≤ S := by rw [hS']; exact Finset.sum_nonneg fun _ _ => sq_nonneg _
  have hval : ∀ (x : Fin sc.nodes.length → ℝ) (i : Fin sc.nodes.length), valueAt x ((i : ℕ) : Int) = x i := by
    intro x i
    unfold valueAt
    rw [dif_pos ⟨by omega, by omega⟩]
    congr 1
  refine ⟨fun i => q i - q (r i), ?_, ?_⟩
  · funext j
    rw [b1_transpose_apply hb hr hl _ j, b1_transpose_apply hb hr hl _ j]
    have hm : sc.edges[j] ∈ sc.edges := List.getElem_mem _
    obtain ⟨⟨a1, a2⟩, b1, b2⟩ := hr _ hm
    obtain ⟨x, hx⟩ : ∃ i : Fin sc.nodes.length, sc.edges[j].1 = ((i : ℕ) : Int) :=
      ⟨⟨sc.edges[j].1.toNat, by omega⟩, by simp only; omega⟩
    obtain ⟨y, hy⟩ : ∃ i : Fin sc.nodes.length, sc.edges[j].2 = ((i : ℕ) : Int) :=
      ⟨⟨sc.edges[j].2.toNat, by omega⟩, by simp only; omega⟩
    rw [hx, hy, hval, hval, hval, hval]
    have hadj : G.Adj x y := by
      refine ⟨?_, Or.inl ?_⟩
      · rintro rfl
        exact hl _ hm (hx.trans hy.symm)
      · rw [← hx, ← hy]; exact hm
    rw [hrr x y hadj.reachable]
    ring
  · -- the node which represents the component of the first node contributes nothing
    have hterm : ∀ i : Fin sc.nodes.length, (q i - q (r i)) ^ 2 ≤ D * S := by
      intro i
      rw [hS']
      exact difference_bound sc.edges hr D hD q i (r i) (hreach i)
    rcases Nat.eq_zero_or_pos sc.nodes.length with h0 | h0
    · have : IsEmpty (Fin sc.N) := by
        change IsEmpty (Fin sc.nodes.length)
        rw [h0]; infer_instance
      simp only [dotProduct, Finset.univ_eq_empty, Finset.sum_empty]
      exact mul_nonneg (by positivity) hS0
    · let i0 : Fin sc.nodes.length := ⟨0, h0⟩
      have hz : r (r i0) = r i0 := (hrr _ _ (hreach i0)).symm
      change ∑ i : Fin sc.nodes.length, (q i - q (r i)) * (q i - q (r i)) ≤ _
      rw [← Finset.sum_erase_add _ _ (Finset.mem_univ (r i0)), hz, sub_self, mul_zero, add_zero]
      calc ∑ i ∈ Finset.univ.erase (r i0), (q i - q (r i)) * (q i - q (r i))
          ≤ ∑ _i ∈ Finset.univ.erase (r i0), D * S := by
            refine Finset.sum_le_sum fun i _ => ?_
            rw [← sq]; exact hterm i
        _ = _ := by
            rw [Finset.sum_const, Finset.card_erase_of_mem (Finset.mem_univ _), Finset.card_univ, Fintype.card_fin,
              nsmul_eq_mul]
            ring

/-- If every vector in the column space of `A` has a preimage bounded by `C`, then every vector in the column
space is bounded by its image under the transpose. -/
theorem bounded_by_transpose {m n : ℕ} (A : Matrix (Fin m) (Fin n) ℝ) (C : ℝ) (hC : 0 ≤ C)
    (h : ∀ w, ∃ w', A.mulVec w' = A.mulVec w ∧ w' ⬝ᵥ w' ≤ C * (A.mulVec w ⬝ᵥ A.mulVec w)) (w : Fin n → ℝ)
    (x : Fin m → ℝ) (hx : A.mulVec w = x) :
    x ⬝ᵥ x ≤ C * (A.transpose.mulVec x ⬝ᵥ A.transpose.mulVec x) := by
  obtain ⟨p, hp, hle⟩ := h w
  rw [hx] at hp hle
  set d := A.transpose.mulVec x with hd
  have hxx : x ⬝ᵥ x = d ⬝ᵥ p := by
    rw [hd, ← dot_mulVec_transpose, hp]
  -- Cauchy-Schwarz
  have hcs : (d ⬝ᵥ p) ^ 2 ≤ (d ⬝ᵥ d) * (p ⬝ᵥ p) := by
    have := Finset.sum_mul_sq_le_sq_mul_sq Finset.univ d p
    simpa [dotProduct, sq] using this
  have h0 : 0 ≤ x ⬝ᵥ x := dot_self_nonneg x
  have hd0 : 0 ≤ d ⬝ᵥ d := dot_self_nonneg d
  rw [← hxx] at hcs
  by_contra hlt
  push Not at hlt
  have hpos : 0 < x ⬝ᵥ x := lt_of_le_of_lt (mul_nonneg hC hd0) hlt
  have : (x ⬝ᵥ x) ^ 2 ≤ (C * (d ⬝ᵥ d)) * (x ⬝ᵥ x) := by
    refine hcs.trans ?_
    calc (d ⬝ᵥ d) * (p ⬝ᵥ p) ≤ (d ⬝ᵥ d) * (C * (x ⬝ᵥ x)) := mul_le_mul_of_nonneg_left hle hd0
      _ = _ := by ring
  nlinarith

/-- A non-zero eigenvalue of `A Aᵀ` is at least `1 / C`. -/
theorem eigenvalue_bound {m n : ℕ} (A : Matrix (Fin m) (Fin n) ℝ) (C : ℝ) (hC : 0 ≤ C)
    (h : ∀ w, ∃ w', A.mulVec w' = A.mulVec w ∧ w' ⬝ᵥ w' ≤ C * (A.mulVec w ⬝ᵥ A.mulVec w)) (lam : ℝ)
    (v : Fin m → ℝ) (hv : v ≠ 0) (he : (A * A.transpose).mulVec v = lam • v) (hl : lam ≠ 0) : 1 ≤ C * lam := by
  have h1 : A.mulVec (lam⁻¹ • A.transpose.mulVec v) = v := by
    rw [mulVec_smul, mulVec_mulVec, he, smul_smul, inv_mul_cancel₀ hl, one_smul]
  have h2 := bounded_by_transpose A C hC h _ v h1
  have h3 : A.transpose.mulVec v ⬝ᵥ A.transpose.mulVec v = lam * (v ⬝ᵥ v) := by
    rw [← dot_mulVec_transpose, mulVec_mulVec, he, dotProduct_comm, smul_dotProduct, smul_eq_mul]
  rw [h3] at h2
  have h4 : 0 < v ⬝ᵥ v := lt_of_le_of_ne (dot_self_nonneg v) fun g => hv (dotProduct_self_eq_zero.mp g.symm)
  by_contra hlt
  push Not at hlt
  nlinarith

end Pytspl
