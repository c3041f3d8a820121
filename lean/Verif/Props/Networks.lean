import Verif.Props.EdgeLaplacian
import Verif.Props.Hodge
import Verif.Props.Locality

/-!
# Properties C124, C125: filling triangles, isolated nodes, disjoint parts
-/

namespace Pytspl

open Matrix

variable {lib lib' : NumLib} {sc sc' : SC ℝ} {m n : ℕ}

/-! ## Specification -/

/-- The second complex has the same edges, possibly listed in another order: edge `k` of the first is edge `σ k`
of the second.  Nothing is said of nodes and triangles. -/
def SameEdges (sc sc' : SC ℝ) (σ : Fin sc.edges.length ≃ Fin sc'.edges.length) : Prop :=
  ∀ k, sc'.edges[σ k] = sc.edges[k]

/-- The set of edges is a union of connected parts: no edge of it shares a node with an edge outside. -/
def Separate (sc : SC ℝ) (S : Fin sc.edges.length → Prop) : Prop := ∀ e e', sc.ShareNode e e' → S e → S e'

/-- The second complex is a part of the first: its edge `k` is edge `ι k` of the first, no edge of it shares a node
with an edge left out, and its triangles are those triangles of the first which have a side in it. -/
structure IsPart (sc sc' : SC ℝ) (ι : Fin sc'.edges.length → Fin sc.edges.length) : Prop where
  injective : Function.Injective ι
  edges : ∀ k, sc.edges[ι k] = sc'.edges[k]
  separate : Separate sc fun e => ∃ k, ι k = e
  triangles : ∀ t, t ∈ sc'.triangles ↔ t ∈ sc.triangles ∧ ∃ e ∈ sc'.edges, IsSide t e

open Classical in
/-- the flow on the edges of the set, and 0 outside -/
noncomputable def restrict {E : ℕ} (S : Fin E → Prop) (f : Fin E → ℝ) : Fin E → ℝ := fun e => if S e then f e else 0

/-! ## Projections by orthogonality -/

private theorem isProj_iff {A : Matrix (Fin m) (Fin n) ℝ} {b p : Fin m → ℝ} :
    IsProj A b p ↔ (∃ x, A.mulVec x = p) ∧ ∀ x, A.mulVec x ⬝ᵥ (b - p) = 0 := by
  refine and_congr_right fun _ => ⟨fun h x => ?_, fun h => ?_⟩
  · rw [dotProduct_comm, dot_mulVec_transpose, mulVec_sub, h, sub_self, zero_dotProduct]
  · have : A.transpose.mulVec (b - p) = 0 := by
      apply dotProduct_self_eq_zero.mp
      rw [← dot_mulVec_transpose, dotProduct_comm]
      exact h _
    rw [mulVec_sub, sub_eq_zero] at this
    exact this.symm

private theorem dot_comp {m' : ℕ} (σ : Fin m ≃ Fin m') (x y : Fin m' → ℝ) : (x ∘ σ) ⬝ᵥ (y ∘ σ) = x ⬝ᵥ y :=
  Equiv.sum_comp σ fun i => x i * y i

private theorem valueAt_valueAt {m n : ℕ} (q : Fin n → ℝ) (u : Int) (h0 : 0 ≤ u) (hu : u < m) :
    valueAt (fun i : Fin m => valueAt q ((i : ℕ) : Int)) u = valueAt q u := by
  have h1 : 0 ≤ u ∧ u < m := ⟨h0, hu⟩
  conv_lhs => unfold valueAt
  rw [dif_pos h1]
  have : ((u.toNat : ℕ) : Int) = u := by omega
  change valueAt q ((u.toNat : ℕ) : Int) = _
  rw [this]

/-- a potential difference flow of one complex is one of the other -/
private theorem grad_transfer {σ : Fin sc.edges.length ≃ Fin sc'.edges.length} (h : SameEdges sc sc' σ)
    (hb : sc.Built) (hr : EdgesInRange sc.nodes.length sc.edges) (hl : NoLoops sc.edges)
    (hb' : sc'.Built) (hr' : EdgesInRange sc'.nodes.length sc'.edges) (hl' : NoLoops sc'.edges)
    (q : Fin sc'.nodes.length → ℝ) :
    ∃ p : Fin sc.nodes.length → ℝ, sc.B1.transpose.mulVec p = sc'.B1.transpose.mulVec q ∘ σ := by
  refine ⟨fun i => valueAt q ((i : ℕ) : Int), ?_⟩
  funext k
  have hm : sc.edges[k] ∈ sc.edges := List.getElem_mem _
  obtain ⟨⟨a1, a2⟩, b1, b2⟩ := hr _ hm
  rw [b1_transpose_apply hb hr hl _ k]
  change _ = sc'.B1.transpose.mulVec q (σ k)
  rw [b1_transpose_apply hb' hr' hl' _ (σ k), h k, valueAt_valueAt q _ a1 a2, valueAt_valueAt q _ b1 b2]

private theorem SameEdges.symm {σ : Fin sc.edges.length ≃ Fin sc'.edges.length} (h : SameEdges sc sc' σ) :
    SameEdges sc' sc σ.symm := fun k => by
  have := h (σ.symm k)
  simp only [Equiv.apply_symm_apply] at this
  exact this.symm

/-! ## C124 -/

/-- C124, gradient: the gradient component depends on the edges and the flow alone: not on further nodes, not on
the triangles, not on the order in which edges are listed. -/
theorem C124_gradient (hb : sc.Built) (hr : EdgesInRange sc.nodes.length sc.edges) (hl : NoLoops sc.edges)
    (hb' : sc'.Built) (hr' : EdgesInRange sc'.nodes.length sc'.edges) (hl' : NoLoops sc'.edges)
    (σ : Fin sc.edges.length ≃ Fin sc'.edges.length) (h : SameEdges sc sc' σ)
    (f g : Fin sc.edges.length → ℝ) (f' g' : Fin sc'.edges.length → ℝ) (hf : ∀ k, f' (σ k) = f k)
    (hg : sc.getComponentFlow lib f "gradient" false = .ok g)
    (hg' : sc'.getComponentFlow lib' f' "gradient" false = .ok g') (k) : g' (σ k) = g k := by
  obtain ⟨g1, c1, h1, hp⟩ := HodgeParts.exists lib sc f
  obtain ⟨g2, c2, h2, hp'⟩ := HodgeParts.exists lib' sc' f'
  have e1 : g = g1 := Except.ok.inj (hg.symm.trans hp.grad)
  have e2 : g' = g2 := Except.ok.inj (hg'.symm.trans hp'.grad)
  subst e1 e2
  have hP := hp.proj.1
  obtain ⟨⟨q, hq⟩, ho⟩ := isProj_iff.mp hp'.proj.1
  have hQ : IsProj sc.B1.transpose f (g' ∘ σ) := by
    rw [isProj_iff]
    constructor
    · obtain ⟨p, hpq⟩ := grad_transfer h hb hr hl hb' hr' hl' q
      exact ⟨p, by rw [hpq, hq]⟩
    · intro p
      obtain ⟨q', hq'⟩ := grad_transfer h.symm hb' hr' hl' hb hr hl p
      have e3 : sc.B1.transpose.mulVec p = sc'.B1.transpose.mulVec q' ∘ σ := by
        rw [hq']
        funext k
        simp
      have e4 : f - g' ∘ σ = (f' - g') ∘ σ := by
        funext k
        simp [hf]
      rw [e3, e4, dot_comp]
      exact ho q'
  exact congrFun (hQ.unique hP) k

/-- circulations of the first complex are circulations of the second, if its triangles are among those of the
second -/
private theorem curl_transfer {σ : Fin sc.edges.length ≃ Fin sc'.edges.length} (h : SameEdges sc sc' σ)
    (hs : sc.OnSimpleGraph) (hs' : sc'.OnSimpleGraph) (ht : sc.triangles ⊆ sc'.triangles) (w : Fin sc.triangles.length → ℝ) :
    ∃ w' : Fin sc'.triangles.length → ℝ, sc.B2.mulVec w = sc'.B2.mulVec w' ∘ σ := by
  have hφ : ∀ t : Fin sc.triangles.length, ∃ t' : Fin sc'.triangles.length, sc'.triangles[t'] = sc.triangles[t] := by
    intro t
    have hm : sc.triangles[t] ∈ sc.triangles := List.getElem_mem _
    obtain ⟨k, hk, e⟩ := List.getElem_of_mem (ht hm)
    exact ⟨⟨k, hk⟩, e⟩
  choose φ hφ using hφ
  refine ⟨∑ t, w t • Pi.single (φ t) (1 : ℝ), ?_⟩
  funext k
  change ∑ t, sc.B2 k t * w t = sc'.B2.mulVec (∑ t, w t • Pi.single (φ t) (1 : ℝ)) (σ k)
  rw [mulVec_sum, Finset.sum_apply]
  refine Finset.sum_congr rfl fun t _ => ?_
  rw [mulVec_smul, Pi.smul_apply, mulVec_single_one, smul_eq_mul]
  change _ = w t * sc'.B2 (σ k) (φ t)
  rw [b2_sideSign hs k t, b2_sideSign hs' (σ k) (φ t), hφ t, h k, mul_comm]

/-- C124, filling: adding triangles to a complex never shortens the curl component of a flow and never lengthens
the harmonic component, and every flow which is harmonic afterwards was harmonic before. -/
theorem C124_filling (hs : sc.OnSimpleGraph) (hs' : sc'.OnSimpleGraph) (ho' : Oriented sc'.edges sc'.triangles)
    (σ : Fin sc.edges.length ≃ Fin sc'.edges.length) (h : SameEdges sc sc' σ) (ht : sc.triangles ⊆ sc'.triangles)
    (f g c h0 : Fin sc.edges.length → ℝ) (f' g' c' h' : Fin sc'.edges.length → ℝ) (hf : ∀ k, f' (σ k) = f k)
    (hp : HodgeParts lib sc f g c h0) (hp' : HodgeParts lib' sc' f' g' c' h') :
    c ⬝ᵥ c ≤ c' ⬝ᵥ c' ∧ h' ⬝ᵥ h' ≤ h0 ⬝ᵥ h0 ∧
    sc.getDivergence (h' ∘ σ) = 0 ∧ sc.getCurl (h' ∘ σ) = 0 := by
  have hg : g' ∘ σ = g := by
    funext k
    exact C124_gradient hs.built hs.inRange hs.noLoops hs'.built hs'.inRange hs'.noLoops σ h f g f' g' hf
      hp.grad hp'.grad k
  obtain ⟨-, hP, e1⟩ := hp.proj
  obtain ⟨hG', hP', e2⟩ := hp'.proj
  obtain ⟨⟨w, hw⟩, ho⟩ := isProj_iff.mp hP
  obtain ⟨⟨w', hw'⟩, hoo'⟩ := isProj_iff.mp hP'
  have ef : f' ∘ σ = f := funext hf
  -- the difference of the two curl components is orthogonal to the first
  set d := c' ∘ σ - c with hd
  have hcd : c ⬝ᵥ d = 0 := by
    have h1 : c ⬝ᵥ (f - c) = 0 := by rw [← hw]; rw [hw]; have := ho w; rwa [hw] at this
    have h2 : c ⬝ᵥ (f - c' ∘ σ) = 0 := by
      obtain ⟨v, hv⟩ := curl_transfer h hs hs' ht w
      rw [← hw, hv, ← ef]
      have : f' ∘ σ - c' ∘ σ = (f' - c') ∘ σ := rfl
      rw [this, dot_comp]
      exact hoo' v
    have : d = (f - c) - (f - c' ∘ σ) := by rw [hd]; abel
    rw [this, dotProduct_sub, h1, h2, sub_zero]
  have hd0 : 0 ≤ d ⬝ᵥ d := dot_self_nonneg d
  have hc' : c' ⬝ᵥ c' = c ⬝ᵥ c + d ⬝ᵥ d := by
    rw [← dot_comp σ]
    have : c' ∘ σ = c + d := by rw [hd]; abel
    rw [this, dot_add_sq, hcd]
    ring
  have hh : h' ∘ σ = h0 - d := by
    rw [e1, e2, hd, ← hg, ← ef]
    funext k
    simp only [Function.comp_apply, Pi.sub_apply]
    ring
  have hw1 : sc'.WellFormed := ⟨hs'.built, hs'.inRange, hs'.noLoops, ho'⟩
  obtain ⟨-, -, hdiv', hcurl', -⟩ := C20_component_behaviour hw1 f' g' c' h' hp'
  have hgradorth : ∀ p, sc'.B1.transpose.mulVec p ⬝ᵥ h' = 0 := by
    intro p
    rw [dotProduct_comm, dot_mulVec_transpose, transpose_transpose]
    have : sc'.B1.mulVec h' = 0 := hdiv'
    rw [this, zero_dotProduct]
  have hcurlorth : ∀ v, sc'.B2.mulVec v ⬝ᵥ h' = 0 := by
    intro v
    rw [dotProduct_comm, dot_mulVec_transpose]
    have : sc'.B2.transpose.mulVec h' = 0 := hcurl'
    rw [this, zero_dotProduct]
  have hdh : d ⬝ᵥ (h' ∘ σ) = 0 := by
    obtain ⟨v, hv⟩ := curl_transfer h hs hs' ht w
    have : d = sc'.B2.mulVec (w' - v) ∘ σ := by
      rw [hd, ← hw, hv, mulVec_sub, hw']
      rfl
    rw [this, dot_comp]
    exact hcurlorth _
  have hh2 : h0 ⬝ᵥ h0 = h' ⬝ᵥ h' + d ⬝ᵥ d := by
    have : h0 = h' ∘ σ + d := by rw [hh]; abel
    rw [this, dot_add_sq, dotProduct_comm _ d, hdh, dot_comp]
    ring
  refine ⟨by linarith, by linarith, ?_, ?_⟩
  · change sc.B1.mulVec (h' ∘ σ) = 0
    apply dotProduct_self_eq_zero.mp
    have : sc.B1.mulVec (h' ∘ σ) = sc.B1.transpose.transpose.mulVec (h' ∘ σ) := by rw [transpose_transpose]
    conv_lhs => rw [this]
    rw [transpose_transpose, dot_mulVec_transpose]
    obtain ⟨q, hq⟩ := grad_transfer h.symm hs'.built hs'.inRange hs'.noLoops hs.built hs.inRange hs.noLoops
      (sc.B1.mulVec (h' ∘ σ))
    have e3 : sc.B1.transpose.mulVec (sc.B1.mulVec (h' ∘ σ)) = sc'.B1.transpose.mulVec q ∘ σ := by
      rw [hq]; funext k; simp
    rw [e3, dot_comp]
    exact hgradorth q
  · change sc.B2.transpose.mulVec (h' ∘ σ) = 0
    apply dotProduct_self_eq_zero.mp
    rw [← dot_mulVec_transpose]
    obtain ⟨v, hv⟩ := curl_transfer h hs hs' ht (sc.B2.transpose.mulVec (h' ∘ σ))
    rw [hv, dot_comp, dotProduct_comm]
    exact hcurlorth v

/-- C124: complexes with the same edges and the same triangles, listed in any order and with any repetitions, and
with further nodes, decompose flows in the same way. -/
theorem C124_same (hs : sc.OnSimpleGraph) (hs' : sc'.OnSimpleGraph)
    (σ : Fin sc.edges.length ≃ Fin sc'.edges.length) (h : SameEdges sc sc' σ)
    (ht : ∀ t, t ∈ sc.triangles ↔ t ∈ sc'.triangles)
    (f g c h0 : Fin sc.edges.length → ℝ) (f' g' c' h' : Fin sc'.edges.length → ℝ) (hf : ∀ k, f' (σ k) = f k)
    (hp : HodgeParts lib sc f g c h0) (hp' : HodgeParts lib' sc' f' g' c' h') (k) :
    g' (σ k) = g k ∧ c' (σ k) = c k ∧ h' (σ k) = h0 k := by
  have hg := C124_gradient hs.built hs.inRange hs.noLoops hs'.built hs'.inRange hs'.noLoops σ h f g f' g' hf
    hp.grad hp'.grad k
  obtain ⟨-, hP, e1⟩ := hp.proj
  obtain ⟨-, hP', e2⟩ := hp'.proj
  obtain ⟨⟨w', hw'⟩, hoo'⟩ := isProj_iff.mp hP'
  have hQ : IsProj sc.B2 f (c' ∘ σ) := by
    rw [isProj_iff]
    constructor
    · obtain ⟨v, hv⟩ := curl_transfer h.symm hs' hs (fun t g => (ht t).mpr g) w'
      refine ⟨v, ?_⟩
      rw [← hw', hv]
      funext k
      simp
    · intro x
      obtain ⟨v, hv⟩ := curl_transfer h hs hs' (fun t g => (ht t).mp g) x
      have e4 : f - c' ∘ σ = (f' - c') ∘ σ := by
        funext k
        simp [hf]
      rw [hv, e4, dot_comp]
      exact hoo' v
  have hc : c' (σ k) = c k := congrFun (hQ.unique hP) k
  refine ⟨hg, hc, ?_⟩
  rw [e1, e2]
  simp only [Pi.sub_apply, hf, hg, hc]

/-- the hypotheses are met: the sample edges, once without triangles and once with the triangle 012 and a node more -/
example : ∃ (sc sc' : SC ℝ) (σ : Fin sc.edges.length ≃ Fin sc'.edges.length), sc.OnSimpleGraph ∧ sc'.OnSimpleGraph ∧
    Oriented sc'.edges sc'.triangles ∧ SameEdges sc sc' σ ∧ sc.triangles ⊆ sc'.triangles ∧
    sc.triangles = [] ∧ sc'.triangles = [[0, 1, 2]] ∧ sc'.nodes.length = 6 := by
  obtain ⟨sc, h, hw⟩ := SC.exists_simple ℝ [0, 1, 2, 3, 4] sampleEdges [] [] [] (by decide) (by decide) (by decide)
    (by simp)
  obtain ⟨sc', h', hw'⟩ := SC.exists_simple ℝ [0, 1, 2, 3, 4, 5] sampleEdges [[0, 1, 2]] [] []
    (by decide) (by decide) (by decide) (by
      intro t ht
      simp only [List.mem_cons, List.not_mem_nil, or_false] at ht
      subst ht
      exact ⟨0, 1, 2, rfl, by decide, by decide, by decide⟩)
  obtain ⟨h1, h2, h3, -, -, -⟩ := SC.init_ok h
  obtain ⟨h1', h2', h3', -, -, -⟩ := SC.init_ok h'
  obtain ⟨nodes, edges, triangles, nf, ef, B1, B2⟩ := sc
  obtain ⟨nodes', edges', triangles', nf', ef', B1', B2'⟩ := sc'
  simp only at h1 h2 h3 h1' h2' h3'
  subst h1 h2 h3 h1' h2' h3'
  refine ⟨⟨[0, 1, 2, 3, 4], sampleEdges, [], nf, ef, B1, B2⟩,
    ⟨[0, 1, 2, 3, 4, 5], sampleEdges, [[0, 1, 2]], nf', ef', B1', B2'⟩, Equiv.refl (Fin 6), hw, hw', ?_, fun k => rfl, by simp, rfl, rfl, rfl⟩
  intro t ht
  simp only [List.mem_cons, List.not_mem_nil, or_false] at ht
  subst ht
  exact ⟨0, 1, 2, rfl, by simp [sampleEdges], by simp [sampleEdges], by simp [sampleEdges]⟩

/-! ## C125 -/

private theorem restrict_grad (hw : sc.OnSimpleGraph) {S : Fin sc.edges.length → Prop} (hS : Separate sc S)
    (p : Fin sc.nodes.length → ℝ) :
    ∃ p' : Fin sc.nodes.length → ℝ, sc.B1.transpose.mulVec p' = restrict S (sc.B1.transpose.mulVec p) := by
  classical
  let χ : Fin sc.nodes.length → Prop := fun i => ∃ e, S e ∧ (sc.edges[e].1 = ((i : ℕ) : Int) ∨ sc.edges[e].2 = ((i : ℕ) : Int))
  refine ⟨fun i => if χ i then p i else 0, ?_⟩
  funext e
  have hm : sc.edges[e] ∈ sc.edges := List.getElem_mem _
  obtain ⟨⟨a1, a2⟩, b1, b2⟩ := hw.inRange _ hm
  unfold restrict
  rw [b1_transpose_apply hw.built hw.inRange hw.noLoops _ e, b1_transpose_apply hw.built hw.inRange hw.noLoops _ e]
  have hval : ∀ u : Int, 0 ≤ u → u < sc.nodes.length → (u = sc.edges[e].1 ∨ u = sc.edges[e].2) →
      valueAt (fun i : Fin sc.nodes.length => if χ i then p i else 0) u = if S e then valueAt p u else 0 := by
    intro u h0 h1 hu
    unfold valueAt
    rw [dif_pos ⟨h0, h1⟩, dif_pos ⟨h0, h1⟩]
    have hiff : χ ⟨u.toNat, by omega⟩ ↔ S e := by
      have hcast : ((u.toNat : ℕ) : Int) = u := by omega
      constructor
      · rintro ⟨e', he', hend⟩
        simp only [hcast] at hend
        refine hS e' e ?_ he'
        exact ⟨u, hend.imp Eq.symm Eq.symm, hu⟩
      · intro he
        refine ⟨e, he, ?_⟩
        simp only [hcast]
        exact hu.imp Eq.symm Eq.symm
    change (if χ ⟨u.toNat, by omega⟩ then p ⟨u.toNat, by omega⟩ else 0) = _
    by_cases he : S e
    · rw [if_pos he, if_pos (hiff.mpr he)]
    · rw [if_neg he, if_neg fun g => he (hiff.mp g)]
  rw [hval _ a1 a2 (.inl rfl), hval _ b1 b2 (.inr rfl)]
  by_cases he : S e <;> simp [he]

private theorem sides_shareNode (hb : sc.Built) {e e' : Fin sc.edges.length} {t : Fin sc.triangles.length}
    (h : sc.B2 e t ≠ 0) (h' : sc.B2 e' t ≠ 0) : sc.ShareNode e e' := by
  have key : ∀ (a b c : Int) (p : Edge) , p = (a, b) ∨ p = (b, a) ∨ p = (b, c) ∨ p = (c, b) ∨ p = (a, c) ∨ p = (c, a) →
      ∀ q : Edge, q = (a, b) ∨ q = (b, a) ∨ q = (b, c) ∨ q = (c, b) ∨ q = (a, c) ∨ q = (c, a) →
      ∃ v, (v = p.1 ∨ v = p.2) ∧ (v = q.1 ∨ v = q.2) := by
    intro a b c p hp q hq
    rcases hp with rfl | rfl | rfl | rfl | rfl | rfl <;> rcases hq with rfl | rfl | rfl | rfl | rfl | rfl <;>
      first
      | (refine ⟨a, ?_, ?_⟩ <;> simp <;> done)
      | (refine ⟨b, ?_, ?_⟩ <;> simp <;> done)
      | (refine ⟨c, ?_, ?_⟩ <;> simp)
  obtain ⟨a, b, c, ia, ib, ic, -, h1, h2, h3, hB⟩ := hb.tri_entry t
  have side : ∀ j : Fin sc.E, sc.B2 j t ≠ 0 → sc.edges[j] = (a, b) ∨ sc.edges[j] = (b, a) ∨ sc.edges[j] = (b, c) ∨
      sc.edges[j] = (c, b) ∨ sc.edges[j] = (a, c) ∨ sc.edges[j] = (c, a) := by
    intro j h
    rw [hB] at h
    split_ifs at h with g1 g2 g3
    · subst g1; rcases listIndexOr_get h2 with g | ⟨-, g⟩ <;> rw [g] <;> simp
    · subst g2; rcases listIndexOr_get h3 with g | ⟨-, g⟩ <;> rw [g] <;> simp
    · subst g3; rcases listIndexOr_get h1 with g | ⟨-, g⟩ <;> rw [g] <;> simp
    · exact absurd rfl h
  exact key a b c _ (side e h) _ (side e' h')

private theorem restrict_curl (hb : sc.Built) {S : Fin sc.edges.length → Prop} (hS : Separate sc S)
    (w : Fin sc.triangles.length → ℝ) :
    ∃ w' : Fin sc.triangles.length → ℝ, sc.B2.mulVec w' = restrict S (sc.B2.mulVec w) := by
  classical
  refine ⟨fun t => if ∃ e, S e ∧ sc.B2 e t ≠ 0 then w t else 0, ?_⟩
  funext e
  unfold restrict
  change ∑ t, sc.B2 e t * (if ∃ e, S e ∧ sc.B2 e t ≠ 0 then w t else 0) = if S e then ∑ t, sc.B2 e t * w t else 0
  by_cases he : S e
  · rw [if_pos he]
    refine Finset.sum_congr rfl fun t _ => ?_
    by_cases h0 : sc.B2 e t = 0
    · rw [h0, zero_mul, zero_mul]
    · rw [if_pos ⟨e, he, h0⟩]
  · rw [if_neg he]
    refine Finset.sum_eq_zero fun t _ => ?_
    by_cases h0 : sc.B2 e t = 0
    · rw [h0, zero_mul]
    · rw [if_neg, mul_zero]
      rintro ⟨e', he', h0'⟩
      exact he (hS e' e (sides_shareNode hb h0' h0) he')

private theorem dot_restrict {E : ℕ} (S : Fin E → Prop) (x y : Fin E → ℝ) : restrict S x ⬝ᵥ y = x ⬝ᵥ restrict S y := by
  unfold restrict
  refine Finset.sum_congr rfl fun e _ => ?_
  by_cases h : S e <;> simp [h]

private theorem isProj_restrict {A : Matrix (Fin m) (Fin n) ℝ} {b p : Fin m → ℝ} {S : Fin m → Prop}
    (hA : ∀ x, ∃ x', A.mulVec x' = restrict S (A.mulVec x)) (h : IsProj A b p) :
    IsProj A (restrict S b) (restrict S p) := by
  obtain ⟨⟨x, rfl⟩, ho⟩ := isProj_iff.mp h
  refine isProj_iff.mpr ⟨hA x, fun y => ?_⟩
  obtain ⟨y', hy⟩ := hA y
  have : restrict S b - restrict S (A.mulVec x) = restrict S (b - A.mulVec x) := by
    funext e
    unfold restrict
    by_cases h : S e <;> simp [h]
  rw [this, ← dot_restrict, ← hy]
  exact ho y'

/-- C125, restriction: for a set of edges sharing no node with the other edges, the components of the flow set to 0
outside are the components of the flow set to 0 outside. -/
theorem C125_restrict (hs : sc.OnSimpleGraph) (S : Fin sc.edges.length → Prop) (hS : Separate sc S)
    (f g c h : Fin sc.edges.length → ℝ) (hp : HodgeParts lib sc f g c h) :
    HodgeParts lib sc (restrict S f) (restrict S g) (restrict S c) (restrict S h) := by
  obtain ⟨hG, hC, rfl⟩ := hp.proj
  have := HodgeParts.of_proj lib (isProj_restrict (restrict_grad hs hS) hG)
    (isProj_restrict (restrict_curl hs.built hS) hC)
  have e : restrict S (f - g - c) = restrict S f - restrict S g - restrict S c := by
    funext e
    unfold restrict
    by_cases h : S e <;> simp [h]
  rw [e]
  exact this

/-- C125: what the flow is on other parts of the network has no influence on the components on this part. -/
theorem C125_independent (hs : sc.OnSimpleGraph) (S : Fin sc.edges.length → Prop) (hS : Separate sc S)
    (f g c h f' g' c' h' : Fin sc.edges.length → ℝ) (hp : HodgeParts lib sc f g c h)
    (hp' : HodgeParts lib sc f' g' c' h') (hf : ∀ e, S e → f e = f' e) (e) (he : S e) :
    g e = g' e ∧ c e = c' e ∧ h e = h' e := by
  have h1 := C125_restrict hs S hS f g c h hp
  have h2 := C125_restrict hs S hS f' g' c' h' hp'
  have hff : restrict S f = restrict S f' := by
    funext e
    unfold restrict
    by_cases h : S e
    · simp only [if_pos h, hf e h]
    · simp only [if_neg h]
  rw [hff] at h1
  have hat : ∀ x y : Fin sc.edges.length → ℝ, restrict S x = restrict S y → x e = y e := by
    intro x y hxy
    have := congrFun hxy e
    unfold restrict at this
    rwa [if_pos he, if_pos he] at this
  exact ⟨hat _ _ (Except.ok.inj (h1.grad.symm.trans h2.grad)), hat _ _ (Except.ok.inj (h1.curl.symm.trans h2.curl)),
    hat _ _ (Except.ok.inj (h1.harm.symm.trans h2.harm))⟩

private theorem dot_part {m' : ℕ} {ι : Fin m' → Fin m} (hι : Function.Injective ι) (x y : Fin m → ℝ) :
    (x ∘ ι) ⬝ᵥ (y ∘ ι) = restrict (fun e => ∃ k, ι k = e) x ⬝ᵥ y := by
  classical
  have h1 : (x ∘ ι) ⬝ᵥ (y ∘ ι) = ∑ e ∈ Finset.univ.image ι, x e * y e := by
    rw [Finset.sum_image fun a _ b _ h => hι h]
    rfl
  rw [h1]
  have h2 : restrict (fun e => ∃ k, ι k = e) x ⬝ᵥ y = ∑ e, if e ∈ Finset.univ.image ι then x e * y e else 0 := by
    refine Finset.sum_congr rfl fun e _ => ?_
    unfold restrict
    beta_reduce
    by_cases h : ∃ k, ι k = e
    · rw [if_pos h, if_pos (by simpa using h)]
    · rw [if_neg h, if_neg (by simpa using h), zero_mul]
  rw [h2, Finset.sum_ite_mem, Finset.univ_inter]

/-- potential differences of the one complex at edges of the other -/
private theorem grad_along {s1 s2 : SC ℝ} (h1 : s1.OnSimpleGraph) (h2 : s2.OnSimpleGraph)
    (p : Fin s2.nodes.length → ℝ) : ∃ q : Fin s1.nodes.length → ℝ,
    ∀ (k : Fin s1.edges.length) (e : Fin s2.edges.length), s2.edges[e] = s1.edges[k] →
      s1.B1.transpose.mulVec q k = s2.B1.transpose.mulVec p e := by
  refine ⟨fun i => valueAt p ((i : ℕ) : Int), fun k e hke => ?_⟩
  have hm : s1.edges[k] ∈ s1.edges := List.getElem_mem _
  obtain ⟨⟨a1, a2⟩, b1, b2⟩ := h1.inRange _ hm
  rw [b1_transpose_apply h1.built h1.inRange h1.noLoops _ k,
    b1_transpose_apply h2.built h2.inRange h2.noLoops _ e, hke, valueAt_valueAt p _ a1 a2, valueAt_valueAt p _ b1 b2]

/-- circulations around the triangles of the one complex at edges of the other -/
private theorem curl_along {s1 s2 : SC ℝ} (h1 : s1.OnSimpleGraph) (h2 : s2.OnSimpleGraph)
    (ht : ∀ t ∈ s2.triangles, ∀ k : Fin s1.edges.length, sideSign t s1.edges[k] ≠ 0 → t ∈ s1.triangles)
    (w : Fin s2.triangles.length → ℝ) : ∃ v : Fin s1.triangles.length → ℝ,
    ∀ (k : Fin s1.edges.length) (e : Fin s2.edges.length), s2.edges[e] = s1.edges[k] →
      s1.B2.mulVec v k = s2.B2.mulVec w e := by
  classical
  have hφ : ∀ t : Fin s2.triangles.length, ∃ v : Fin s1.triangles.length → ℝ, ∀ k : Fin s1.edges.length,
      s1.B2.mulVec v k = (sideSign s2.triangles[t] s1.edges[k] : ℝ) := by
    intro t
    have hm : s2.triangles[t] ∈ s2.triangles := List.getElem_mem _
    by_cases hin : s2.triangles[t] ∈ s1.triangles
    · obtain ⟨j, hj, e⟩ := List.getElem_of_mem hin
      refine ⟨Pi.single ⟨j, hj⟩ 1, fun k => ?_⟩
      rw [mulVec_single_one]
      change s1.B2 k ⟨j, hj⟩ = _
      rw [b2_sideSign h1 k ⟨j, hj⟩]
      change (sideSign s1.triangles[j] s1.edges[k] : ℝ) = _
      rw [e]
    · refine ⟨0, fun k => ?_⟩
      rw [mulVec_zero]
      have : sideSign s2.triangles[t] s1.edges[k] = 0 := by
        by_contra hne
        exact hin (ht _ hm k hne)
      rw [this]
      simp
  choose v hv using hφ
  refine ⟨∑ t, w t • v t, fun k e hke => ?_⟩
  rw [mulVec_sum, Finset.sum_apply]
  refine Finset.sum_congr rfl fun t _ => ?_
  rw [mulVec_smul, Pi.smul_apply, smul_eq_mul, hv]
  change _ = s2.B2 e t * w t
  rw [b2_sideSign h2 e t, hke, mul_comm]

private theorem sideSign_isSide {t : List Int} {e : Edge} (h : sideSign t e ≠ 0) : IsSide t e := by
  unfold sideSign at h
  split at h
  · rename_i a b c
    refine ⟨a, b, c, rfl, ?_⟩
    split_ifs at h with h1 h2
    · rcases h1 with g | g
      · exact .inl g
      · exact .inr (.inl g)
    · exact .inr (.inr h2)
    · exact absurd rfl h
  · exact absurd rfl h

private theorem isProj_part {m' n' : ℕ} {A : Matrix (Fin m) (Fin n) ℝ} {A' : Matrix (Fin m') (Fin n') ℝ}
    {ι : Fin m' → Fin m} (hι : Function.Injective ι) {b p : Fin m → ℝ}
    (hA : ∀ x, ∃ x', A.mulVec x' = restrict (fun e => ∃ k, ι k = e) (A.mulVec x))
    (h1 : ∀ x, ∃ x', ∀ k, A'.mulVec x' k = A.mulVec x (ι k))
    (h2 : ∀ x', ∃ x, ∀ k, A.mulVec x (ι k) = A'.mulVec x' k) (h : IsProj A b p) :
    IsProj A' (b ∘ ι) (p ∘ ι) := by
  obtain ⟨⟨x, rfl⟩, ho⟩ := isProj_iff.mp h
  refine isProj_iff.mpr ⟨?_, fun y => ?_⟩
  · obtain ⟨x', hx'⟩ := h1 x
    exact ⟨x', funext hx'⟩
  · obtain ⟨z, hz⟩ := h2 y
    have e1 : A'.mulVec y = A.mulVec z ∘ ι := funext fun k => (hz k).symm
    obtain ⟨z', hz'⟩ := hA z
    have e2 : b ∘ ι - A.mulVec x ∘ ι = (b - A.mulVec x) ∘ ι := rfl
    rw [e1, e2, dot_part hι, ← hz']
    exact ho z'

/-- C125, parts: the decomposition of a flow on a network that falls apart consists of the decompositions computed
for each part as a network of its own. -/
theorem C125_part (hs : sc.OnSimpleGraph) (hs' : sc'.OnSimpleGraph) (ι : Fin sc'.edges.length → Fin sc.edges.length)
    (hι : IsPart sc sc' ι) (f g c h : Fin sc.edges.length → ℝ) (hp : HodgeParts lib sc f g c h) :
    HodgeParts lib' sc' (f ∘ ι) (g ∘ ι) (c ∘ ι) (h ∘ ι) := by
  obtain ⟨hG, hC, rfl⟩ := hp.proj
  have hmem : ∀ k : Fin sc'.edges.length, sc'.edges[k] ∈ sc'.edges := fun k => List.getElem_mem _
  refine HodgeParts.of_proj lib' (isProj_part hι.injective (restrict_grad hs hι.separate) ?_ ?_ hG)
    (isProj_part hι.injective (restrict_curl hs.built hι.separate) ?_ ?_ hC)
  · intro x
    obtain ⟨q, hq⟩ := grad_along hs' hs x
    exact ⟨q, fun k => hq k (ι k) (hι.edges k)⟩
  · intro x
    obtain ⟨q, hq⟩ := grad_along hs hs' x
    exact ⟨q, fun k => hq (ι k) k (hι.edges k).symm⟩
  · intro w
    obtain ⟨v, hv⟩ := curl_along hs' hs
      (fun t ht k hk => (hι.triangles t).mpr ⟨ht, _, hmem k, sideSign_isSide hk⟩) w
    exact ⟨v, fun k => hv k (ι k) (hι.edges k)⟩
  · intro w
    obtain ⟨v, hv⟩ := curl_along hs hs' (fun t ht _ _ => ((hι.triangles t).mp ht).1) w
    exact ⟨v, fun k => hv (ι k) k (hι.edges k).symm⟩

/-- the hypotheses are met: two filled triangles without a common node, and the second of them -/
theorem isPart_twoTriangles : ∃ (sc sc' : SC ℝ) (ι : Fin sc'.edges.length → Fin sc.edges.length),
    sc.OnSimpleGraph ∧ sc'.OnSimpleGraph ∧ IsPart sc sc' ι ∧ sc.edges.length = 6 ∧ sc'.edges.length = 3 ∧
    sc.triangles = [[0, 1, 2], [3, 4, 5]] ∧ sc'.triangles = [[3, 4, 5]] := by
  obtain ⟨sc, h, hw⟩ := SC.exists_simple ℝ [0, 1, 2, 3, 4, 5] [(0, 1), (0, 2), (1, 2), (3, 4), (3, 5), (4, 5)]
    [[0, 1, 2], [3, 4, 5]] [] [] (by decide) (by decide) (by decide) (by
      intro t ht
      simp only [List.mem_cons, List.not_mem_nil, or_false] at ht
      rcases ht with rfl | rfl
      · exact ⟨0, 1, 2, rfl, by decide, by decide, by decide⟩
      · exact ⟨3, 4, 5, rfl, by decide, by decide, by decide⟩)
  obtain ⟨sc', h', hw'⟩ := SC.exists_simple ℝ [0, 1, 2, 3, 4, 5] [(3, 4), (3, 5), (4, 5)] [[3, 4, 5]] [] []
    (by decide) (by decide) (by decide) (by
      intro t ht
      simp only [List.mem_cons, List.not_mem_nil, or_false] at ht
      subst ht
      exact ⟨3, 4, 5, rfl, by decide, by decide, by decide⟩)
  obtain ⟨h1, h2, h3, -, -, -⟩ := SC.init_ok h
  obtain ⟨h1', h2', h3', -, -, -⟩ := SC.init_ok h'
  obtain ⟨nodes, edges, triangles, nf, ef, B1, B2⟩ := sc
  obtain ⟨nodes', edges', triangles', nf', ef', B1', B2'⟩ := sc'
  simp only at h1 h2 h3 h1' h2' h3'
  subst h1 h2 h3 h1' h2' h3'
  refine ⟨⟨[0, 1, 2, 3, 4, 5], [(0, 1), (0, 2), (1, 2), (3, 4), (3, 5), (4, 5)], [[0, 1, 2], [3, 4, 5]], nf, ef, B1, B2⟩,
    ⟨[0, 1, 2, 3, 4, 5], [(3, 4), (3, 5), (4, 5)], [[3, 4, 5]], nf', ef', B1', B2'⟩, (fun k : Fin 3 => (Fin.natAdd 3 k : Fin 6)), hw, hw', ⟨?_, ?_, ?_, ?_⟩, rfl, rfl, rfl, rfl⟩
  · intro a b hab
    exact Fin.natAdd_injective 3 3 hab
  · change ∀ k : Fin 3, ([(0, 1), (0, 2), (1, 2), (3, 4), (3, 5), (4, 5)] : List Edge)[(Fin.natAdd 3 k : Fin 6)] =
      ([(3, 4), (3, 5), (4, 5)] : List Edge)[k]
    decide
  · rintro e e' ⟨v, hv, hv'⟩ ⟨k, rfl⟩
    have key : ∀ (k : Fin 3) (e' : Fin 6),
        (let l : List Edge := [(0, 1), (0, 2), (1, 2), (3, 4), (3, 5), (4, 5)]
         l[(Fin.natAdd 3 k : Fin 6)].1 = l[e'].1 ∨ l[(Fin.natAdd 3 k : Fin 6)].1 = l[e'].2 ∨
         l[(Fin.natAdd 3 k : Fin 6)].2 = l[e'].1 ∨ l[(Fin.natAdd 3 k : Fin 6)].2 = l[e'].2) →
        ∃ j : Fin 3, (Fin.natAdd 3 j : Fin 6) = e' := by decide
    refine key k e' ?_
    rcases hv with rfl | rfl <;> rcases hv' with g | g
    · exact .inl g
    · exact .inr (.inl g)
    · exact .inr (.inr (.inl g))
    · exact .inr (.inr (.inr g))
  · intro t
    simp only [List.mem_cons, List.not_mem_nil, or_false]
    constructor
    · rintro rfl
      exact ⟨.inr rfl, (3, 4), .inl rfl, 3, 4, 5, rfl, .inl (.inl rfl)⟩
    · rintro ⟨rfl | rfl, e, he, a, b, c, ht, hj⟩
      · exfalso
        simp only [List.cons.injEq, and_true] at ht
        obtain ⟨rfl, rfl, rfl⟩ := ht
        revert hj
        rcases he with rfl | rfl | rfl <;> decide
      · rfl

end Pytspl
