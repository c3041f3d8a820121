import Verif.Props.Eigen
import Verif.Props.Incidence

/-!
# C99, C100: renumbering nodes, reordering edges and triangles, reversing edges
-/

namespace Pytspl

open Matrix

/-- `sc'` is `sc` with its nodes renumbered by `π`, its edges listed in another order (edge `k` of `sc` is edge
`σ k` of `sc'`) and likewise its triangles. -/
structure Renumbered (sc sc' : SC ℝ) (π : Fin sc.nodes.length ≃ Fin sc'.nodes.length)
    (σ : Fin sc.edges.length ≃ Fin sc'.edges.length) (τ : Fin sc.triangles.length ≃ Fin sc'.triangles.length) :
    Prop where
  edge : ∀ k (i j : Fin sc.nodes.length), sc.edges[k] = (((i : ℕ) : Int), ((j : ℕ) : Int)) →
    sc'.edges[σ k] = (((π i : ℕ) : Int), ((π j : ℕ) : Int))
  triangle : ∀ t (i j l : Fin sc.nodes.length),
    sc.triangles[t] = [((i : ℕ) : Int), ((j : ℕ) : Int), ((l : ℕ) : Int)] →
    sc'.triangles[τ t] = [((π i : ℕ) : Int), ((π j : ℕ) : Int), ((π l : ℕ) : Int)]

theorem noRepeats_iff {edges : List Edge} : NoRepeats edges ↔
    ∀ j k : Fin edges.length, j ≠ k → edges[j] ≠ edges[k] ∧ edges[j] ≠ edges[k].swap := by
  unfold NoRepeats
  rw [List.pairwise_iff_getElem]
  constructor
  · intro h j k hne
    rcases lt_or_gt_of_ne (fun hh => hne (Fin.ext hh) : (j : ℕ) ≠ k) with hlt | hlt
    · exact h _ _ _ _ hlt
    · obtain ⟨h1, h2⟩ := h _ _ k.isLt j.isLt hlt
      refine ⟨fun hh => h1 hh.symm, fun hh => h2 ?_⟩
      have : edges[(j : ℕ)] = edges[(k : ℕ)].swap := hh
      rw [this, Prod.swap_swap]
  · intro h j k hj hk hlt
    exact h ⟨j, hj⟩ ⟨k, hk⟩ (fun hh => by simp [Fin.ext_iff] at hh; omega)

theorem noRepeats_unique {edges : List Edge} (h : NoRepeats edges) {j k : Fin edges.length} {a b : Int}
    (hj : edges[j] = (a, b) ∨ edges[j] = (b, a)) (hk : edges[k] = (a, b) ∨ edges[k] = (b, a)) : j = k := by
  by_contra hne
  obtain ⟨h1, h2⟩ := noRepeats_iff.mp h j k hne
  rcases hj with hj | hj <;> rcases hk with hk | hk <;> rw [hj, hk] at h1 h2 <;> simp at h1 h2

/-- closed form of B2 on a simple graph, whatever the stored orientations -/
theorem SC.OnSimpleGraph.b2_entry {sc : SC ℝ} (h : sc.OnSimpleGraph) {t : Fin sc.triangles.length} {a b c : Int}
    (ht : sc.triangles[t] = [a, b, c]) (k : Fin sc.edges.length) :
    sc.B2 k t = if sc.edges[k] = (a, b) ∨ sc.edges[k] = (b, a) then 1
      else if sc.edges[k] = (b, c) ∨ sc.edges[k] = (c, b) then 1
      else if sc.edges[k] = (a, c) ∨ sc.edges[k] = (c, a) then -1 else 0 := by
  obtain ⟨a', b', c', iab, ibc, iac, h0, h1, h2, h3, e1, e2, e3, e4, -⟩ :=
    (C02_incidence2_exact sc h.built h.noLoops).2 t
  rw [ht] at h0
  injection h0 with q1 h0
  injection h0 with q2 h0
  injection h0 with q3 h0
  subst q1 q2 q3
  have f1 : sc.edges[iab] = (a, b) ∨ sc.edges[iab] = (b, a) := h1.imp id And.right
  have f2 : sc.edges[ibc] = (b, c) ∨ sc.edges[ibc] = (c, b) := h2.imp id And.right
  have f3 : sc.edges[iac] = (a, c) ∨ sc.edges[iac] = (c, a) := h3.imp id And.right
  split_ifs with g1 g2 g3
  · rw [noRepeats_unique h.noRepeats g1 f1]; exact e1
  · rw [noRepeats_unique h.noRepeats g2 f2]; exact e2
  · rw [noRepeats_unique h.noRepeats g3 f3]; exact e3
  · apply e4
    · rintro rfl; exact g1 f1
    · rintro rfl; exact g2 f2
    · rintro rfl; exact g3 f3

variable {sc sc' : SC ℝ} {π : Fin sc.nodes.length ≃ Fin sc'.nodes.length}
  {σ : Fin sc.edges.length ≃ Fin sc'.edges.length} {τ : Fin sc.triangles.length ≃ Fin sc'.triangles.length}

theorem edge_fin {n : ℕ} {edges : List Edge} (h : EdgesInRange n edges) (k : Fin edges.length) :
    ∃ i j : Fin n, edges[k] = (((i : ℕ) : Int), ((j : ℕ) : Int)) := by
  obtain ⟨⟨a1, a2⟩, b1, b2⟩ := h edges[k] (List.getElem_mem _)
  exact ⟨⟨edges[k].1.toNat, by omega⟩, ⟨edges[k].2.toNat, by omega⟩,
    Prod.ext (Int.toNat_of_nonneg a1).symm (Int.toNat_of_nonneg b1).symm⟩

theorem tri_fin {sc : SC ℝ} (h : sc.OnSimpleGraph) (t : Fin sc.triangles.length) :
    ∃ i j l : Fin sc.nodes.length, sc.triangles[t] = [((i : ℕ) : Int), ((j : ℕ) : Int), ((l : ℕ) : Int)] := by
  obtain ⟨x, y, z, iab, ibc, iac, h0, h1, h2, h3, -⟩ := (C02_incidence2_exact sc h.built h.noLoops).2 t
  have hx : ∃ i : Fin sc.nodes.length, x = ((i : ℕ) : Int) := by
    obtain ⟨c, d, hcd⟩ := edge_fin h.inRange iab
    rcases h1 with h1 | ⟨-, h1⟩ <;> rw [hcd] at h1 <;> cases h1
    · exact ⟨c, rfl⟩
    · exact ⟨d, rfl⟩
  have hy : ∃ i : Fin sc.nodes.length, y = ((i : ℕ) : Int) := by
    obtain ⟨c, d, hcd⟩ := edge_fin h.inRange iab
    rcases h1 with h1 | ⟨-, h1⟩ <;> rw [hcd] at h1 <;> cases h1
    · exact ⟨d, rfl⟩
    · exact ⟨c, rfl⟩
  have hz : ∃ i : Fin sc.nodes.length, z = ((i : ℕ) : Int) := by
    obtain ⟨c, d, hcd⟩ := edge_fin h.inRange iac
    rcases h3 with h3 | ⟨-, h3⟩ <;> rw [hcd] at h3 <;> cases h3
    · exact ⟨d, rfl⟩
    · exact ⟨c, rfl⟩
  obtain ⟨x, rfl⟩ := hx
  obtain ⟨y, rfl⟩ := hy
  obtain ⟨z, rfl⟩ := hz
  exact ⟨x, y, z, h0⟩

/-- As `Renumbered`, but the edges `k` with `s k` are stored the other way round in `sc'`. -/
structure Reoriented (sc sc' : SC ℝ) (π : Fin sc.nodes.length ≃ Fin sc'.nodes.length)
    (σ : Fin sc.edges.length ≃ Fin sc'.edges.length) (τ : Fin sc.triangles.length ≃ Fin sc'.triangles.length)
    (s : Fin sc.edges.length → Bool) : Prop where
  edge : ∀ k (i j : Fin sc.nodes.length), sc.edges[k] = (((i : ℕ) : Int), ((j : ℕ) : Int)) →
    sc'.edges[σ k] = if s k then (((π j : ℕ) : Int), ((π i : ℕ) : Int)) else (((π i : ℕ) : Int), ((π j : ℕ) : Int))
  triangle : ∀ t (i j l : Fin sc.nodes.length),
    sc.triangles[t] = [((i : ℕ) : Int), ((j : ℕ) : Int), ((l : ℕ) : Int)] →
    sc'.triangles[τ t] = [((π i : ℕ) : Int), ((π j : ℕ) : Int), ((π l : ℕ) : Int)]

theorem Renumbered.reoriented (r : Renumbered sc sc' π σ τ) : Reoriented sc sc' π σ τ fun _ => false :=
  ⟨fun k i j h => by simpa using r.edge k i j h, r.triangle⟩

variable {s : Fin sc.edges.length → Bool}

theorem Reoriented.onSimpleGraph (r : Reoriented sc sc' π σ τ s) (h : sc.OnSimpleGraph) (hb : sc'.Built) :
    sc'.OnSimpleGraph := by
  have key : ∀ e' ∈ sc'.edges, ∃ k : Fin sc.edges.length, ∃ i j : Fin sc.nodes.length,
      (sc.edges[k] = (((i : ℕ) : Int), ((j : ℕ) : Int)) ∨ sc.edges[k] = (((j : ℕ) : Int), ((i : ℕ) : Int))) ∧
      e' = (((π i : ℕ) : Int), ((π j : ℕ) : Int)) := by
    intro e' he
    obtain ⟨n, hn, rfl⟩ := List.getElem_of_mem he
    obtain ⟨i, j, hij⟩ := edge_fin h.inRange (σ.symm ⟨n, hn⟩)
    have h1 := r.edge _ i j hij
    have h2 : σ (σ.symm ⟨n, hn⟩) = ⟨n, hn⟩ := Equiv.apply_symm_apply _ _
    have h3 : ∀ k' : Fin sc'.edges.length, k' = ⟨n, hn⟩ → sc'.edges[k'] = sc'.edges[n] := by
      rintro k' rfl; rfl
    rw [h3 _ h2] at h1
    split_ifs at h1
    · exact ⟨_, j, i, Or.inr hij, h1⟩
    · exact ⟨_, i, j, Or.inl hij, h1⟩
  refine ⟨hb, ?_, ?_, ?_⟩
  · intro e' he
    obtain ⟨k, i, j, -, rfl⟩ := key e' he
    have := (π i).isLt
    have := (π j).isLt
    simp only
    omega
  · intro e' he
    obtain ⟨k, i, j, hk, rfl⟩ := key e' he
    intro hh
    simp only at hh
    have h1 : π i = π j := Fin.ext (by exact_mod_cast hh)
    have h2 := h.noLoops sc.edges[k] (List.getElem_mem _)
    rcases hk with hk | hk <;> rw [hk, π.injective h1] at h2 <;> exact h2 rfl
  · rw [noRepeats_iff]
    intro j' k' hne
    obtain ⟨j, rfl⟩ := σ.surjective j'
    obtain ⟨k, rfl⟩ := σ.surjective k'
    obtain ⟨h1, h2⟩ := noRepeats_iff.mp h.noRepeats j k (fun hh => hne (by rw [hh]))
    obtain ⟨a, b, hab⟩ := edge_fin h.inRange j
    obtain ⟨c, d, hcd⟩ := edge_fin h.inRange k
    rw [r.edge j a b hab, r.edge k c d hcd]
    rw [hab, hcd] at h1 h2
    simp only [Prod.swap, ne_eq, Prod.mk.injEq, Nat.cast_inj, ← Fin.ext_iff] at h1 h2
    split_ifs <;>
      simp only [Prod.swap, ne_eq, Prod.mk.injEq, Nat.cast_inj, ← Fin.ext_iff, EmbeddingLike.apply_eq_iff_eq] <;>
      tauto

/-- C100: reversing the stored direction of edges changes the sign of their columns in B1 and changes nothing
in B2. -/
theorem C100_incidence (r : Reoriented sc sc' π σ τ s) (h : sc.OnSimpleGraph) (hb : sc'.Built) :
    (∀ i k, sc'.B1 (π i) (σ k) = (if s k then -1 else 1) * sc.B1 i k) ∧
    (∀ k t, sc'.B2 (σ k) (τ t) = sc.B2 k t) := by
  have h' := r.onSimpleGraph h hb
  constructor
  · intro i k
    obtain ⟨a, b, hab⟩ := edge_fin h.inRange k
    have hne := h.noLoops sc.edges[k] (List.getElem_mem _)
    rw [h.built.b1_entry h.inRange h.noLoops, h'.built.b1_entry h'.inRange h'.noLoops, hab, r.edge k a b hab]
    rw [hab] at hne
    simp only [ne_eq, Nat.cast_inj, ← Fin.ext_iff] at hne
    by_cases hs : s k
    · simp only [hs, if_true, Nat.cast_inj, ← Fin.ext_iff, EmbeddingLike.apply_eq_iff_eq]
      split_ifs with g1 g2 g2 <;> simp
    · simp only [hs, Bool.false_eq_true, if_false, one_mul, Nat.cast_inj, ← Fin.ext_iff, EmbeddingLike.apply_eq_iff_eq]
  · intro k t
    obtain ⟨a, b, hab⟩ := edge_fin h.inRange k
    obtain ⟨x, y, z, h0⟩ := tri_fin h t
    rw [h.b2_entry h0, h'.b2_entry (r.triangle t x y z h0), hab, r.edge k a b hab]
    by_cases hs : s k
    · simp only [hs, if_true, Prod.mk.injEq, Nat.cast_inj, ← Fin.ext_iff, EmbeddingLike.apply_eq_iff_eq]
      have sw : ∀ p q : Fin sc.nodes.length, (b = p ∧ a = q ∨ b = q ∧ a = p) ↔ (a = p ∧ b = q ∨ a = q ∧ b = p) := by
        intro p q; tauto
      simp only [sw]
    · simp only [hs, Bool.false_eq_true, if_false, Prod.mk.injEq, Nat.cast_inj, ← Fin.ext_iff,
        EmbeddingLike.apply_eq_iff_eq]

/-- C99: the incidence matrices of the renumbered complex are the renumbered incidence matrices. -/
theorem C99_incidence (r : Renumbered sc sc' π σ τ) (h : sc.OnSimpleGraph) (hb : sc'.Built) :
    (∀ i k, sc'.B1 (π i) (σ k) = sc.B1 i k) ∧ (∀ k t, sc'.B2 (σ k) (τ t) = sc.B2 k t) := by
  have := C100_incidence r.reoriented h hb
  simpa using this

theorem Renumbered.b1 (r : Renumbered sc sc' π σ τ) (h : sc.OnSimpleGraph) (hb : sc'.Built) :
    sc'.B1 = sc.B1.submatrix π.symm σ.symm := by
  ext i k
  have := (C99_incidence r h hb).1 (π.symm i) (σ.symm k)
  rw [Equiv.apply_symm_apply, Equiv.apply_symm_apply] at this
  exact this

theorem Renumbered.b2 (r : Renumbered sc sc' π σ τ) (h : sc.OnSimpleGraph) (hb : sc'.Built) :
    sc'.B2 = sc.B2.submatrix σ.symm τ.symm := by
  ext k t
  have := (C99_incidence r h hb).2 (σ.symm k) (τ.symm t)
  rw [Equiv.apply_symm_apply, Equiv.apply_symm_apply] at this
  exact this

/-- C99: the Laplacians are renumbered in the same way. -/
theorem C99_laplacians (r : Renumbered sc sc' π σ τ) (h : sc.OnSimpleGraph) (hb : sc'.Built) :
    (∀ i j, sc'.L0 (π i) (π j) = sc.L0 i j) ∧ (∀ k l, sc'.L1l (σ k) (σ l) = sc.L1l k l) ∧
    (∀ k l, sc'.L1u (σ k) (σ l) = sc.L1u k l) ∧ (∀ k l, sc'.L1 (σ k) (σ l) = sc.L1 k l) ∧
    (∀ s t, sc'.L2l (τ s) (τ t) = sc.L2l s t) := by
  have e1 := r.b1 h hb
  have e2 := r.b2 h hb
  have l0 : sc'.L0 = sc.L0.submatrix π.symm π.symm := by
    unfold SC.L0; rw [e1, transpose_submatrix, submatrix_mul_equiv]
  have l1 : sc'.L1l = sc.L1l.submatrix σ.symm σ.symm := by
    unfold SC.L1l; rw [e1, transpose_submatrix, submatrix_mul_equiv]
  have l2 : sc'.L1u = sc.L1u.submatrix σ.symm σ.symm := by
    unfold SC.L1u; rw [e2, transpose_submatrix, submatrix_mul_equiv]
  have l3 : sc'.L2l = sc.L2l.submatrix τ.symm τ.symm := by
    unfold SC.L2l; rw [e2, transpose_submatrix, submatrix_mul_equiv]
  refine ⟨?_, ?_, ?_, ?_, ?_⟩
  · intro i j; rw [l0, submatrix_apply]; simp
  · intro i j; rw [l1, submatrix_apply]; simp
  · intro i j; rw [l2, submatrix_apply]; simp
  · intro i j; unfold SC.L1; rw [Matrix.add_apply, Matrix.add_apply, l1, l2, submatrix_apply, submatrix_apply]; simp
  · intro i j; rw [l3, submatrix_apply]; simp

theorem mulVec_renumber {m n m' n' : ℕ} (A : Matrix (Fin m) (Fin n) ℝ) (e : Fin m ≃ Fin m') (f : Fin n ≃ Fin n')
    (x : Fin n → ℝ) :
    (A.submatrix e.symm f.symm).mulVec (fun k => x (f.symm k)) = fun i => A.mulVec x (e.symm i) := by
  have := submatrix_mulVec_equiv A (fun k => x (f.symm k)) e.symm f.symm
  rw [this]
  ext i
  simp [Function.comp_def]

theorem IsProj.renumber {m n m' n' : ℕ} {A : Matrix (Fin m) (Fin n) ℝ} {b p : Fin m → ℝ} (h : IsProj A b p)
    (e : Fin m ≃ Fin m') (f : Fin n ≃ Fin n') :
    IsProj (A.submatrix e.symm f.symm) (fun k => b (e.symm k)) (fun k => p (e.symm k)) := by
  obtain ⟨⟨x, rfl⟩, h2⟩ := h
  refine ⟨⟨fun k => x (f.symm k), mulVec_renumber _ _ _ _⟩, ?_⟩
  rw [transpose_submatrix, mulVec_renumber, mulVec_renumber, h2]

/-- C99: divergence, curl and every component flow, rounded or not, of the renumbered flow are the renumbered
divergence, curl and component flow. -/
theorem C99_flows (r : Renumbered sc sc' π σ τ) (h : sc.OnSimpleGraph) (hb : sc'.Built) (lib : NumLib)
    (f : Fin sc.E → ℝ) (f' : Fin sc'.E → ℝ) (hf : ∀ k, f' (σ k) = f k) :
    (∀ i, sc'.getDivergence f' (π i) = sc.getDivergence f i) ∧
    (∀ t, sc'.getCurl f' (τ t) = sc.getCurl f t) ∧
    ∀ (component : String) (round : Bool) (d : ℤ) (g : Fin sc.E → ℝ),
      sc.getComponentFlow lib f component round d = .ok g →
      ∃ g', sc'.getComponentFlow lib f' component round d = .ok g' ∧ ∀ k, g' (σ k) = g k := by
  have e1 := r.b1 h hb
  have e2 := r.b2 h hb
  have hf' : f' = fun k => f (σ.symm k) := by
    ext k
    have := hf (σ.symm k)
    rw [Equiv.apply_symm_apply] at this
    exact this
  subst hf'
  have t1 : sc'.B1.transpose = sc.B1.transpose.submatrix σ.symm π.symm := by rw [e1, transpose_submatrix]
  have t2 : sc'.B2.transpose = sc.B2.transpose.submatrix τ.symm σ.symm := by rw [e2, transpose_submatrix]
  refine ⟨?_, ?_, ?_⟩
  · intro i
    unfold SC.getDivergence
    rw [e1]
    have := congrFun (mulVec_renumber sc.B1 π σ f) (π i)
    rw [Equiv.symm_apply_apply] at this
    exact this
  · intro t
    unfold SC.getCurl
    rw [t2]
    have := congrFun (mulVec_renumber sc.B2.transpose τ σ f) (τ t)
    rw [Equiv.symm_apply_apply] at this
    exact this
  · have key1 : sc'.B1.transpose.mulVec (lib.lstsq _ _ sc'.B1.transpose fun k => f (σ.symm k)) =
        fun k => sc.B1.transpose.mulVec (lib.lstsq _ _ sc.B1.transpose f) (σ.symm k) := by
      refine (lib.isProj _ _).unique ?_
      rw [t1]
      exact (lib.isProj _ _).renumber σ π
    have key2 : sc'.B2.mulVec (lib.lstsq _ _ sc'.B2 fun k => f (σ.symm k)) =
        fun k => sc.B2.mulVec (lib.lstsq _ _ sc.B2 f) (σ.symm k) := by
      refine (lib.isProj _ _).unique ?_
      rw [e2]
      exact (lib.isProj _ _).renumber σ τ
    have g1 : ∀ (round : Bool) (d : ℤ) (k : Fin sc.E),
        getGradientFlow lib sc'.B1 (fun k => f (σ.symm k)) round d (σ k) = getGradientFlow lib sc.B1 f round d k := by
      intro round d k
      unfold getGradientFlow
      rw [key1]
      cases round <;> simp
    have g2 : ∀ (round : Bool) (d : ℤ) (k : Fin sc.E),
        getCurlFlow lib sc'.B2 (fun k => f (σ.symm k)) round d (σ k) = getCurlFlow lib sc.B2 f round d k := by
      intro round d k
      unfold getCurlFlow
      rw [key2]
      cases round <;> simp
    have g3 : ∀ (round : Bool) (d : ℤ) (k : Fin sc.E),
        getHarmonicFlow lib sc'.B1 sc'.B2 (fun k => f (σ.symm k)) round d (σ k) =
          getHarmonicFlow lib sc.B1 sc.B2 f round d k := by
      intro round d k
      unfold getHarmonicFlow
      cases round
      · simp only [Bool.false_eq_true, if_false, Pi.sub_apply]
        rw [g1, g2]; simp
      · simp only [if_true, Pi.sub_apply]
        rw [g1, g2]; simp
    intro component round d g hg
    unfold SC.getComponentFlow at hg ⊢
    split_ifs at hg ⊢ with c1 c2 c3
    · cases hg; exact ⟨_, rfl, fun k => g3 round d k⟩
    · cases hg; exact ⟨_, rfl, fun k => g2 round d k⟩
    · cases hg; exact ⟨_, rfl, fun k => g1 round d k⟩

/-- two symmetric matrices that differ by a renumbering have the same list of eigenvalues -/
theorem eigh_renumber (lib : NumLib) {n n' : ℕ} {A : Matrix (Fin n) (Fin n) ℝ} {A' : Matrix (Fin n') (Fin n') ℝ}
    (hA : A.transpose = A) (e : Fin n ≃ Fin n') (h : ∀ i j, A' (e i) (e j) = A i j) :
    List.ofFn (lib.eigh n' A').1 = List.ofFn (lib.eigh n A).1 := by
  have hA' : A' = Matrix.reindex e e A := by
    ext i j
    have := h (e.symm i) (e.symm j)
    rw [Equiv.apply_symm_apply, Equiv.apply_symm_apply] at this
    exact this
  have hs : A'.transpose = A' := by rw [hA', transpose_reindex, hA]
  obtain ⟨m1, o1, q1⟩ := lib.eigh_spec n A hA
  obtain ⟨m2, o2, q2⟩ := lib.eigh_spec n' A' hs
  have r1 := (IsEig.mk o1 q1).roots_eq
  have r2 := (IsEig.mk o2 q2).roots_eq
  rw [hA', charpoly_reindex, r1, ← hA'] at r2
  have conv : ∀ (m : ℕ) (w : Fin m → ℝ), Finset.univ.val.map w = ((List.ofFn w : List ℝ) : Multiset ℝ) := by
    intro m w
    rw [List.ofFn_eq_map]
    rfl
  rw [conv, conv, Multiset.coe_eq_coe] at r2
  refine (List.Perm.eq_of_pairwise (fun a b _ _ => le_antisymm) ?_ ?_ r2).symm
  · exact List.pairwise_ofFn.mpr fun i j hij => m1 hij.le
  · exact List.pairwise_ofFn.mpr fun i j hij => m2 hij.le

theorem selectPairs_vals {n : ℕ} (U : Matrix (Fin n) (Fin n) ℝ) (w : Fin n → ℝ) (cond : ℝ → Prop)
    [DecidablePred cond] :
    List.ofFn (selectPairs U w cond).vals = (List.ofFn w).filter fun x => decide (cond x) := by
  rw [List.ofFn_eq_map, List.ofFn_eq_map, List.filter_map]
  unfold selectPairs
  simp only
  have hc : ((fun x => decide (cond x)) ∘ w) = fun i => decide (cond (w i)) := rfl
  rw [hc]
  conv_rhs => rw [← List.map_getElem_finRange ((List.finRange n).filter fun i => decide (cond (w i)))]
  rw [List.map_map]
  rfl

/-- C99: the eigenvalues of the Laplacian, and the eigenvalues of each kind of eigenvector, are the same lists. -/
theorem C99_spectrum (r : Renumbered sc sc' π σ τ) (h : sc.OnSimpleGraph) (hb : sc'.Built) (lib : NumLib) :
    (∀ (tol : ℝ) U w, getEigendecomposition lib (.ndarray sc.L1) tol = .ok (U, w) →
      ∃ U' w', getEigendecomposition lib (.ndarray sc'.L1) tol = .ok (U', w') ∧ List.ofFn w' = List.ofFn w) ∧
    ∀ (component : String) (tol : ℝ) (P : EigPairs sc.E), sc.getComponentEigenpair lib component tol = .ok P →
      ∃ P' : EigPairs sc'.E, sc'.getComponentEigenpair lib component tol = .ok P' ∧ P'.num = P.num ∧
        List.ofFn P'.vals = List.ofFn P.vals := by
  obtain ⟨-, l1, l2, l3, -⟩ := C99_laplacians r h hb
  have hE : sc.E = 0 ↔ sc'.E = 0 := by
    have : sc.edges.length = sc'.edges.length := by simpa using Fintype.card_congr σ
    change sc.edges.length = 0 ↔ sc'.edges.length = 0
    rw [this]
  have key : ∀ (A : Matrix (Fin sc.E) (Fin sc.E) ℝ) (A' : Matrix (Fin sc'.E) (Fin sc'.E) ℝ), A.transpose = A →
      (∀ k l, A' (σ k) (σ l) = A k l) → ∀ (tol : ℝ) U w, getEigendecomposition lib (.ndarray A) tol = .ok (U, w) →
      ∃ U' w', getEigendecomposition lib (.ndarray A') tol = .ok (U', w') ∧ List.ofFn w' = List.ofFn w := by
    intro A A' hA hAA tol U w hw
    unfold getEigendecomposition at hw ⊢
    simp only at hw ⊢
    split_ifs at hw with h0
    rw [if_neg (fun hh => h0 (hE.mpr hh))]
    cases hw
    refine ⟨_, _, rfl, ?_⟩
    have := congrArg (List.map fun x => if |x| < tol then 0 else x) (eigh_renumber lib hA σ hAA)
    rw [List.map_ofFn, List.map_ofFn] at this
    exact this
  have key2 : ∀ {n n' : ℕ} (U : Matrix (Fin n) (Fin n) ℝ) (w : Fin n → ℝ) (U' : Matrix (Fin n') (Fin n') ℝ)
      (w' : Fin n' → ℝ) (cond : ℝ → Prop) [DecidablePred cond], List.ofFn w' = List.ofFn w →
      (selectPairs U' w' cond).num = (selectPairs U w cond).num ∧
      List.ofFn (selectPairs U' w' cond).vals = List.ofFn (selectPairs U w cond).vals := by
    intro n n' U w U' w' cond _ hw
    have h2 : List.ofFn (selectPairs U' w' cond).vals = List.ofFn (selectPairs U w cond).vals := by
      rw [selectPairs_vals, selectPairs_vals, hw]
    refine ⟨?_, h2⟩
    have := congrArg List.length h2
    rwa [List.length_ofFn, List.length_ofFn] at this
  refine ⟨fun tol U w hw => key _ _ (symmPSD_L1 sc).1 l3 tol U w hw, ?_⟩
  intro component tol P hP
  unfold SC.getComponentEigenpair at hP ⊢
  split_ifs at hP ⊢ with c1 c2 c3
  · unfold getHarmonicEigenpair at hP ⊢
    cases hd : getEigendecomposition lib (.ndarray sc.L1) machineEps with
    | error e => rw [hd] at hP; cases hP
    | ok Uw =>
      obtain ⟨U', w', h1, h2⟩ := key _ _ (symmPSD_L1 sc).1 l3 _ _ _ hd
      rw [hd] at hP
      rw [h1]
      cases hP
      exact ⟨_, rfl, key2 _ _ _ _ _ h2⟩
  · unfold getCurlEigenpair at hP ⊢
    cases hd : getEigendecomposition lib (.ndarray sc.L1u) machineEps with
    | error e => rw [hd] at hP; cases hP
    | ok Uw =>
      obtain ⟨U', w', h1, h2⟩ := key _ _ (symmPSD_L1u sc).1 l2 _ _ _ hd
      rw [hd] at hP
      rw [h1]
      cases hP
      exact ⟨_, rfl, key2 _ _ _ _ _ h2⟩
  · unfold getGradientEigenpair at hP ⊢
    cases hd : getEigendecomposition lib (.ndarray sc.L1l) machineEps with
    | error e => rw [hd] at hP; cases hP
    | ok Uw =>
      obtain ⟨U', w', h1, h2⟩ := key _ _ (symmPSD_L1l sc).1 l1 _ _ _ hd
      rw [hd] at hP
      rw [h1]
      cases hP
      exact ⟨_, rfl, key2 _ _ _ _ _ h2⟩

/-- the hypotheses are met: the sample complex with its nodes numbered backwards and its edges listed backwards -/
theorem exists_renumbered : ∃ (sc sc' : SC ℝ) (π : Fin sc.nodes.length ≃ Fin sc'.nodes.length)
    (σ : Fin sc.edges.length ≃ Fin sc'.edges.length) (τ : Fin sc.triangles.length ≃ Fin sc'.triangles.length),
    Renumbered sc sc' π σ τ ∧ sc.OnSimpleGraph ∧ sc'.Built ∧ sc.edges = sampleEdges ∧
    sc'.edges = [(1, 0), (2, 0), (3, 1), (3, 2), (4, 2), (4, 3)] := by
  obtain ⟨sc, -, hs, h1, h2, h3⟩ := sample_wellFormed ℝ
  obtain ⟨sc', h, hw⟩ := SC.exists_simple ℝ [0, 1, 2, 3, 4] [(1, 0), (2, 0), (3, 1), (3, 2), (4, 2), (4, 3)]
    [[4, 3, 2]] [] [] (by decide) (by decide) (by decide) (by
      intro t ht
      simp only [List.mem_cons, List.not_mem_nil, or_false] at ht
      subst ht
      exact ⟨4, 3, 2, rfl, by decide, by decide, by decide⟩)
  obtain ⟨h1', h2', h3', -, -, -⟩ := SC.init_ok h
  obtain ⟨nodes, edges, triangles, nf, ef, B1, B2⟩ := sc
  obtain ⟨nodes', edges', triangles', nf', ef', B1', B2'⟩ := sc'
  simp only at h1 h2 h3 h1' h2' h3'
  subst h1 h2 h3 h1' h2' h3'
  refine ⟨⟨sampleNodes, sampleEdges, sampleTriangles, nf, ef, B1, B2⟩,
    ⟨[0, 1, 2, 3, 4], [(1, 0), (2, 0), (3, 1), (3, 2), (4, 2), (4, 3)], [[4, 3, 2]], nf', ef', B1', B2'⟩,
    (Fin.revPerm : Fin 5 ≃ Fin 5), (Fin.revPerm : Fin 6 ≃ Fin 6), (Equiv.refl (Fin 1)), ⟨?_, ?_⟩, hs,
    hw.built, rfl, rfl⟩
  · change ∀ (k : Fin 6) (i j : Fin 5), ([(0, 1), (0, 2), (1, 2), (1, 3), (2, 4), (3, 4)] : List Edge)[k] =
      (((i : ℕ) : Int), ((j : ℕ) : Int)) →
      ([(1, 0), (2, 0), (3, 1), (3, 2), (4, 2), (4, 3)] : List Edge)[Fin.rev k] =
        (((Fin.rev i : ℕ) : Int), ((Fin.rev j : ℕ) : Int))
    decide +kernel
  · change ∀ (t : Fin 1) (i j l : Fin 5), ([[0, 1, 2]] : List (List Int))[t] =
      [((i : ℕ) : Int), ((j : ℕ) : Int), ((l : ℕ) : Int)] →
      ([[4, 3, 2]] : List (List Int))[t] =
        [((Fin.rev i : ℕ) : Int), ((Fin.rev j : ℕ) : Int), ((Fin.rev l : ℕ) : Int)]
    decide +kernel

/-! ## C100: reversing the stored direction of edges -/

theorem IsProj.reorient {m n m' n' : ℕ} {A : Matrix (Fin m) (Fin n) ℝ} {A' : Matrix (Fin m') (Fin n') ℝ}
    {b p : Fin m → ℝ} {b' p' : Fin m' → ℝ} (h : IsProj A b p) (e : Fin m ≃ Fin m') (f : Fin n ≃ Fin n')
    (sg : Fin m → ℝ) (hsg : ∀ i, sg i * sg i = 1) (hA : ∀ i j, A' (e i) (f j) = sg i * A i j)
    (hb : ∀ i, b' (e i) = sg i * b i) (hp : ∀ i, p' (e i) = sg i * p i) : IsProj A' b' p' := by
  have key : ∀ (q : Fin m → ℝ) (q' : Fin m' → ℝ), (∀ i, q' (e i) = sg i * q i) → ∀ j,
      A'.transpose.mulVec q' (f j) = A.transpose.mulVec q j := by
    intro q q' hq j
    simp only [mulVec, dotProduct, transpose_apply]
    rw [← e.sum_comp]
    refine Finset.sum_congr rfl fun i _ => ?_
    rw [hA, hq]
    linear_combination (A i j * q i) * hsg i
  obtain ⟨⟨x, hx⟩, h2⟩ := h
  refine ⟨⟨fun j => x (f.symm j), ?_⟩, ?_⟩
  · ext i'
    obtain ⟨i, rfl⟩ := e.surjective i'
    rw [hp, ← hx]
    simp only [mulVec, dotProduct]
    rw [← f.sum_comp, Finset.mul_sum]
    refine Finset.sum_congr rfl fun j _ => ?_
    rw [hA, Equiv.symm_apply_apply]
    ring
  · ext j'
    obtain ⟨j, rfl⟩ := f.surjective j'
    rw [key p p' hp, key b b' hb, h2]

/-- the sign by which the flow of an edge changes -/
def flipSign (s : Bool) : ℝ := if s then -1 else 1

theorem flipSign_sq (s : Bool) : flipSign s * flipSign s = 1 := by cases s <;> simp [flipSign]

theorem rint_neg (x : ℝ) : rint (-x) = -rint x := by
  by_cases h0 : Int.fract x = 0
  · have hx : ((⌊x⌋ : ℤ) : ℝ) = x := by have := Int.floor_add_fract x; rw [h0, add_zero] at this; exact this
    rw [← hx, rint_int, ← Int.cast_neg, rint_int]
  · have h1 : Int.fract (-x) = 1 - Int.fract x := Int.fract_neg h0
    have h2 : ⌊-x⌋ = -⌊x⌋ - 1 := by
      have a := Int.floor_add_fract (-x)
      have b := Int.floor_add_fract x
      rw [h1] at a
      have : ((⌊-x⌋ : ℤ) : ℝ) = ((-⌊x⌋ - 1 : ℤ) : ℝ) := by push_cast; linarith
      exact_mod_cast this
    unfold rint
    rw [h1, h2]
    split_ifs with g1 g2 g3 g4 g5 g6 g7 g8 g9 g10 g11 g12 <;> first | (exfalso; linarith) | omega | skip
    all_goals (rw [Int.even_iff] at *; omega)

theorem npRound_neg (x : ℝ) (d : ℤ) : npRound (-x) d = -npRound x d := by
  unfold npRound
  rw [neg_mul, rint_neg]
  push_cast
  ring

theorem npRound_flip (s : Bool) (x : ℝ) (d : ℤ) : npRound (flipSign s * x) d = flipSign s * npRound x d := by
  cases s <;> simp [flipSign, npRound_neg]

/-- C100, the part that holds for every complex: when edges are stored the other way round and the flow on them
changes sign, the divergence stays what it was and the gradient component changes sign on those edges only.
Missing: the same of the curl, the curl component and the harmonic component, which the code does not satisfy
(`C100_curl_counterexample`). -/
theorem C100_gradient_partial (r : Reoriented sc sc' π σ τ s) (h : sc.OnSimpleGraph) (hb : sc'.Built) (lib : NumLib)
    (f : Fin sc.E → ℝ) (f' : Fin sc'.E → ℝ) (hf : ∀ k, f' (σ k) = flipSign (s k) * f k) :
    (∀ i, sc'.getDivergence f' (π i) = sc.getDivergence f i) ∧
    (∀ i j, sc'.L0 (π i) (π j) = sc.L0 i j) ∧
    ∀ (round : Bool) (d : ℤ) (g : Fin sc.E → ℝ), sc.getComponentFlow lib f "gradient" round d = .ok g →
      ∃ g', sc'.getComponentFlow lib f' "gradient" round d = .ok g' ∧ ∀ k, g' (σ k) = flipSign (s k) * g k := by
  have e1 : ∀ i k, sc'.B1 (π i) (σ k) = flipSign (s k) * sc.B1 i k := (C100_incidence r h hb).1
  refine ⟨?_, ?_, ?_⟩
  · intro i
    unfold SC.getDivergence
    simp only [mulVec, dotProduct]
    refine ((Equiv.sum_comp σ _).symm).trans ?_
    refine Finset.sum_congr rfl fun k _ => ?_
    rw [e1, hf]
    linear_combination (sc.B1 i k * f k) * flipSign_sq (s k)
  · intro i j
    unfold SC.L0
    rw [mul_apply, mul_apply]
    refine ((Equiv.sum_comp σ _).symm).trans ?_
    refine Finset.sum_congr rfl fun k _ => ?_
    rw [transpose_apply, transpose_apply, e1, e1]
    linear_combination (sc.B1 i k * sc.B1 j k) * flipSign_sq (s k)
  · intro round d g hg
    have key : ∀ k, sc'.B1.transpose.mulVec (lib.lstsq _ _ sc'.B1.transpose f') (σ k) =
        flipSign (s k) * sc.B1.transpose.mulVec (lib.lstsq _ _ sc.B1.transpose f) k := by
      have hp := (lib.isProj sc.B1.transpose f).reorient (A' := sc'.B1.transpose) (b' := f')
        (p' := fun k' => flipSign (s (σ.symm k')) * sc.B1.transpose.mulVec (lib.lstsq _ _ sc.B1.transpose f) (σ.symm k'))
        σ π (fun k => flipSign (s k)) (fun k => flipSign_sq _) (fun k i => e1 i k) hf
        (fun k => by simp)
      intro k
      have := congrFun ((lib.isProj sc'.B1.transpose f').unique hp) (σ k)
      simp only [Equiv.symm_apply_apply] at this
      exact this
    have hg' := Except.ok.inj hg
    refine ⟨getGradientFlow lib sc'.B1 f' round d, by simp [SC.getComponentFlow], fun k => ?_⟩
    rw [← hg']
    unfold getGradientFlow
    cases round
    · simp only [Bool.false_eq_true, if_false]; exact key k
    · simp only [if_true]; rw [key, npRound_flip]

/-- C100, everything, when only edges that bound no triangle are reversed. -/
theorem C100_components_partial (r : Reoriented sc sc' π σ τ s) (h : sc.OnSimpleGraph) (hb : sc'.Built)
    (hfree : ∀ k t, s k = true → t ∈ sc.triangles → ¬(sc.edges[k].1 ∈ t ∧ sc.edges[k].2 ∈ t)) (lib : NumLib)
    (f : Fin sc.E → ℝ) (f' : Fin sc'.E → ℝ) (hf : ∀ k, f' (σ k) = flipSign (s k) * f k) :
    (∀ t, sc'.getCurl f' (τ t) = sc.getCurl f t) ∧
    ∀ (component : String) (round : Bool) (d : ℤ) (g : Fin sc.E → ℝ),
      sc.getComponentFlow lib f component round d = .ok g →
      ∃ g', sc'.getComponentFlow lib f' component round d = .ok g' ∧ ∀ k, g' (σ k) = flipSign (s k) * g k := by
  have e2 : ∀ k t, sc'.B2 (σ k) (τ t) = flipSign (s k) * sc.B2 k t := by
    intro k t
    rw [(C100_incidence r h hb).2 k t]
    by_cases hs : s k = true
    · obtain ⟨x, y, z, h0⟩ := tri_fin h t
      have hf := hfree k sc.triangles[t] hs (List.getElem_mem _)
      have : sc.B2 k t = 0 := by
        rw [h.b2_entry h0, if_neg, if_neg, if_neg] <;> rintro (hh | hh) <;> rw [h0, hh] at hf <;> simp at hf
      rw [this, mul_zero]
    · simp [flipSign, hs]
  have key : ∀ k, sc'.B2.mulVec (lib.lstsq _ _ sc'.B2 f') (σ k) =
      flipSign (s k) * sc.B2.mulVec (lib.lstsq _ _ sc.B2 f) k := by
    have hp := (lib.isProj sc.B2 f).reorient (A' := sc'.B2) (b' := f')
      (p' := fun k' => flipSign (s (σ.symm k')) * sc.B2.mulVec (lib.lstsq _ _ sc.B2 f) (σ.symm k'))
      σ τ (fun k => flipSign (s k)) (fun k => flipSign_sq _) e2 hf (fun k => by simp)
    intro k
    have := congrFun ((lib.isProj sc'.B2 f').unique hp) (σ k)
    simp only [Equiv.symm_apply_apply] at this
    exact this
  have g2 : ∀ (round : Bool) (d : ℤ) (k : Fin sc.E),
      getCurlFlow lib sc'.B2 f' round d (σ k) = flipSign (s k) * getCurlFlow lib sc.B2 f round d k := by
    intro round d k
    unfold getCurlFlow
    cases round
    · simp only [Bool.false_eq_true, if_false]; exact key k
    · simp only [if_true]; rw [key, npRound_flip]
  have g1 : ∀ (round : Bool) (d : ℤ) (k : Fin sc.E),
      getGradientFlow lib sc'.B1 f' round d (σ k) = flipSign (s k) * getGradientFlow lib sc.B1 f round d k := by
    intro round d k
    obtain ⟨g', h1, h2⟩ := (C100_gradient_partial r h hb lib f f' hf).2.2 round d _
      (by simp [SC.getComponentFlow] : sc.getComponentFlow lib f "gradient" round d = .ok (getGradientFlow lib sc.B1 f round d))
    have h3 := Except.ok.inj h1
    rw [← h2 k, ← h3]
  refine ⟨?_, ?_⟩
  · intro t
    unfold SC.getCurl
    simp only [mulVec, dotProduct, transpose_apply]
    refine ((Equiv.sum_comp σ _).symm).trans ?_
    refine Finset.sum_congr rfl fun k _ => ?_
    rw [e2, hf]
    linear_combination (sc.B2 k t * f k) * flipSign_sq (s k)
  · intro component round d g hg
    unfold SC.getComponentFlow at hg ⊢
    split_ifs at hg ⊢ with c1 c2 c3
    · cases hg
      refine ⟨_, rfl, fun k => ?_⟩
      unfold getHarmonicFlow
      have hh : (f' - getGradientFlow lib sc'.B1 f' false 2 - getCurlFlow lib sc'.B2 f' false 2) (σ k) =
          flipSign (s k) * (f - getGradientFlow lib sc.B1 f false 2 - getCurlFlow lib sc.B2 f false 2) k := by
        simp only [Pi.sub_apply]
        rw [g1, g2, hf]
        ring
      cases round
      · simp only [Bool.false_eq_true, if_false]; exact hh
      · simp only [if_true]; rw [hh, npRound_flip]
    · cases hg; exact ⟨_, rfl, fun k => g2 round d k⟩
    · cases hg; exact ⟨_, rfl, fun k => g1 round d k⟩

theorem triB1_grad (B : Matrix (Fin 3) (Fin 3) ℝ) (h : ∀ i j, B i j = !![-1, -1, 0; 1, 0, -1; 0, 1, 1] i j) :
    (![1, 2, 1] : Fin 3 → ℝ) = B.transpose.mulVec (![0, 1, 2] : Fin 3 → ℝ) := by
  have : B = !![-1, -1, 0; 1, 0, -1; 0, 1, 1] := Matrix.ext h
  subst this
  ext k
  fin_cases k <;> simp [mulVec, dotProduct, Fin.sum_univ_three]; norm_num

theorem triB2_curl (B : Matrix (Fin 3) (Fin 1) ℝ) (h : ∀ i, B i 0 = (![1, -1, 1] : Fin 3 → ℝ) i) (f : Fin 3 → ℝ) :
    B.transpose.mulVec f 0 = f 0 - f 1 + f 2 := by
  simp only [mulVec, dotProduct, Fin.sum_univ_three, transpose_apply, h]
  simp
  ring

theorem triFlip : ∀ k : Fin 3, (![1, -2, 1] : Fin 3 → ℝ) k = flipSign ((![false, true, false] : Fin 3 → Bool) k) *
    (![1, 2, 1] : Fin 3 → ℝ) k := by
  intro k
  fin_cases k <;> simp [flipSign]

/-- C100 is false of the curl: reversing one side of a filled triangle, and the sign of the flow on it, turns a
flow without curl into one with curl, and the curl component of a gradient flow is no longer zero. -/
theorem C100_curl_counterexample (lib : NumLib) : ∃ (sc sc' : SC ℝ) (π : Fin sc.nodes.length ≃ Fin sc'.nodes.length)
    (σ : Fin sc.edges.length ≃ Fin sc'.edges.length) (τ : Fin sc.triangles.length ≃ Fin sc'.triangles.length)
    (s : Fin sc.edges.length → Bool) (f : Fin sc.E → ℝ) (f' : Fin sc'.E → ℝ),
    sc.WellFormed ∧ sc.OnSimpleGraph ∧ sc'.OnSimpleGraph ∧ Reoriented sc sc' π σ τ s ∧
    (∀ k, f' (σ k) = flipSign (s k) * f k) ∧
    (∃ x, f = sc.B1.transpose.mulVec x) ∧ sc.getCurl f = 0 ∧ sc'.getCurl f' ≠ 0 ∧
    sc.getComponentFlow lib f "curl" false = .ok 0 ∧
    ∃ c', sc'.getComponentFlow lib f' "curl" false = .ok c' ∧ c' ≠ 0 := by
  obtain ⟨sc, h, hw⟩ := SC.exists_wellFormed ℝ [0, 1, 2] [(0, 1), (0, 2), (1, 2)] [[0, 1, 2]] [] []
    (by decide) (by decide) (by
      intro t ht
      simp only [List.mem_cons, List.not_mem_nil, or_false] at ht
      subst ht
      exact ⟨0, 1, 2, rfl, by decide, by decide, by decide⟩)
  obtain ⟨sc', h', hw'⟩ := SC.exists_simple ℝ [0, 1, 2] [(0, 1), (2, 0), (1, 2)] [[0, 1, 2]] [] []
    (by decide) (by decide) (by decide) (by
      intro t ht
      simp only [List.mem_cons, List.not_mem_nil, or_false] at ht
      subst ht
      exact ⟨0, 1, 2, rfl, by decide, by decide, by decide⟩)
  obtain ⟨h1, h2, h3, -, -, -⟩ := SC.init_ok h
  obtain ⟨h1', h2', h3', -, -, -⟩ := SC.init_ok h'
  have hs : sc.OnSimpleGraph := ⟨hw.built, hw.inRange, hw.noLoops, by rw [h2]; decide⟩
  obtain ⟨nodes, edges, triangles, nf, ef, B1, B2⟩ := sc
  obtain ⟨nodes', edges', triangles', nf', ef', B1', B2'⟩ := sc'
  simp only at h1 h2 h3 h1' h2' h3'
  subst h1 h2 h3 h1' h2' h3'
  set sc : SC ℝ := ⟨[0, 1, 2], [(0, 1), (0, 2), (1, 2)], [[0, 1, 2]], nf, ef, B1, B2⟩ with hsc
  set sc' : SC ℝ := ⟨[0, 1, 2], [(0, 1), (2, 0), (1, 2)], [[0, 1, 2]], nf', ef', B1', B2'⟩ with hsc'
  have b1 : ∀ i j : Fin 3, B1 i j = !![-1, -1, 0; 1, 0, -1; 0, 1, 1] i j := by
    intro i j
    refine (hw.built.b1_entry hw.inRange hw.noLoops i j).trans ?_
    fin_cases i <;> fin_cases j <;> simp [hsc]
  have b2 : ∀ i : Fin 3, B2 i (0 : Fin 1) = ![1, -1, 1] i := by
    intro i
    refine (hs.b2_entry (t := (0 : Fin 1)) (a := 0) (b := 1) (c := 2) rfl i).trans ?_
    fin_cases i <;> simp [hsc]
  have b2' : ∀ i : Fin 3, B2' i (0 : Fin 1) = ![1, -1, 1] i := by
    intro i
    refine (hw'.b2_entry (t := (0 : Fin 1)) (a := 0) (b := 1) (c := 2) rfl i).trans ?_
    fin_cases i <;> simp [hsc']
  have hgrad : (![1, 2, 1] : Fin 3 → ℝ) = B1.transpose.mulVec (![0, 1, 2] : Fin 3 → ℝ) := triB1_grad B1 b1
  have hcurl : B2.transpose.mulVec (![1, 2, 1] : Fin 3 → ℝ) = 0 := by
    ext t
    have ht : t = (0 : Fin 1) := Subsingleton.elim (α := Fin 1) _ _
    subst ht
    refine (triB2_curl B2 b2 (![1, 2, 1] : Fin 3 → ℝ)).trans ?_
    change (1 : ℝ) - 2 + 1 = 0
    norm_num
  have hcurl' : B2'.transpose.mulVec (![1, -2, 1] : Fin 3 → ℝ) (0 : Fin 1) = 4 := by
    refine (triB2_curl B2' b2' (![1, -2, 1] : Fin 3 → ℝ)).trans ?_
    change (1 : ℝ) - (-2) + 1 = 4
    norm_num
  refine ⟨sc, sc', Equiv.refl (Fin 3), Equiv.refl (Fin 3), Equiv.refl (Fin 1), (![false, true, false] : Fin 3 → Bool),
    (![1, 2, 1] : Fin 3 → ℝ), (![1, -2, 1] : Fin 3 → ℝ), hw, hs, hw', ⟨?_, ?_⟩, ?_, ⟨_, hgrad⟩, hcurl, ?_, ?_, ?_⟩
  · change ∀ (k : Fin 3) (i j : Fin 3), ([(0, 1), (0, 2), (1, 2)] : List Edge)[k] =
      (((i : ℕ) : Int), ((j : ℕ) : Int)) →
      ([(0, 1), (2, 0), (1, 2)] : List Edge)[k] =
        if (![false, true, false] : Fin 3 → Bool) k then (((j : ℕ) : Int), ((i : ℕ) : Int))
        else (((i : ℕ) : Int), ((j : ℕ) : Int))
    decide +kernel
  · intro t i j l hh
    exact hh
  · exact (triFlip : ∀ k : Fin 3, (![1, -2, 1] : Fin 3 → ℝ) k = flipSign ((![false, true, false] : Fin 3 → Bool) k) *
      (![1, 2, 1] : Fin 3 → ℝ) k)
  · intro hh
    have := congrFun hh (0 : Fin 1)
    have h4 : (4 : ℝ) = 0 := hcurl'.symm.trans this
    norm_num at h4
  · have hp : IsProj sc.B2 (![1, 2, 1] : Fin 3 → ℝ) 0 := IsProj.zero hcurl
    have := (lib.isProj sc.B2 (![1, 2, 1] : Fin 3 → ℝ)).unique hp
    have h2 : getCurlFlow lib sc.B2 (![1, 2, 1] : Fin 3 → ℝ) false 2 = 0 := by
      unfold getCurlFlow
      simp only [Bool.false_eq_true, if_false]
      exact this
    exact congrArg Except.ok h2
  · refine ⟨_, rfl, ?_⟩
    intro hh
    have hp := lib.isProj sc'.B2 (![1, -2, 1] : Fin 3 → ℝ)
    have h0 : sc'.B2.mulVec (lib.lstsq _ _ sc'.B2 (![1, -2, 1] : Fin 3 → ℝ)) = 0 := hh
    rw [h0] at hp
    have h1 := hp.2
    rw [mulVec_zero] at h1
    have h4 : (0 : ℝ) = 4 := (congrFun h1 (0 : Fin 1)).trans hcurl'
    norm_num at h4

end Pytspl
