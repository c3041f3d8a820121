import Verif.Props.TrendAccuracy
import Verif.Props.Kirchhoff
import Mathlib.Combinatorics.SimpleGraph.Acyclic

/-!
# C174: interpolation recovers a flow exactly when the sampled edges determine it, if the weight is large
-/

namespace Pytspl

open Matrix

variable {n m : ℕ} {sc : SC ℝ}

/-! ## Specification -/

/-- the graph of the edges that were not sampled -/
def unsampledGraph (sc : SC ℝ) (obs : List (Fin sc.E)) : SimpleGraph Int where
  Adj u v := u ≠ v ∧ ∃ k : Fin sc.edges.length, k ∉ obs ∧ (sc.edges[k] = (u, v) ∨ sc.edges[k] = (v, u))
  symm := ⟨fun _ _ h => ⟨h.1.symm, h.2.imp fun _ hk => ⟨hk.1, hk.2.symm⟩⟩⟩
  loopless := ⟨fun _ h => h.1 rfl⟩

/-- two flows without the penalised component that agree on the listed edges are equal -/
def Determined (sc : SC ℝ) (component : String) (obs : List (Fin sc.E)) : Prop :=
  ∀ z z' : Fin sc.E → ℝ, Lacks sc component z → Lacks sc component z' → (∀ k ∈ obs, z k = z' k) → z = z'

/-! ## The exact penalty -/

/-- the entries outside of the list -/
private def off (s : Finset (Fin n)) : Matrix (Fin n) (Fin n) ℝ := diagonal fun k => if k ∈ s then 0 else 1

private theorem off_apply (s : Finset (Fin n)) (v : Fin n → ℝ) (k : Fin n) :
    (off s).mulVec v k = if k ∈ s then 0 else v k := by
  rw [off, mulVec_diagonal]
  split_ifs <;> simp

private theorem norm2_off (s : Finset (Fin n)) (v : Fin n → ℝ) : norm2 ((off s).mulVec v) ≤ norm2 v := by
  unfold norm2
  refine Real.sqrt_le_sqrt (Finset.sum_le_sum fun k _ => ?_)
  rw [off_apply]
  split_ifs
  · rw [zero_mul]; exact mul_self_nonneg _
  · exact le_rfl

/-- a flow that vanishes on the list can be moved into the kernel without touching the list, and not far -/
private theorem repair (lib : NumLib) (S : Matrix (Fin m) (Fin n) ℝ) (s : Finset (Fin n)) :
    ∃ C : ℝ, 0 ≤ C ∧ ∀ d : Fin n → ℝ, (∀ k ∈ s, d k = 0) →
      ∃ d' : Fin n → ℝ, (∀ k ∈ s, d' k = 0) ∧ S.mulVec d' = 0 ∧ norm2 (d - d') ≤ C * norm1 (S.mulVec d) := by
  set A := S * off s with hA
  have ker : ∀ v, A.mulVec (A.transpose.mulVec v) = 0 → A.transpose.mulVec v = 0 := by
    intro v h
    apply dotProduct_self_eq_zero.mp
    have h1 : A.transpose.mulVec v ⬝ᵥ A.transpose.mulVec v = v ⬝ᵥ A.mulVec (A.transpose.mulVec v) := by
      rw [dotProduct_mulVec v, ← mulVec_transpose]
    rw [h1, h, dotProduct_zero]
  obtain ⟨C, hC, hb⟩ := bounded_below A A.transpose ker
  refine ⟨C, hC, fun d hd => ?_⟩
  have hPd : (off s).mulVec d = d := by
    funext k
    rw [off_apply]
    split_ifs with h
    · exact (hd k h).symm
    · rfl
  have hAd : A.mulVec d = S.mulVec d := by rw [hA, ← mulVec_mulVec, hPd]
  obtain ⟨-, h2⟩ := lib.isProj A.transpose d
  set r := lib.lstsq _ _ A.transpose d with hr
  rw [transpose_transpose] at h2
  refine ⟨(off s).mulVec (d - A.transpose.mulVec r), fun k hk => by rw [off_apply, if_pos hk], ?_, ?_⟩
  · rw [mulVec_mulVec, ← hA, mulVec_sub, h2, sub_self]
  · have e : d - (off s).mulVec (d - A.transpose.mulVec r) = (off s).mulVec (A.transpose.mulVec r) := by
      rw [mulVec_sub, hPd, sub_sub_cancel]
    rw [e]
    refine (norm2_off s _).trans ((hb r).trans ?_)
    rw [h2, hAd]

private theorem lacks_sub {component : String} {z z' : Fin sc.E → ℝ} (h : Lacks sc component z)
    (h' : Lacks sc component z') : Lacks sc component (z - z') := by
  unfold Lacks at *
  split_ifs at *
  · show sc.B1.mulVec (z - z') = 0
    rw [mulVec_sub, show sc.B1.mulVec z = 0 from h, show sc.B1.mulVec z' = 0 from h', sub_self]
  · show sc.B2.transpose.mulVec (z - z') = 0
    rw [mulVec_sub, show sc.B2.transpose.mulVec z = 0 from h, show sc.B2.transpose.mulVec z' = 0 from h', sub_self]

private theorem split_obs {flow v : Fin n → ℝ} {obs : List (Fin n)} (hv : ∀ k ∈ obs, v k = flow k) :
    v ⬝ᵥ v = (fun k => if k ∈ obs then flow k else 0 : Fin n → ℝ) ⬝ᵥ (fun k => if k ∈ obs then flow k else 0) +
      norm2 (v - fun k => if k ∈ obs then flow k else 0) ^ 2 := by
  rw [norm2_sq]
  unfold dotProduct
  rw [← Finset.sum_add_distrib]
  refine Finset.sum_congr rfl fun k _ => ?_
  simp only [Pi.sub_apply]
  by_cases hk : k ∈ obs
  · simp [hk, hv k hk]
  · simp [hk]

/-- C174: for every complex, component and order there is a weight above which the interpolation of a flow without the
penalised component returns, among all flows without it that agree with the flow on the sampled edges, the shortest one.
So it returns the flow itself whenever the sampled edges determine it.  Missing: a bound on the weight that does not
depend on the complex; the default weight is not large enough, see the counterexample. -/
theorem C174_recovery_partial (sc : SC ℝ) (component : String) (hc : component = "divergence" ∨ component = "curl")
    (order : ℕ) (hE : sc.E ≤ 2 ^ 53) : ∃ w : ℝ, 0 ≤ w ∧ ∀ (cvx : CvxSolver) (sampler : Sampler sc.E)
      (st st' : TrendHistory sc.E) (flow : Fin sc.E → ℝ) (ratio : List ℝ) (realisations : ℕ) (mu : ℝ),
      Lacks sc component flow → (∀ r ∈ ratio, 0 ≤ r ∧ r ≤ 1) → w < mu →
      sc.interpolationL1 cvx sampler st flow component ratio realisations order mu = (.ok (), st') →
      ∀ (i j : ℕ) (r : ℝ) (x : Fin sc.E → ℝ), ratio[i]? = some r → j < realisations → Stored st' i j x →
        ∃ obs : List (Fin sc.E), obs = sampler.pick i j obs.length ∧ obs.Nodup ∧ ⌊(sc.E : ℝ) * r⌋ ≤ obs.length ∧ obs.length ≤ ⌈(sc.E : ℝ) * r⌉ ∧
          Lacks sc component x ∧ (∀ k ∈ obs, x k = flow k) ∧
          (∀ z, Lacks sc component z → (∀ k ∈ obs, z k = flow k) → norm2 x ≤ norm2 z ∧ (norm2 z ≤ norm2 x → z = x)) ∧
          (Determined sc component obs → x = flow) := by
  obtain ⟨lib⟩ := NumLib.exists
  obtain ⟨k, S, hS, hk⟩ := shift_ok sc component order
  choose C hC hrep using fun s : Finset (Fin sc.E) => repair lib S s
  refine ⟨∑ s, C s, Finset.sum_nonneg fun s _ => hC s, ?_⟩
  intro cvx sampler st st' flow ratio realisations mu hf hr hw h i j r x hi hj hx
  have hmu : 0 ≤ mu := (Finset.sum_nonneg fun s _ => hC s).trans hw.le
  obtain ⟨st2, k', S', h1, hS', -, h2⟩ := C69_interpolation cvx sc sampler st flow component hc ratio hr realisations order
    mu hmu hE
  rw [h] at h1
  rw [hS] at hS'
  cases h1
  cases hS'
  obtain ⟨⟨obs, ho0, ho1, ho2, ho3, ho4, hobs, hbest⟩, -⟩ := h2 i j r x hi hj hx
  have hlt : C obs.toFinset < mu :=
    lt_of_le_of_lt (Finset.single_le_sum (f := C) (fun s _ => hC s) (Finset.mem_univ _)) hw
  set known : Fin sc.E → ℝ := fun k => if k ∈ obs then flow k else 0 with hkn
  have hSf : S.mulVec flow = 0 := (hk flow).2 hf
  have n0 : norm1 (0 : Fin k → ℝ) = 0 := by simp [norm1]
  -- nothing of the component is left
  obtain ⟨d', hd1, hd2, hd3⟩ := hrep obs.toFinset (x - flow) fun k hk => by
    rw [Pi.sub_apply, hobs k (List.mem_toFinset.1 hk), sub_self]
  have hSx : S.mulVec (x - flow) = S.mulVec x := by rw [mulVec_sub, hSf, sub_zero]
  have hz := hbest (flow + d') known (fun k hk => by
    rw [Pi.add_apply, hd1 k (List.mem_toFinset.2 hk), add_zero]) fun _ => rfl
  rw [mulVec_add, hSf, hd2, add_zero, n0, mul_zero, add_zero] at hz
  have htri : norm2 (flow + d' - known) ≤ norm2 (x - known) + norm2 (x - flow - d') := by
    have e : flow + d' - known = (x - known) + (-1 : ℝ) • (x - flow - d') := by
      funext k
      simp only [Pi.add_apply, Pi.sub_apply, Pi.smul_apply, smul_eq_mul]
      ring
    rw [e]
    refine (norm2_add_le _ _).trans (le_of_eq ?_)
    rw [norm2_smul, abs_neg, abs_one, one_mul]
  rw [hSx] at hd3
  have hn1 := norm1_nonneg (S.mulVec x)
  have hs0 : norm1 (S.mulVec x) = 0 := by
    by_contra hne
    have hp : 0 < norm1 (S.mulVec x) := lt_of_le_of_ne hn1 (Ne.symm hne)
    nlinarith
  have hSx0 : S.mulVec x = 0 := by
    funext i
    exact abs_eq_zero.1 ((Finset.sum_eq_zero_iff_of_nonneg fun i _ => abs_nonneg (S.mulVec x i)).1 hs0 i
      (Finset.mem_univ i))
  have hxl : Lacks sc component x := (hk x).1 hSx0
  have shortest : ∀ z, Lacks sc component z → (∀ k ∈ obs, z k = flow k) → norm2 x ≤ norm2 z := by
    intro z hzl hzo
    have h3 := hbest z known hzo fun _ => rfl
    rw [(hk z).2 hzl, hSx0, n0, mul_zero, add_zero, add_zero] at h3
    have h4 := pow_le_pow_left₀ (norm2_nonneg _) h3 2
    unfold norm2
    exact Real.sqrt_le_sqrt (by rw [split_obs hobs, split_obs hzo]; linarith)
  refine ⟨obs, ho0, ho1, ho3, ho4, hxl, hobs, fun z hzl hzo => ⟨shortest z hzl hzo, fun hzx => ?_⟩,
    fun hdet => hdet x flow hxl hf hobs⟩
  -- the middle of two shortest flows would be shorter
  have hm1 : Lacks sc component ((1 / 2 : ℝ) • (x + z)) := by
    unfold Lacks at hxl hzl ⊢
    split_ifs at *
    · show sc.B1.mulVec ((1 / 2 : ℝ) • (x + z)) = 0
      rw [mulVec_smul, mulVec_add, show sc.B1.mulVec x = 0 from hxl, show sc.B1.mulVec z = 0 from hzl, add_zero,
        smul_zero]
    · show sc.B2.transpose.mulVec ((1 / 2 : ℝ) • (x + z)) = 0
      rw [mulVec_smul, mulVec_add, show sc.B2.transpose.mulVec x = 0 from hxl,
        show sc.B2.transpose.mulVec z = 0 from hzl, add_zero, smul_zero]
  have hm := shortest _ hm1 fun k hk => by
    rw [Pi.smul_apply, Pi.add_apply, hobs k hk, hzo k hk, smul_eq_mul]
    ring
  have e1 := shortest z hzl hzo
  have e2 : norm2 z = norm2 x := le_antisymm hzx e1
  have e3 := pow_le_pow_left₀ (norm2_nonneg _) hm 2
  have e4 : norm2 z ^ 2 = norm2 x ^ 2 := by rw [e2]
  rw [norm2_sq, norm2_sq, smul_dotProduct, dotProduct_smul, add_dotProduct, dotProduct_add, dotProduct_add,
    dotProduct_comm z x] at e3
  rw [norm2_sq, norm2_sq] at e4
  simp only [smul_eq_mul] at e3
  have e5 : (z - x) ⬝ᵥ (z - x) ≤ 0 := by
    rw [sub_dotProduct, dotProduct_sub, dotProduct_sub, dotProduct_comm z x]
    linarith
  have e6 : (z - x) ⬝ᵥ (z - x) = 0 := le_antisymm e5 (Finset.sum_nonneg fun k _ => mul_self_nonneg _)
  exact sub_eq_zero.1 (dotProduct_self_eq_zero.1 e6)

/-- C174: whatever the weight, a flow that vanishes on the sampled edges is returned as zero.  So if the sampled edges do not
determine the flows without the penalised component, some of them are not recovered. -/
theorem C174_blind (cvx : CvxSolver) (sc : SC ℝ) (sampler : Sampler sc.E) (st st' : TrendHistory sc.E)
    (flow : Fin sc.E → ℝ) (component : String) (hc : component = "divergence" ∨ component = "curl") (ratio : List ℝ)
    (hr : ∀ r ∈ ratio, 0 ≤ r ∧ r ≤ 1) (realisations order : ℕ) (mu : ℝ) (hmu : 0 ≤ mu) (hE : sc.E ≤ 2 ^ 53)
    (h : sc.interpolationL1 cvx sampler st flow component ratio realisations order mu = (.ok (), st')) (i j : ℕ) (r : ℝ)
    (x : Fin sc.E → ℝ) (hi : ratio[i]? = some r) (hj : j < realisations) (hx : Stored st' i j x) :
    ∃ obs : List (Fin sc.E), obs = sampler.pick i j obs.length ∧ obs.Nodup ∧ ⌊(sc.E : ℝ) * r⌋ ≤ obs.length ∧ obs.length ≤ ⌈(sc.E : ℝ) * r⌉ ∧
      (∀ k ∈ obs, x k = flow k) ∧ ((∀ k ∈ obs, flow k = 0) → x = 0) := by
  obtain ⟨st2, k, S, h1, hS, -, h2⟩ := C69_interpolation cvx sc sampler st flow component hc ratio hr realisations order
    mu hmu hE
  rw [h] at h1
  cases h1
  obtain ⟨⟨obs, ho0, ho1, ho2, ho3, ho4, hobs, hbest⟩, -⟩ := h2 i j r x hi hj hx
  refine ⟨obs, ho0, ho1, ho3, ho4, hobs, fun h0 => ?_⟩
  have hz := hbest 0 0 (fun k hk => (h0 k hk).symm) fun k => by
    split_ifs with hk
    · exact (h0 k hk).symm
    · rfl
  rw [sub_zero, sub_zero, mulVec_zero, show norm1 (0 : Fin k → ℝ) = 0 by simp [norm1], mul_zero, add_zero,
    show norm2 (0 : Fin sc.E → ℝ) = 0 from norm2_eq_zero.2 rfl] at hz
  have h3 := mul_nonneg hmu (norm1_nonneg (S.mulVec x))
  exact norm2_eq_zero.1 (le_antisymm (by linarith) (norm2_nonneg _))

/-! ## Which edges determine a circulation -/

private theorem div_apply (hs : sc.OnSimpleGraph) (f : Fin sc.E → ℝ) (i : Fin sc.nodes.length) :
    sc.getDivergence f i = (∑ j : Fin sc.edges.length, if sc.edges[j].2 = ((i : ℕ) : Int) then f j else 0) -
      ∑ j : Fin sc.edges.length, if sc.edges[j].1 = ((i : ℕ) : Int) then f j else 0 :=
  (C15_divergence sc hs.built hs.inRange hs.noLoops f).1 i

/-- along a walk a unit of flow can be sent -/
private theorem walk_flow (hs : sc.OnSimpleGraph) (obs : List (Fin sc.E)) (e : Fin sc.edges.length) {u v : Int}
    (p : ((unsampledGraph sc obs).deleteEdges {s(sc.edges[e].1, sc.edges[e].2)}).Walk u v) :
    ∃ d : Fin sc.E → ℝ, (∀ k ∈ obs, d k = 0) ∧ d e = 0 ∧ ∀ i : Fin sc.nodes.length,
      sc.getDivergence d i = (if v = ((i : ℕ) : Int) then 1 else 0) - if u = ((i : ℕ) : Int) then 1 else 0 := by
  induction p with
  | nil =>
    refine ⟨0, fun _ _ => rfl, rfl, fun i => ?_⟩
    rw [sub_self]
    exact congrFun (mulVec_zero sc.B1) i
  | @cons a b c hab _ ih =>
    obtain ⟨d, h1, h2, h3⟩ := ih
    rw [SimpleGraph.deleteEdges_adj] at hab
    obtain ⟨⟨-, k, hk, hkab⟩, hne⟩ := hab
    have hke : e ≠ k := by
      rintro rfl
      refine hne ?_
      rw [Set.mem_singleton_iff]
      rcases hkab with h | h <;> rw [h]
      exact Sym2.eq_swap
    have key : ∃ c : ℝ, ∀ i : Fin sc.nodes.length, sc.getDivergence (Pi.single k c : Fin sc.E → ℝ) i =
        (if b = ((i : ℕ) : Int) then 1 else 0) - if a = ((i : ℕ) : Int) then 1 else 0 := by
      have hd : ∀ (c : ℝ) (i : Fin sc.nodes.length), sc.getDivergence (Pi.single k c : Fin sc.E → ℝ) i =
          (if sc.edges[k].2 = ((i : ℕ) : Int) then c else 0) - if sc.edges[k].1 = ((i : ℕ) : Int) then c else 0 := by
        intro c i
        rw [div_apply hs]
        congr 1
        · rw [Finset.sum_eq_single k (fun j _ hj => by rw [Pi.single_eq_of_ne hj, ite_self])
            fun h => absurd (Finset.mem_univ _) h, Pi.single_eq_same]
        · rw [Finset.sum_eq_single k (fun j _ hj => by rw [Pi.single_eq_of_ne hj, ite_self])
            fun h => absurd (Finset.mem_univ _) h, Pi.single_eq_same]
      rcases hkab with h | h
      · exact ⟨1, fun i => by rw [hd, h]⟩
      · refine ⟨-1, fun i => ?_⟩
        rw [hd, h]
        split_ifs <;> norm_num
    obtain ⟨q, hq⟩ := key
    refine ⟨Pi.single k q + d, fun l hl => ?_, ?_, fun i => ?_⟩
    · have : l ≠ k := fun h => hk (h ▸ hl)
      rw [Pi.add_apply, h1 l hl, Pi.single_eq_of_ne this, add_zero]
    · rw [Pi.add_apply, h2, Pi.single_eq_of_ne hke, add_zero]
    · have e1 : sc.getDivergence (Pi.single k q + d) i = sc.getDivergence (Pi.single k q) i + sc.getDivergence d i :=
        congrFun (mulVec_add sc.B1 _ _) i
      rw [e1, hq, h3]
      ring

/-- no other edge joins the same nodes -/
theorem other_edge_ne (hs : sc.OnSimpleGraph) {i j : Fin sc.edges.length} (hij : i ≠ j) :
    ¬ (sc.edges[i] = (sc.edges[j].1, sc.edges[j].2) ∨ sc.edges[i] = (sc.edges[j].2, sc.edges[j].1)) := by
  have hpw := List.pairwise_iff_getElem.mp hs.noRepeats
  rcases lt_or_gt_of_ne (fun hh => hij (Fin.ext hh) : (i : ℕ) ≠ j) with hlt | hlt
  · obtain ⟨h1, h2⟩ := hpw _ _ i.isLt j.isLt hlt
    rintro (h | h)
    · exact h1 h
    · exact h2 h
  · obtain ⟨h1, h2⟩ := hpw _ _ j.isLt i.isLt hlt
    rintro (h | h)
    · exact h1 h.symm
    · refine h2 ?_
      have : sc.edges[(i : ℕ)] = sc.edges[(j : ℕ)].swap := h
      rw [this, Prod.swap_swap]

/-- C174: the sampled edges determine every flow without divergence exactly when the other edges contain no cycle. -/
theorem C174_forest (hs : sc.OnSimpleGraph) (obs : List (Fin sc.E)) :
    Determined sc "divergence" obs ↔ (unsampledGraph sc obs).IsAcyclic := by
  classical
  have adj : ∀ e : Fin sc.edges.length, e ∉ obs → (unsampledGraph sc obs).Adj sc.edges[e].1 sc.edges[e].2 := fun e he =>
    ⟨hs.noLoops _ (List.getElem_mem _), e, he, .inl rfl⟩
  rw [SimpleGraph.isAcyclic_iff_forall_adj_isBridge]
  constructor
  · intro hdet u v huv
    obtain ⟨hne, e, he, huv⟩ := huv
    suffices h : (unsampledGraph sc obs).IsBridge s(sc.edges[e].1, sc.edges[e].2) by
      rcases huv with h' | h'
      · rw [h'] at h; exact h
      · rw [h'] at h; rw [Sym2.eq_swap]; exact h
    rw [SimpleGraph.isBridge_iff]
    rintro ⟨p⟩
    obtain ⟨d, h1, h2, h3⟩ := walk_flow hs obs e p
    have h4 : (Pi.single e 1 : Fin sc.E → ℝ) = d := by
      have hl : Lacks sc "divergence" (Pi.single e 1 - d) := by
        unfold Lacks
        rw [if_pos rfl]
        funext i
        have e1 : sc.getDivergence (Pi.single e 1 - d) i = sc.getDivergence (Pi.single e 1) i - sc.getDivergence d i :=
          congrFun (mulVec_sub sc.B1 _ _) i
        rw [e1, h3]
        have e2 : sc.getDivergence (Pi.single e 1 : Fin sc.E → ℝ) i =
            (if sc.edges[e].2 = ((i : ℕ) : Int) then 1 else 0) - if sc.edges[e].1 = ((i : ℕ) : Int) then 1 else 0 := by
          rw [div_apply hs]
          congr 1
          · rw [Finset.sum_eq_single e (fun j _ hj => by rw [Pi.single_eq_of_ne hj, ite_self])
              fun h => absurd (Finset.mem_univ _) h, Pi.single_eq_same]
          · rw [Finset.sum_eq_single e (fun j _ hj => by rw [Pi.single_eq_of_ne hj, ite_self])
              fun h => absurd (Finset.mem_univ _) h, Pi.single_eq_same]
        rw [e2, sub_self]
        rfl
      have hz : Lacks sc "divergence" (0 : Fin sc.E → ℝ) := by
        unfold Lacks
        rw [if_pos rfl]
        exact mulVec_zero sc.B1
      refine sub_eq_zero.1 (hdet _ 0 hl hz fun k hk => ?_)
      have : k ≠ e := fun h => he (h ▸ hk)
      rw [Pi.sub_apply, h1 k hk, Pi.single_eq_of_ne this, sub_zero]
      rfl
    have h5 := congrFun h4 e
    rw [h2, Pi.single_eq_same] at h5
    exact one_ne_zero h5
  · intro hbr z z' hz hz' hzz
    obtain ⟨lib⟩ := NumLib.exists
    have hd := lacks_sub hz hz'
    set d := z - z' with hdd
    have hd0 : ∀ k ∈ obs, d k = 0 := fun k hk => by rw [hdd, Pi.sub_apply, hzz k hk, sub_self]
    have hcut : ∀ S : Finset Int, netOutflow sc d S = 0 := by
      rw [← C170_cuts lib hs]
      obtain ⟨g, c, hh, hp⟩ := HodgeParts.exists lib sc d
      rw [hp.grad]
      refine congrArg Except.ok (hp.proj.1.unique (IsProj.zero ?_))
      rw [transpose_transpose]
      unfold Lacks at hd
      rw [if_pos rfl] at hd
      exact hd
    suffices h : ∀ e, d e = 0 from sub_eq_zero.1 (funext h)
    intro e
    by_cases he : e ∈ obs
    · exact hd0 e he
    have hb := hbr (adj e he)
    rw [SimpleGraph.isBridge_iff] at hb
    set G := (unsampledGraph sc obs).deleteEdges {s(sc.edges[e].1, sc.edges[e].2)} with hG
    let T : Finset Int := ((Finset.range sc.nodes.length).image fun i : ℕ => (i : Int)).filter
      fun w => G.Reachable sc.edges[e].1 w
    have memT : ∀ w : Int, 0 ≤ w ∧ w < sc.nodes.length → (w ∈ T ↔ G.Reachable sc.edges[e].1 w) := by
      intro w hw
      rw [Finset.mem_filter, Finset.mem_image]
      constructor
      · exact fun h => h.2
      · exact fun h => ⟨⟨w.toNat, Finset.mem_range.2 (by omega), by omega⟩, h⟩
    obtain ⟨r1, r2⟩ := hs.inRange sc.edges[e] (List.getElem_mem _)
    have t1 : sc.edges[e].1 ∈ T := (memT _ r1).2 (SimpleGraph.Reachable.refl _)
    have t2 : sc.edges[e].2 ∉ T := fun h => hb ((memT _ r2).1 h)
    -- no other edge that carries flow crosses the cut
    have cross : ∀ j : Fin sc.edges.length, j ≠ e → d j ≠ 0 → (sc.edges[j].1 ∈ T ↔ sc.edges[j].2 ∈ T) := by
      intro j hj hdj
      obtain ⟨q1, q2⟩ := hs.inRange sc.edges[j] (List.getElem_mem _)
      have hjo : j ∉ obs := fun h => hdj (hd0 j h)
      have hadj : G.Adj sc.edges[j].1 sc.edges[j].2 := by
        rw [hG, SimpleGraph.deleteEdges_adj]
        refine ⟨adj j hjo, fun h => ?_⟩
        rw [Set.mem_singleton_iff, Sym2.eq_iff] at h
        rcases h with ⟨a, b⟩ | ⟨a, b⟩
        · exact other_edge_ne hs hj (.inl (Prod.ext a b))
        · exact other_edge_ne hs hj (.inr (Prod.ext a b))
      rw [memT _ q1, memT _ q2]
      exact ⟨fun h => h.trans hadj.reachable, fun h => h.trans hadj.symm.reachable⟩
    have hT := hcut T
    unfold netOutflow at hT
    rw [Finset.sum_eq_single e (fun j _ hj => ?_) fun h => absurd (Finset.mem_univ _) h, if_pos ⟨t1, t2⟩,
      Finset.sum_eq_zero fun j _ => ?_, sub_zero] at hT
    · exact hT
    · by_cases hje : j = e
      · subst hje
        exact if_neg fun h => h.1 t1
      · by_cases hdj : d j = 0
        · rw [hdj, ite_self]
        · exact if_neg fun h => h.1 ((cross j hje hdj).2 h.2)
    · by_cases hdj : d j = 0
      · rw [hdj, ite_self]
      · exact if_neg fun h => h.2 ((cross j hj hdj).1 h.1)

/-! ## The default weight is too small -/

private theorem tri_div (x : Fin 3 → ℝ) (i : Fin 3) : tri.getDivergence x i =
    ((triB1 i 0 : ℤ) : ℝ) * x 0 + ((triB1 i 1 : ℤ) : ℝ) * x 1 + ((triB1 i 2 : ℤ) : ℝ) * x 2 := by
  show (triB1.map (Int.cast : ℤ → ℝ)).mulVec x i = _
  simp only [mulVec, dotProduct, Fin.sum_univ_three, map_apply]

private theorem tri_simple : tri.OnSimpleGraph :=
  ⟨tri_wellFormed.built, tri_wellFormed.inRange, tri_wellFormed.noLoops, by
    show NoRepeats [(0, 1), (0, 2), (1, 2)]
    decide⟩

private def circ : Fin 3 → ℝ := ![1, -1, 1]

private theorem circ_lacks : Lacks tri "divergence" circ := by
  unfold Lacks
  rw [if_pos rfl]
  funext i
  rw [show tri.getDivergence circ i = _ from tri_div circ i]
  have : ∀ i : Fin 3, triB1 i 0 * 1 + triB1 i 1 * (-1) + triB1 i 2 * 1 = 0 := by decide
  have h := this i
  have h2 : ((triB1 i 0 * 1 + triB1 i 1 * (-1) + triB1 i 2 * 1 : ℤ) : ℝ) = 0 := by rw [h]; simp
  push_cast at h2
  simpa [circ] using h2

private theorem tri_norm1 (x : Fin 3 → ℝ) : norm1 (tri.B1.mulVec x) = |-x 0 - x 1| + |x 0 - x 2| + |x 1 + x 2| := by
  have e : norm1 (tri.B1.mulVec x) = ∑ i : Fin 3, |tri.getDivergence x i| := rfl
  rw [e, Fin.sum_univ_three, tri_div, tri_div, tri_div]
  simp [triB1, sub_eq_add_neg]

private theorem tri_determined (k0 : Fin 3) : Determined tri "divergence" [k0] := by
  intro z z' hz hz' hk
  have hd := lacks_sub hz hz'
  unfold Lacks at hd
  rw [if_pos rfl] at hd
  have hk0 : (z - z') k0 = 0 := sub_eq_zero.2 (hk k0 (List.mem_singleton.2 rfl))
  refine sub_eq_zero.1 ?_
  generalize z - z' = d at hd hk0
  revert hk0 hd d
  show ∀ d : Fin 3 → ℝ, tri.getDivergence d = 0 → d k0 = 0 → d = 0
  intro d hd hk0
  have h : ∀ i : Fin 3, _ = (0 : ℝ) := fun i => (tri_div d i).symm.trans (congrFun hd i)
  have h0 := h 0
  have h1 := h 1
  have h2 := h 2
  simp [triB1] at h0 h1 h2
  have : d 0 = 0 ∧ d 1 = 0 ∧ d 2 = 0 := by
    fin_cases k0 <;> simp at hk0 <;> refine ⟨?_, ?_, ?_⟩ <;> linarith
  funext i
  fin_cases i
  · exact this.1
  · exact this.2.1
  · exact this.2.2

private theorem tri_small (k0 : Fin 3) (x : Fin 3 → ℝ) (hx : x k0 = circ k0)
    (h : norm2 (x - fun k => if k = k0 then circ k else 0) + 1 / 2 * norm1 (tri.B1.mulVec x) ≤
      1 / 2 * norm1 (tri.B1.mulVec (fun k => if k = k0 then circ k else 0 : Fin 3 → ℝ))) : ∀ k, k ≠ k0 → x k = 0 := by
  set y : Fin 3 → ℝ := x - fun k => if k = k0 then circ k else 0 with hy
  have hq := norm2_nonneg y
  have hq2 : norm2 y ^ 2 = y 0 * y 0 + y 1 * y 1 + y 2 * y 2 := by
    rw [norm2_sq, dotProduct, Fin.sum_univ_three]
  rw [tri_norm1, tri_norm1] at h
  have a1 := neg_abs_le (-x 0 - x 1)
  have a2 := le_abs_self (-x 0 - x 1)
  have b1 := neg_abs_le (x 0 - x 2)
  have b2 := le_abs_self (x 0 - x 2)
  have c1 := neg_abs_le (x 1 + x 2)
  have c2 := le_abs_self (x 1 + x 2)
  have a0 := abs_nonneg (-x 0 - x 1)
  have b0 := abs_nonneg (x 0 - x 2)
  have c0 := abs_nonneg (x 1 + x 2)
  suffices h0 : norm2 y = 0 by
    intro k hk
    have := congrFun (norm2_eq_zero.1 h0) k
    rw [hy, Pi.sub_apply, if_neg hk, sub_zero] at this
    exact this
  generalize norm2 y = q at *
  have y0 : y 0 = x 0 - if (0 : Fin 3) = k0 then circ 0 else 0 := rfl
  have y1 : y 1 = x 1 - if (1 : Fin 3) = k0 then circ 1 else 0 := rfl
  have y2 : y 2 = x 2 - if (2 : Fin 3) = k0 then circ 2 else 0 := rfl
  rw [y0, y1, y2] at hq2
  clear_value y
  fin_cases k0
  · simp [circ] at hx h hq2
    have : 2 * q ≤ x 2 - x 1 := by linarith
    nlinarith [sq_nonneg (x 1 + x 2)]
  · simp [circ] at hx h hq2
    have : 2 * q ≤ x 0 + x 2 := by linarith
    nlinarith [sq_nonneg (x 0 - x 2)]
  · simp [circ] at hx h hq2
    have : 2 * q ≤ x 0 - x 1 := by linarith
    nlinarith [sq_nonneg (x 0 + x 1)]

/-- C174 is false for the default weight 1/2: on a triangle with a circulation, one sampled edge determines the flow, but the
other two edges get the value 0, whatever the solver and whichever edge is sampled. -/
theorem C174_counterexample : ∃ (sc : SC ℝ) (flow : Fin sc.E → ℝ), sc.WellFormed ∧ sc.OnSimpleGraph ∧
    Lacks sc "divergence" flow ∧ (∀ k, flow k ≠ 0) ∧
    ∀ (cvx : CvxSolver) (sampler : Sampler sc.E) (st : TrendHistory sc.E), ∃ st' x k0,
      sc.interpolationL1 cvx sampler st flow "divergence" [1 / 2] 1 0 (1 / 2) = (.ok (), st') ∧ Stored st' 0 0 x ∧
      Determined sc "divergence" [k0] ∧ x k0 = flow k0 ∧ ∀ k, k ≠ k0 → x k = 0 := by
  refine ⟨tri, circ, tri_wellFormed, tri_simple, circ_lacks, fun k => ?_, fun cvx sampler st => ?_⟩
  · have : ∀ k : Fin 3, circ k ≠ 0 := fun k => by fin_cases k <;> simp [circ]
    exact this k
  obtain ⟨st', m, S, h1, hS, ⟨rows, hr1, hr2, hr3⟩, h2⟩ := C69_interpolation cvx tri sampler st circ "divergence" (.inl rfl) [1 / 2]
    (by simp; norm_num) 1 0 (1 / 2) (by norm_num) (show 3 ≤ 2 ^ 53 by norm_num)
  have hS' : tri.getShiftOperator "divergence" ((0 : ℕ) : Int) = .ok ⟨tri.N, tri.B1⟩ := rfl
  rw [hS] at hS'
  cases hS'
  obtain ⟨row, hrow⟩ : ∃ row, rows[0]? = some row := ⟨rows[0]'(by rw [hr2]; simp), List.getElem?_eq_getElem _⟩
  have hlen := hr3 row (List.mem_of_getElem? hrow)
  obtain ⟨x, hx⟩ : ∃ x, row[0]? = some x := ⟨row[0]'(by omega), List.getElem?_eq_getElem _⟩
  have hst : Stored st' 0 0 x := ⟨rows, row, hr1, hrow, hx⟩
  obtain ⟨⟨obs, -, -, ho2, -, -, hobs, hbest⟩, -⟩ := h2 0 0 (1 / 2) x rfl one_pos hst
  have hfl : ⌊sampler.R.rnd ((tri.E : ℝ) * (1 / 2))⌋ = 1 := by
    have e : (tri.E : ℝ) * (1 / 2) = 3 / 2 := by
      rw [show (tri.E : ℝ) = 3 by norm_cast]
      norm_num
    have e2 : ⌊(3 / 2 : ℝ)⌋ = 1 := by
      rw [Int.floor_eq_iff]
      norm_num
    rw [e, sampler.R.floor_rnd_eq (by norm_num) (by norm_num) (by rw [e2]; norm_num), e2]
  rw [hfl] at ho2
  obtain ⟨k0, rfl⟩ := List.length_eq_one_iff.1 (show obs.length = 1 by exact_mod_cast ho2)
  refine ⟨st', x, k0, h1, hst, tri_determined k0, hobs k0 (List.mem_singleton.2 rfl), ?_⟩
  have hb := hbest (fun k => if k = k0 then circ k else 0) (fun k => if k = k0 then circ k else 0) (fun k hk => by
    rw [List.mem_singleton.1 hk, if_pos rfl]) fun k => by simp only [List.mem_singleton]
  rw [sub_self, show norm2 (0 : Fin tri.E → ℝ) = 0 from norm2_eq_zero.2 rfl, zero_add] at hb
  exact tri_small k0 x (hobs k0 (List.mem_singleton.2 rfl)) hb

/-- the hypotheses of C174 are met: on the triangle every single edge determines the circulations, and the remaining two
edges contain no cycle; so above the threshold the circulation is recovered from one edge -/
example (cvx : CvxSolver) (sampler : Sampler tri.E) (st : TrendHistory tri.E) : ∃ mu st', 0 < mu ∧
    tri.interpolationL1 cvx sampler st circ "divergence" [1 / 2] 1 (0 : ℕ) mu = (.ok (), st') ∧
      ∀ x, Stored st' 0 0 x → x = circ ∧ ∃ k0, (unsampledGraph tri [k0]).IsAcyclic := by
  obtain ⟨w, hw, h⟩ := C174_recovery_partial tri "divergence" (.inl rfl) 0 (show 3 ≤ 2 ^ 53 by norm_num)
  obtain ⟨st', m, S, h1, -⟩ := C69_interpolation cvx tri sampler st circ "divergence" (.inl rfl) [1 / 2]
    (by simp; norm_num) 1 0 (w + 1) (by linarith) (show 3 ≤ 2 ^ 53 by norm_num)
  refine ⟨w + 1, st', by linarith, h1, fun x hx => ?_⟩
  obtain ⟨obs, -, -, ho, -, -, hxo, -, hdet⟩ := h cvx sampler st st' circ [1 / 2] 1 (w + 1) circ_lacks (by simp; norm_num)
    (by linarith) h1 0 0 (1 / 2) x rfl one_pos hx
  have h1' : 1 ≤ obs.length := by
    have e : (1 : Int) ≤ ⌊(tri.E : ℝ) * (1 / 2)⌋ := by
      rw [Int.le_floor, show (tri.E : ℝ) = 3 by norm_cast]
      norm_num
    exact_mod_cast e.trans ho
  obtain ⟨k0, hk0⟩ := List.exists_mem_of_length_pos (show 0 < obs.length by omega)
  refine ⟨hdet fun z z' hz hz' hzz => tri_determined k0 z z' hz hz' fun k hk => ?_, k0,
    (C174_forest tri_simple [k0]).1 (tri_determined k0)⟩
  rw [List.mem_singleton.1 hk]
  exact hzz k0 hk0

end Pytspl
