import Verif.Props.FrequencyBounds

/-!
# C170: gradient flows sum to zero around closed walks, flows without gradient component balance across cuts
-/

namespace Pytspl

open Matrix

variable {lib : NumLib} {sc : SC ℝ}

/-! ## Specification -/

/-- flow from `u` to `v`: the value of the edge between them, with a minus sign if it is stored as `(v, u)` -/
def flowAlong (sc : SC ℝ) (f : Fin sc.E → ℝ) (u v : Int) : ℝ :=
  ∑ j : Fin sc.edges.length, if sc.edges[j] = (u, v) then f j else if sc.edges[j] = (v, u) then - f j else 0

/-- consecutive nodes of the list are joined by an edge -/
def IsWalk (edges : List Edge) : List Int → Prop
  | u :: v :: vs => Joined edges u v ∧ IsWalk edges (v :: vs)
  | _ => True

/-- total flow along a list of nodes -/
def walkSum (sc : SC ℝ) (f : Fin sc.E → ℝ) : List Int → ℝ
  | u :: v :: vs => flowAlong sc f u v + walkSum sc f (v :: vs)
  | _ => 0

/-- flow out of a set of nodes minus the flow into it -/
def netOutflow (sc : SC ℝ) (f : Fin sc.E → ℝ) (S : Finset Int) : ℝ :=
  (∑ j : Fin sc.edges.length, if sc.edges[j].1 ∈ S ∧ sc.edges[j].2 ∉ S then f j else 0) -
    ∑ j : Fin sc.edges.length, if sc.edges[j].1 ∉ S ∧ sc.edges[j].2 ∈ S then f j else 0

/-! ## Flows along edges -/

private theorem pair_ne (h : NoRepeats sc.edges) {i j : Fin sc.edges.length} (hij : i ≠ j) :
    sc.edges[i] ≠ sc.edges[j] ∧ sc.edges[i] ≠ sc.edges[j].swap := by
  have hpw := List.pairwise_iff_getElem.mp h
  rcases lt_or_gt_of_ne (fun hh => hij (Fin.ext hh) : (i : ℕ) ≠ j) with hlt | hlt
  · exact hpw _ _ _ _ hlt
  · obtain ⟨h1, h2⟩ := hpw _ _ j.isLt i.isLt hlt
    refine ⟨fun hh => h1 hh.symm, fun hh => h2 ?_⟩
    have : sc.edges[(i : ℕ)] = sc.edges[(j : ℕ)].swap := hh
    rw [this, Prod.swap_swap]

theorem flowAlong_edge (hs : sc.OnSimpleGraph) (f : Fin sc.E → ℝ) (j : Fin sc.edges.length) :
    flowAlong sc f sc.edges[j].1 sc.edges[j].2 = f j := by
  unfold flowAlong
  rw [Finset.sum_eq_single j]
  · rw [if_pos rfl]
  · intro i _ hi
    obtain ⟨h1, h2⟩ := pair_ne hs.noRepeats hi
    rw [if_neg h1]
    exact if_neg h2
  · exact fun h => absurd (Finset.mem_univ _) h

theorem flowAlong_swap (hs : sc.OnSimpleGraph) (f : Fin sc.E → ℝ) (u v : Int) :
    flowAlong sc f v u = - flowAlong sc f u v := by
  unfold flowAlong
  rw [← Finset.sum_neg_distrib]
  refine Finset.sum_congr rfl fun j _ => ?_
  by_cases h1 : sc.edges[j] = (u, v)
  · have h2 : sc.edges[j] ≠ (v, u) := by
      intro h2
      rw [h1] at h2
      refine hs.noLoops sc.edges[j] (List.getElem_mem _) ?_
      rw [h1]
      exact (Prod.mk.inj h2).1
    rw [if_neg h2, if_pos h1, if_pos h1]
  · by_cases h2 : sc.edges[j] = (v, u)
    · rw [if_pos h2, if_neg h1, if_pos h2, neg_neg]
    · rw [if_neg h2, if_neg h1, if_neg h1, if_neg h2, neg_zero]

/-! ## Potentials -/

/-- there is a walk from the first to the second node with that total flow -/
private inductive Reach (sc : SC ℝ) (f : Fin sc.E → ℝ) : Int → Int → ℝ → Prop
  | refl (u) : Reach sc f u u 0
  | step {u v w s} : Joined sc.edges u v → Reach sc f v w s → Reach sc f u w (flowAlong sc f u v + s)

private theorem Reach.trans {f : Fin sc.E → ℝ} {u v w : Int} {s t : ℝ} (h : Reach sc f u v s) (h' : Reach sc f v w t) :
    Reach sc f u w (s + t) := by
  induction h with
  | refl => rwa [zero_add]
  | step hj _ ih => rw [add_assoc]; exact .step hj (ih h')

private theorem Reach.edge {f : Fin sc.E → ℝ} {u v : Int} (h : Joined sc.edges u v) :
    Reach sc f u v (flowAlong sc f u v) := by
  have := Reach.step h (Reach.refl (sc := sc) (f := f) v)
  rwa [add_zero] at this

private theorem Reach.symm (hs : sc.OnSimpleGraph) {f : Fin sc.E → ℝ} {u v : Int} {s : ℝ} (h : Reach sc f u v s) :
    Reach sc f v u (-s) := by
  induction h with
  | refl => rw [neg_zero]; exact .refl _
  | @step u v w s hj _ ih =>
    have h1 := ih.trans (Reach.edge (f := f) hj.symm)
    rw [flowAlong_swap hs] at h1
    rwa [neg_add, add_comm]

private theorem Reach.walk {f : Fin sc.E → ℝ} {u v : Int} {s : ℝ} (h : Reach sc f u v s) :
    ∃ vs, IsWalk sc.edges (u :: vs) ∧ (u :: vs).getLast? = some v ∧ walkSum sc f (u :: vs) = s := by
  induction h with
  | refl u => exact ⟨[], trivial, rfl, rfl⟩
  | @step u v w s hj _ ih =>
    obtain ⟨vs, h1, h2, h3⟩ := ih
    exact ⟨v :: vs, ⟨hj, h1⟩, by rw [List.getLast?_cons_cons]; exact h2, by rw [walkSum, h3]⟩

/-- a flow that sums to zero around closed walks is the difference of a potential -/
private theorem exists_potential (hs : sc.OnSimpleGraph) (f : Fin sc.E → ℝ)
    (h : ∀ vs : List Int, IsWalk sc.edges vs → vs.head? = vs.getLast? → walkSum sc f vs = 0) :
    ∃ pot : Int → ℝ, ∀ j : Fin sc.edges.length, pot sc.edges[j].2 - pot sc.edges[j].1 = f j := by
  classical
  have closed : ∀ {u s}, Reach sc f u u s → s = 0 := by
    intro u s hr
    obtain ⟨vs, h1, h2, h3⟩ := hr.walk
    rw [← h3]
    exact h _ h1 (by rw [h2]; rfl)
  let R : Setoid Int := ⟨fun u v => ∃ s, Reach sc f u v s, fun u => ⟨0, .refl u⟩, fun ⟨s, hr⟩ => ⟨-s, hr.symm hs⟩,
    fun ⟨s, hr⟩ ⟨t, hr'⟩ => ⟨s + t, hr.trans hr'⟩⟩
  let root : Int → Int := fun u => (Quotient.mk R u).out
  have hroot : ∀ u, ∃ s, Reach sc f (root u) u s := fun u => Quotient.exact (s := R) (Quotient.out_eq _)
  choose pot hpot using hroot
  refine ⟨pot, fun j => ?_⟩
  set u := sc.edges[j].1 with hu
  set v := sc.edges[j].2 with hv
  have hj : Joined sc.edges u v := .inl (List.getElem_mem _)
  have he := Reach.edge (f := f) hj
  rw [flowAlong_edge hs f j] at he
  have hr : root u = root v := by
    show (Quotient.mk R u).out = (Quotient.mk R v).out
    rw [Quotient.sound (s := R) (a := u) (b := v) ⟨_, he⟩]
  have h1 := (hpot u).trans (he.trans ((hpot v).symm hs))
  rw [← hr] at h1
  have := closed h1
  linarith

private theorem valueAt_range {n : ℕ} (pot : Int → ℝ) {u : Int} (h : 0 ≤ u ∧ u < n) :
    valueAt (fun i : Fin n => pot ((i : ℕ) : Int)) u = pot u := by
  unfold valueAt
  rw [dif_pos h]
  exact congrArg pot (Int.toNat_of_nonneg h.1)

private theorem gradient_iff (f : Fin sc.E → ℝ) :
    sc.getComponentFlow lib f "gradient" false = .ok f ↔ ∃ x : Fin sc.N → ℝ, sc.B1.transpose.mulVec x = f := by
  obtain ⟨g, c, hh, hp⟩ := HodgeParts.exists lib sc f
  have hg := hp.grad
  constructor
  · intro hf
    rw [hf] at hg
    cases hg
    exact hp.proj.1.1
  · rintro ⟨x, hx⟩
    have := hp.proj.1.unique (IsProj.self ⟨x, hx⟩)
    rw [hg, this]

/-- C170: a flow is its own gradient component exactly when it sums to zero along every closed walk. -/
theorem C170_closed_walks (lib : NumLib) (hs : sc.OnSimpleGraph) (f : Fin sc.E → ℝ) :
    sc.getComponentFlow lib f "gradient" false = .ok f ↔
      ∀ vs : List Int, IsWalk sc.edges vs → vs.head? = vs.getLast? → walkSum sc f vs = 0 := by
  rw [gradient_iff]
  constructor
  · rintro ⟨x, hx⟩ vs hw hc
    have hedge : ∀ u v, Joined sc.edges u v → flowAlong sc f u v = valueAt x v - valueAt x u := by
      have key : ∀ u v, (u, v) ∈ sc.edges → flowAlong sc f u v = valueAt x v - valueAt x u := by
        intro u v hm
        obtain ⟨k, hk, he⟩ := List.getElem_of_mem hm
        have h1 := flowAlong_edge hs f ⟨k, hk⟩
        have h2 := b1_transpose_apply hs.built hs.inRange hs.noLoops x ⟨k, hk⟩
        simp only [Fin.getElem_fin, he] at h1 h2
        rw [h1, ← h2, hx]
      rintro u v (h | h)
      · exact key u v h
      · rw [flowAlong_swap hs, key v u h, neg_sub]
    have tele : ∀ (vs : List Int) (u w : Int), IsWalk sc.edges (u :: vs) → (u :: vs).getLast? = some w →
        walkSum sc f (u :: vs) = valueAt x w - valueAt x u := by
      intro vs
      induction vs with
      | nil =>
        intro u w _ h
        have : u = w := Option.some.inj h
        rw [this, sub_self]
        rfl
      | cons v vs ih =>
        intro u w h1 h2
        rw [List.getLast?_cons_cons] at h2
        rw [walkSum, hedge u v h1.1, ih v w h1.2 h2]
        ring
    cases vs with
    | nil => rfl
    | cons u vs => rw [tele vs u u hw hc.symm, sub_self]
  · intro h
    obtain ⟨pot, hpot⟩ := exists_potential hs f h
    refine ⟨fun i => pot ((i : ℕ) : Int), funext fun j => ?_⟩
    obtain ⟨h1, h2⟩ := hs.inRange sc.edges[j] (List.getElem_mem _)
    rw [b1_transpose_apply hs.built hs.inRange hs.noLoops, valueAt_range pot h1, valueAt_range pot h2]
    exact hpot j

/-- C170: a flow has no gradient component exactly when as much flows out of every set of nodes as into it. -/
theorem C170_cuts (lib : NumLib) (hs : sc.OnSimpleGraph) (f : Fin sc.E → ℝ) :
    sc.getComponentFlow lib f "gradient" false = .ok 0 ↔ ∀ S : Finset Int, netOutflow sc f S = 0 := by
  obtain ⟨g, c, hh, hp⟩ := HodgeParts.exists lib sc f
  have hz : sc.getComponentFlow lib f "gradient" false = .ok 0 ↔ sc.getDivergence f = 0 := by
    rw [hp.grad]
    constructor
    · intro h
      have h0 : g = 0 := Except.ok.inj h
      have := hp.proj.1.2
      rw [h0, mulVec_zero, transpose_transpose] at this
      exact this.symm
    · intro h
      refine congrArg Except.ok (hp.proj.1.unique (IsProj.zero ?_))
      rw [transpose_transpose]
      exact h
  rw [hz]
  have hdiv := (C15_divergence sc hs.built hs.inRange hs.noLoops f).1
  constructor
  · intro h S
    have h1 : netOutflow sc f S = - ∑ i : Fin sc.nodes.length, if ((i : ℕ) : Int) ∈ S then sc.getDivergence f i else 0 := by
      have h2 : ∀ i : Fin sc.nodes.length, (if ((i : ℕ) : Int) ∈ S then sc.getDivergence f i else 0) =
          ∑ j : Fin sc.edges.length, ((if sc.edges[j].2 = ((i : ℕ) : Int) then (if ((i : ℕ) : Int) ∈ S then f j else 0) else 0) -
            (if sc.edges[j].1 = ((i : ℕ) : Int) then (if ((i : ℕ) : Int) ∈ S then f j else 0) else 0)) := by
        intro i
        by_cases hi : ((i : ℕ) : Int) ∈ S
        · simp only [if_pos hi]
          rw [Finset.sum_sub_distrib]; exact hdiv i
        · simp only [if_neg hi, ite_self, sub_self, Finset.sum_const_zero]
      rw [Finset.sum_congr rfl fun i _ => h2 i, Finset.sum_comm]
      have h3 : ∀ (u : Int) (a : ℝ), (0 ≤ u ∧ u < sc.nodes.length) →
          (∑ i : Fin sc.nodes.length, if u = ((i : ℕ) : Int) then (if ((i : ℕ) : Int) ∈ S then a else 0) else 0) =
            if u ∈ S then a else 0 := by
        intro u a hu
        rw [Finset.sum_eq_single (⟨u.toNat, by omega⟩ : Fin sc.nodes.length)]
        · have : ((u.toNat : ℕ) : Int) = u := Int.toNat_of_nonneg hu.1
          simp only [this, if_true]
        · intro i _ hi
          refine if_neg fun hui => hi (Fin.ext ?_)
          simp only
          omega
        · exact fun h => absurd (Finset.mem_univ _) h
      unfold netOutflow
      rw [← Finset.sum_sub_distrib, ← Finset.sum_neg_distrib]
      refine Finset.sum_congr rfl fun j _ => ?_
      obtain ⟨r1, r2⟩ := hs.inRange sc.edges[j] (List.getElem_mem _)
      rw [Finset.sum_sub_distrib, h3 _ _ r1, h3 _ _ r2]
      by_cases a : sc.edges[j].1 ∈ S <;> by_cases b : sc.edges[j].2 ∈ S <;>
        simp only [a, b, not_true, not_false_eq_true, and_true, and_false, if_true, if_false] <;> ring
    rw [h1, h]
    simp
  · intro h
    funext i
    have h1 := h {((i : ℕ) : Int)}
    have h2 : ∀ j : Fin sc.edges.length, ¬ (sc.edges[j].1 = ((i : ℕ) : Int) ∧ sc.edges[j].2 = ((i : ℕ) : Int)) :=
      fun j hj => hs.noLoops sc.edges[j] (List.getElem_mem _) (hj.1.trans hj.2.symm)
    rw [show sc.getDivergence f i = _ from hdiv i]
    unfold netOutflow at h1
    simp only [Finset.mem_singleton] at h1
    have e1 : ∀ j : Fin sc.edges.length, (sc.edges[j].1 = ((i : ℕ) : Int) ∧ ¬ sc.edges[j].2 = ((i : ℕ) : Int)) ↔
        sc.edges[j].1 = ((i : ℕ) : Int) := fun j => ⟨fun h => h.1, fun h => ⟨h, fun h' => h2 j ⟨h, h'⟩⟩⟩
    have e2 : ∀ j : Fin sc.edges.length, (¬ sc.edges[j].1 = ((i : ℕ) : Int) ∧ sc.edges[j].2 = ((i : ℕ) : Int)) ↔
        sc.edges[j].2 = ((i : ℕ) : Int) := fun j => ⟨fun h => h.2, fun h => ⟨fun h' => h2 j ⟨h', h⟩, h⟩⟩
    simp only [e1, e2] at h1
    show _ = (0 : ℝ)
    linarith

/-- C170: if every three nodes are the vertices of a triangle of the complex, no flow has a harmonic component, and a flow is
its own gradient component exactly when it has no curl on any triangle. -/
theorem C170_complete (lib : NumLib) (hw : sc.WellFormed) (hn : NoRepeats sc.edges) (htr : sc.triangles.Nodup)
    (hall : ∀ u v w : Fin sc.nodes.length, u ≠ v → v ≠ w → u ≠ w →
      ∃ t ∈ sc.triangles, ((u : ℕ) : Int) ∈ t ∧ ((v : ℕ) : Int) ∈ t ∧ ((w : ℕ) : Int) ∈ t) (f : Fin sc.E → ℝ) :
    sc.getComponentFlow lib f "harmonic" false = .ok 0 ∧
    (sc.getComponentFlow lib f "gradient" false = .ok f ↔ sc.getCurl f = 0) := by
  have zero : ∀ h : Fin sc.E → ℝ, sc.getDivergence h = 0 → sc.getCurl h = 0 → h = 0 := by
    intro h h1 h2
    have h3 := C165_energy_complete hw hn htr hall h
    rw [h1, h2] at h3
    simp only [Pi.zero_apply, ne_eq, OfNat.ofNat_ne_zero, not_false_eq_true, zero_pow, Finset.sum_const_zero, add_zero] at h3
    funext e
    have hN : (0 : ℝ) < sc.nodes.length := by
      have := (hw.inRange sc.edges[e] (List.getElem_mem _)).1
      have h4 : 0 < sc.nodes.length := by omega
      exact_mod_cast h4
    have h5 : ∑ e, h e ^ 2 = 0 := (mul_eq_zero.1 h3.symm).resolve_left hN.ne'
    have h6 := (Finset.sum_eq_zero_iff_of_nonneg fun e _ => sq_nonneg (h e)).1 h5 e (Finset.mem_univ _)
    exact pow_eq_zero_iff two_ne_zero |>.1 h6
  obtain ⟨g, c, hh, hp⟩ := HodgeParts.exists lib sc f
  obtain ⟨⟨b1, b2⟩, ⟨b3, b4⟩, b5, b6, -⟩ := C20_component_behaviour hw f g c hh hp
  have h0 := zero hh b5 b6
  refine ⟨by rw [hp.harm, h0], fun h => ?_, fun h => ?_⟩
  · have : g = f := Except.ok.inj (hp.grad.symm.trans h)
    rw [← this, b1]
  · have h1 : c = 0 := zero c b3 (by rw [b4, h])
    have h2 := hp.proj.2.2
    rw [h0, h1, sub_zero] at h2
    rw [hp.grad, sub_eq_zero.1 h2.symm]

private theorem tri_norepeats : NoRepeats tri.edges := by
  show NoRepeats [(0, 1), (0, 2), (1, 2)]
  decide

/-- in the filled triangle the flow `(1, 3, 2)` has no curl; so it is its own gradient component and sums to zero around the
triangle and all other closed walks -/
example (lib : NumLib) : ∃ f : Fin tri.E → ℝ, f ≠ 0 ∧ tri.getComponentFlow lib f "gradient" false = .ok f ∧
    walkSum tri f [0, 1, 2, 0] = 0 := by
  have hc : tri.getCurl (fun k => ((![1, 3, 2] : Fin 3 → ℤ) k : ℝ)) = 0 := by
    have h1 := mulVec_int triB2.transpose ![1, 3, 2] 0 (by decide)
    refine Eq.trans ?_ (h1.trans ?_)
    · rfl
    · funext k; exact Int.cast_zero
  have hg := (C170_complete lib tri_wellFormed tri_norepeats (List.nodup_singleton _) (by
    show ∀ u v w : Fin 3, u ≠ v → v ≠ w → u ≠ w → ∃ t ∈ ([[0, 1, 2]] : List (List Int)), ((u : ℕ) : Int) ∈ t ∧
      ((v : ℕ) : Int) ∈ t ∧ ((w : ℕ) : Int) ∈ t
    decide) _).2.2 hc
  refine ⟨_, fun h => ?_, hg, (C170_closed_walks lib ⟨tri_wellFormed.built, tri_wellFormed.inRange, tri_wellFormed.noLoops,
    tri_norepeats⟩ _).1 hg _ ?_ rfl⟩
  · have h1 := congrFun h (⟨0, by decide⟩ : Fin 3)
    change (((![1, 3, 2] : Fin 3 → ℤ) 0 : ℤ) : ℝ) = (0 : ℝ) at h1
    norm_num at h1
  · show IsWalk [(0, 1), (0, 2), (1, 2)] [0, 1, 2, 0]
    refine ⟨?_, ?_, ?_, trivial⟩ <;> decide

end Pytspl
