import Verif.Props.Chebyshev
import Verif.Props.Incidence
import Verif.Props.Eigen

/-!
# C118: designed filters are local

A filter of size `L` moves information over at most `L - 1` steps between neighbouring edges, and is a fixed
linear map: it does not depend on the flow it is applied to.
-/

namespace Pytspl

open Matrix Polynomial

variable {lib : NumLib} {series : ChebSeries} {sc : SC ℝ} {E : ℕ}

/-! ## Specification -/

/-- `e` and `e'` have a node in common. -/
def SC.ShareNode (sc : SC ℝ) (e e' : Fin sc.edges.length) : Prop :=
  ∃ v, (v = sc.edges[e].1 ∨ v = sc.edges[e].2) ∧ (v = sc.edges[e'].1 ∨ v = sc.edges[e'].2)

/-- Some triangle of the complex has `e` and `e'` among its sides. -/
def SC.ShareTriangle (sc : SC ℝ) (e e' : Fin sc.edges.length) : Prop :=
  ∃ t ∈ sc.triangles, sc.edges[e].1 ∈ t ∧ sc.edges[e].2 ∈ t ∧ sc.edges[e'].1 ∈ t ∧ sc.edges[e'].2 ∈ t

/-- The edges that count as neighbours for a choice of matrix. -/
def SC.Nbr (sc : SC ℝ) (pChoice : String) (e e' : Fin sc.edges.length) : Prop :=
  if pChoice = "L1U" then sc.ShareTriangle e e' else sc.ShareNode e e'

/-- `b` is reached from `a` in at most `k` steps. -/
inductive Within {α : Type} (nbr : α → α → Prop) : ℕ → α → α → Prop
  | here (k : ℕ) (a : α) : Within nbr k a a
  | step {k : ℕ} {a b c : α} : nbr a b → Within nbr k b c → Within nbr (k + 1) a c

/-- The entry of the filtered flow at `e` involves only the edges within `k` steps of `e`. -/
def LocalTo {α : Type} (nbr : α → α → Prop) (k : ℕ) (H : Matrix α α ℝ) : Prop :=
  ∀ e e', H e e' ≠ 0 → Within nbr k e e'

/-- Whatever flow the call is made with and whatever was called before, it returns, and records the filter `H` and
the flow filtered by it. -/
def AlwaysApplies (run : FilterSt E → (Fin E → ℝ) → Py Unit × FilterSt E) (H : Matrix (Fin E) (Fin E) ℝ) : Prop :=
  ∀ (st : FilterSt E) (f : Fin E → ℝ), st.Valid → ∃ st', run st f = (.ok (), st') ∧
    st'.history.get? "filter" = some (.mat H) ∧ st'.history.get? "f_estimated" = some (.vec (H.mulVec f))

/-! ## Auxiliary facts -/

section local_
variable {α : Type} {nbr : α → α → Prop} {k l : ℕ} {M N : Matrix α α ℝ}

theorem Within.mono {a b : α} (h : Within nbr k a b) (hkl : k ≤ l) : Within nbr l a b := by
  induction h generalizing l with
  | here k a => exact .here l a
  | step h _ ih =>
    obtain ⟨m, rfl⟩ : ∃ m, l = m + 1 := ⟨l - 1, by omega⟩
    exact .step h (ih (by omega))

theorem Within.trans {a b c : α} (h : Within nbr k a b) (h' : Within nbr l b c) : Within nbr (k + l) a c := by
  induction h with
  | here k a => exact h'.mono (by omega)
  | step h _ ih => rw [show ∀ k : ℕ, k + 1 + l = k + l + 1 by intro k; omega]; exact .step h (ih h')

theorem LocalTo.mono (h : LocalTo nbr k M) (hkl : k ≤ l) : LocalTo nbr l M := fun e e' he => (h e e' he).mono hkl

theorem LocalTo.zero : LocalTo nbr k (0 : Matrix α α ℝ) := fun _ _ he => absurd rfl he

theorem LocalTo.one [DecidableEq α] : LocalTo nbr k (1 : Matrix α α ℝ) := by
  intro e e' he
  by_cases h : e = e'
  · exact h ▸ .here k e
  · rw [one_apply_ne h] at he; exact absurd rfl he

theorem LocalTo.smul (c : ℝ) (h : LocalTo nbr k M) : LocalTo nbr k (c • M) := by
  intro e e' he
  apply h
  rintro h0
  rw [Matrix.smul_apply, h0, smul_zero] at he
  exact he rfl

theorem LocalTo.add (h : LocalTo nbr k M) (h' : LocalTo nbr k N) : LocalTo nbr k (M + N) := by
  intro e e' he
  by_cases h0 : M e e' = 0
  · apply h'
    rintro h1
    rw [Matrix.add_apply, h0, h1, add_zero] at he
    exact he rfl
  · exact h e e' h0

theorem LocalTo.sub (h : LocalTo nbr k M) (h' : LocalTo nbr k N) : LocalTo nbr k (M - N) := by
  have := h.add (h'.smul (-1))
  rwa [neg_one_smul, ← sub_eq_add_neg] at this

theorem LocalTo.mul [Fintype α] (h : LocalTo nbr k M) (h' : LocalTo nbr l N) : LocalTo nbr (k + l) (M * N) := by
  intro e e' he
  rw [Matrix.mul_apply] at he
  obtain ⟨d, -, hd⟩ := Finset.exists_ne_zero_of_sum_ne_zero he
  exact (h e d (left_ne_zero_of_mul hd)).trans (h' d e' (right_ne_zero_of_mul hd))

theorem LocalTo.sum {ι : List (Matrix α α ℝ)} (h : ∀ X ∈ ι, LocalTo nbr k X) : LocalTo nbr k ι.sum := by
  induction ι with
  | nil => exact .zero
  | cons X l ih =>
    rw [List.sum_cons]
    exact (h X List.mem_cons_self).add (ih fun Y hY => h Y (List.mem_cons_of_mem _ hY))

theorem LocalTo.pow [Fintype α] [DecidableEq α] (h : LocalTo nbr 1 M) (n : ℕ) : LocalTo nbr n (M ^ n) := by
  induction n with
  | zero => exact .one
  | succ n ih => rw [pow_succ]; exact ih.mul h

theorem LocalTo.aeval [Fintype α] [DecidableEq α] (h : LocalTo nbr 1 M) (p : ℝ[X]) :
    LocalTo nbr p.natDegree (aeval M p) := by
  intro e e' he
  rw [aeval_eq_sum_range, Matrix.sum_apply] at he
  obtain ⟨d, hd, hd'⟩ := Finset.exists_ne_zero_of_sum_ne_zero he
  exact (((h.pow d).smul _) e e' hd').mono (by rw [Finset.mem_range] at hd; omega)

theorem LocalTo.step (h : ∀ e e', M e e' ≠ 0 → nbr e e') : LocalTo nbr 1 M :=
  fun e e' he => .step (h e e' he) (.here 0 e')

end local_

theorem b1_end {sc : SC ℝ} (hb : sc.Built) (hr : EdgesInRange sc.nodes.length sc.edges) {i : Fin sc.N} {j : Fin sc.E}
    (h : sc.B1 i j ≠ 0) : ((i : ℕ) : Int) = sc.edges[j].1 ∨ ((i : ℕ) : Int) = sc.edges[j].2 := by
  obtain ⟨u, v, hu, hv, he⟩ := edgesToB1_ok_entry hb.b1 j
  rw [he] at h
  obtain ⟨⟨h1, -⟩, h2, -⟩ := hr _ (List.getElem_mem j.2)
  split_ifs at h with g1 g2
  · right; rw [g1]; exact (npIdx_inRange hv h2).symm
  · left; rw [g2]; exact (npIdx_inRange hu h1).symm
  · exact absurd rfl h

theorem b2_side {sc : SC ℝ} (hb : sc.Built) {j : Fin sc.E} {t : Fin sc.T} (h : sc.B2 j t ≠ 0) :
    sc.edges[j].1 ∈ sc.triangles[t] ∧ sc.edges[j].2 ∈ sc.triangles[t] := by
  obtain ⟨a, b, c, ia, ib, ic, ht, h1, h2, h3, he⟩ := hb.tri_entry t
  rw [he] at h
  rw [ht]
  split_ifs at h with g1 g2 g3
  · subst g1; rcases listIndexOr_get h2 with g | ⟨-, g⟩ <;> rw [g] <;> simp
  · subst g2; rcases listIndexOr_get h3 with g | ⟨-, g⟩ <;> rw [g] <;> simp
  · subst g3; rcases listIndexOr_get h1 with g | ⟨-, g⟩ <;> rw [g] <;> simp
  · exact absurd rfl h

theorem L1l_local {sc : SC ℝ} (hb : sc.Built) (hr : EdgesInRange sc.nodes.length sc.edges) :
    LocalTo sc.ShareNode 1 sc.L1l := by
  apply LocalTo.step
  intro e e' he
  unfold SC.L1l at he
  rw [Matrix.mul_apply] at he
  obtain ⟨i, -, hi⟩ := Finset.exists_ne_zero_of_sum_ne_zero he
  exact ⟨_, b1_end hb hr (left_ne_zero_of_mul hi), b1_end hb hr (right_ne_zero_of_mul hi)⟩

theorem L1u_local {sc : SC ℝ} (hb : sc.Built) : LocalTo sc.ShareTriangle 1 sc.L1u := by
  apply LocalTo.step
  intro e e' he
  unfold SC.L1u at he
  rw [Matrix.mul_apply] at he
  obtain ⟨t, -, ht⟩ := Finset.exists_ne_zero_of_sum_ne_zero he
  obtain ⟨h1, h2⟩ := b2_side hb (left_ne_zero_of_mul ht)
  obtain ⟨h3, h4⟩ := b2_side hb (j := e') (right_ne_zero_of_mul ht)
  exact ⟨_, List.getElem_mem t.2, h1, h2, h3, h4⟩

/-- Two sides of a triangle have a corner in common. -/
theorem L1u_shareNode {sc : SC ℝ} (hb : sc.Built) : LocalTo sc.ShareNode 1 sc.L1u := by
  apply LocalTo.step
  intro e e' he
  unfold SC.L1u at he
  rw [Matrix.mul_apply] at he
  obtain ⟨t, -, ht⟩ := Finset.exists_ne_zero_of_sum_ne_zero he
  have key : ∀ (a b c : Int) (p : Edge) , p = (a, b) ∨ p = (b, a) ∨ p = (b, c) ∨ p = (c, b) ∨ p = (a, c) ∨ p = (c, a) →
      ∀ q : Edge, q = (a, b) ∨ q = (b, a) ∨ q = (b, c) ∨ q = (c, b) ∨ q = (a, c) ∨ q = (c, a) →
      ∃ v, (v = p.1 ∨ v = p.2) ∧ (v = q.1 ∨ v = q.2) := by
    intro a b c p hp q hq
    rcases hp with rfl | rfl | rfl | rfl | rfl | rfl <;> rcases hq with rfl | rfl | rfl | rfl | rfl | rfl <;>
      first
      | (refine ⟨a, ?_, ?_⟩ <;> simp <;> done)
      | (refine ⟨b, ?_, ?_⟩ <;> simp <;> done)
      | (refine ⟨c, ?_, ?_⟩ <;> simp)
  obtain ⟨a, b, c, ia, ib, ic, -, h1, h2, h3, hB⟩ := hb.tri_entry t
  have side : ∀ j : Fin sc.E, sc.B2 j t ≠ 0 → sc.edges[j] = (a, b) ∨ sc.edges[j] = (b, a) ∨ sc.edges[j] = (b, c) ∨
      sc.edges[j] = (c, b) ∨ sc.edges[j] = (a, c) ∨ sc.edges[j] = (c, a) := by
    intro j h
    rw [hB] at h
    split_ifs at h with g1 g2 g3
    · subst g1; rcases listIndexOr_get h2 with g | ⟨-, g⟩ <;> rw [g] <;> simp
    · subst g2; rcases listIndexOr_get h3 with g | ⟨-, g⟩ <;> rw [g] <;> simp
    · subst g3; rcases listIndexOr_get h1 with g | ⟨-, g⟩ <;> rw [g] <;> simp
    · exact absurd rfl h
  exact key a b c _ (side e (left_ne_zero_of_mul ht)) _ (side e' (right_ne_zero_of_mul ht))

theorem getPMatrix_local {sc : SC ℝ} (hb : sc.Built) (hr : EdgesInRange sc.nodes.length sc.edges) {pChoice : String}
    {P : Matrix (Fin sc.E) (Fin sc.E) ℝ} (hP : sc.getPMatrix pChoice = .ok P) : LocalTo (sc.Nbr pChoice) 1 P := by
  unfold SC.getPMatrix at hP
  have hn : ∀ {p : String}, p ≠ "L1U" → sc.Nbr p = sc.ShareNode := by
    intro p hp; funext e e'; unfold SC.Nbr; rw [if_neg hp]
  split_ifs at hP with h1 h2 h3
  · rw [hn (by rw [h1]; decide), ← Except.ok.inj hP]
    exact (L1l_local hb hr).add (L1u_shareNode hb)
  · rw [hn (by rw [h2]; decide), ← Except.ok.inj hP]
    exact L1l_local hb hr
  · have : sc.Nbr pChoice = sc.ShareTriangle := by funext e e'; unfold SC.Nbr; rw [if_pos h3]
    rw [this, ← Except.ok.inj hP]
    exact L1u_local hb

/-- The components of all flows exist if those of one do. -/
theorem trueSignal_total {f f' t : Fin sc.E → ℝ} {component : String} (h : sc.getTrueSignal lib f component = .ok t) :
    ∃ t', sc.getTrueSignal lib f' component = .ok t' := by
  unfold SC.getTrueSignal SC.getComponentFlow at h ⊢
  split_ifs at h ⊢ <;> exact ⟨_, rfl⟩


/-! ## C118 -/

/-- From one successful design to all flows. -/
private theorem fixed_of_design {nbr : Fin E → Fin E → Prop} {P : Matrix (Fin E) (Fin E) ℝ} (hP : LocalTo nbr 1 P)
    {ev al : List ℝ} {L : Int} {U : Matrix (Fin E) (Fin E) ℝ} {f fTrue : Fin E → ℝ} {a : Applied E}
    (ha : applyFilter lib f fTrue P U ev al L = .ok a) (start : FilterSt E → FilterSt E)
    (hstart : ∀ st, st.Valid → (start st).Valid)
    {β : Type} (design : β → (Fin E → ℝ) → Py (Applied E))
    (h : ∀ b f', ∃ t', design b f' = applyFilter lib f' t' P U ev al L) :
    ∃ H, LocalTo nbr (L.toNat - 1) H ∧ ∀ b, AlwaysApplies (fun st f => recordDesign (start st) (design b f)) H := by
  obtain ⟨hL, hlen⟩ := applyFilter_pos lib ha
  refine ⟨aeval P (polyAt lib (fun i : Fin ev.length => ev[i]) (fun i => al[(i : ℕ)]?.getD 0) L.toNat (L.toNat - 1)),
    (hP.aeval _).mono (polyAt_natDegree lib _ _ _ _), fun b st f' hst => ?_⟩
  obtain ⟨t', ht'⟩ := h b f'
  rw [applyFilter_eq lib f' t' P U ev al L hL hlen] at ht'
  simp only [ht', recordDesign]
  refine ⟨_, rfl, ?_, ?_⟩
  · rw [FilterSt.history, setHistory_cur, (setHistory_get _ (hstart st hst) _).1]; rfl
  · rw [FilterSt.history, setHistory_cur, (setHistory_get _ (hstart st hst) _).2.1]; rfl

private theorem fixed_of_design' {nbr : Fin E → Fin E → Prop} {P : Matrix (Fin E) (Fin E) ℝ} (hP : LocalTo nbr 1 P)
    {ev al : List ℝ} {L : Int} {U : Matrix (Fin E) (Fin E) ℝ} {f fTrue : Fin E → ℝ} {a : Applied E}
    (ha : applyFilter lib f fTrue P U ev al L = .ok a) (start : FilterSt E → FilterSt E)
    (hstart : ∀ st, st.Valid → (start st).Valid) (design : (Fin E → ℝ) → Py (Applied E))
    (h : ∀ f', ∃ t', design f' = applyFilter lib f' t' P U ev al L) :
    ∃ H, LocalTo nbr (L.toNat - 1) H ∧ AlwaysApplies (fun st f => recordDesign (start st) (design f)) H := by
  obtain ⟨H, h1, h2⟩ := fixed_of_design hP ha start hstart (fun (_ : Unit) => design) fun _ => h
  exact ⟨H, h1, h2 ()⟩

/-- C118 for `LSFilterDesign.subcomponent_extraction_type_one`: if a call returns for one flow then it returns for all
flows, applying to all of them the same filter, which reaches over at most `L - 1` steps between edges with a common
node. -/
theorem C118_type_one (hb : sc.Built) (hr : EdgesInRange sc.nodes.length sc.edges) (st st' : FilterSt sc.E)
    (f : Fin sc.E → ℝ) (component : String) (L : Int) (h : LSFilter.typeOne lib sc st f component L = (.ok (), st')) :
    ∃ H, LocalTo sc.ShareNode (L.toNat - 1) H ∧
      AlwaysApplies (fun st f => LSFilter.typeOne lib sc st f component L) H := by
  obtain ⟨a, ha, -⟩ := record_ok h
  obtain ⟨w, t, al, h1, h2, h3, h4⟩ := typeOne_inv ha
  refine fixed_of_design' ((L1l_local hb hr).add (L1u_shareNode hb)) h4 resetHistory (fun st _ => resetHistory_valid st)
    (fun f => LSFilter.typeOneDesign lib sc f component L) fun f' => ?_
  obtain ⟨t', ht'⟩ := trueSignal_total (f' := f') h2
  refine ⟨t', ?_⟩
  unfold LSFilter.typeOneDesign
  rw [h1, ht', h3]
  rfl

/-- C118 for `LSFilterDesign.subcomponent_extraction_type_two`: the gradient filter reaches over at most `L - 1` steps
between edges with a common node, the curl filter over at most `L - 1` steps between sides of a common triangle. -/
theorem C118_type_two (hb : sc.Built) (hr : EdgesInRange sc.nodes.length sc.edges) (st st' : FilterSt sc.E)
    (f : Fin sc.E → ℝ) (component : String) (L : Int) (tol : ℝ)
    (h : LSFilter.typeTwo lib sc st f component L tol = (.ok (), st')) :
    ∃ H, LocalTo (if component = "curl" then sc.ShareTriangle else sc.ShareNode) (L.toNat - 1) H ∧
      AlwaysApplies (fun st f => LSFilter.typeTwo lib sc st f component L tol) H := by
  obtain ⟨a, ha, -⟩ := record_ok h
  obtain ⟨P, w, t, h0, h1, h2, h3⟩ := typeTwo_inv ha
  refine fixed_of_design' ?_ h3 resetHistory (fun st _ => resetHistory_valid st)
    (fun f => LSFilter.typeTwoDesign lib sc f component L tol) fun f' => ?_
  · rcases h0 with ⟨rfl, rfl⟩ | ⟨rfl, rfl⟩
    · rw [if_neg (by decide)]; exact L1l_local hb hr
    · rw [if_pos rfl]; exact L1u_local hb
  · obtain ⟨t', ht'⟩ := trueSignal_total (f' := f') h2
    refine ⟨t', ?_⟩
    unfold LSFilter.typeTwoDesign
    rcases h0 with ⟨rfl, rfl⟩ | ⟨rfl, rfl⟩
    · rw [if_pos rfl]
      simp only [bind, Except.bind, h1, ht']
    · rw [if_neg (by decide), if_pos rfl]
      simp only [bind, Except.bind, h1, ht']

/-- C118 for `GridBasedFilterDesign.subcomponent_extraction`. -/
theorem C118_grid_extraction (hb : sc.Built) (hr : EdgesInRange sc.nodes.length sc.edges) (st st' : FilterSt sc.E)
    (f : Fin sc.E → ℝ) (component pChoice : String) (L num : Int) (mu cutOff steep : ℝ)
    (h : GridFilter.subcomponentExtraction lib sc st f component pChoice L num mu cutOff steep = (.ok (), st')) :
    ∃ H, LocalTo (sc.Nbr pChoice) (L.toNat - 1) H ∧
      AlwaysApplies (fun st f => GridFilter.subcomponentExtraction lib sc st f component pChoice L num mu cutOff steep) H := by
  obtain ⟨a, ha, -⟩ := record_ok h
  obtain ⟨P, t, resp, pts, h0, h1, h2, h3⟩ := extraction_inv ha
  refine fixed_of_design' (getPMatrix_local hb hr h0) h3 id (fun st h => h)
    (fun f => GridFilter.extractionDesign lib sc f component pChoice L num mu cutOff steep) fun f' => ?_
  obtain ⟨t', ht'⟩ := trueSignal_total (f' := f') h2
  refine ⟨t', ?_⟩
  unfold GridFilter.extractionDesign at ha ⊢
  cases hU : getEigendecomposition lib (.ndarray P) with
  | error e => rw [h0] at ha; simp only [bind, Except.bind, hU] at ha; cases ha
  | ok r =>
    obtain ⟨U, w⟩ := r
    obtain ⟨-, rfl, -⟩ := eig_ok hU
    rw [h0]
    simp only [bind, Except.bind, hU, h1, ht', Option.map_some, GridFilter.applyFilterF]

/-- C118 for `GridBasedFilterDesign.denoise`: the filter depends neither on the noisy nor on the reference flow. -/
theorem C118_grid_denoise (hb : sc.Built) (hr : EdgesInRange sc.nodes.length sc.edges) (st st' : FilterSt sc.E)
    (f fTrue : Fin sc.E → ℝ) (pChoice : String) (L : Int) (mu : ℝ)
    (h : GridFilter.denoise lib sc st f fTrue pChoice L mu = (.ok (), st')) :
    ∃ H, LocalTo (sc.Nbr pChoice) (L.toNat - 1) H ∧
      ∀ fTrue', AlwaysApplies (fun st f => GridFilter.denoise lib sc st f fTrue' pChoice L mu) H := by
  obtain ⟨a, ha, -⟩ := record_ok h
  obtain ⟨P, resp, pts, g, h0, h1, h2, h3⟩ := denoise_inv ha
  refine fixed_of_design (getPMatrix_local hb hr h0) h3 id (fun st h => h)
    (fun fTrue' f => GridFilter.denoiseDesign lib sc f fTrue' pChoice L mu) fun fTrue' f' => ⟨fTrue', ?_⟩
  unfold GridFilter.denoiseDesign at ha ⊢
  cases hU : getEigendecomposition lib (.ndarray P) with
  | error e => rw [h0] at ha; simp only [bind, Except.bind, hU] at ha; cases ha
  | ok r =>
    obtain ⟨U, w⟩ := r
    obtain ⟨-, rfl, -⟩ := eig_ok hU
    have hg : resp.mapM id = some g := by
      rw [h2]
      clear h1 h2 h3 ha
      induction g with
      | nil => rfl
      | cons x l ih => rw [List.map_cons, List.mapM_cons, ih]; rfl
    rw [h0]
    simp only [bind, Except.bind, hU, h1, Option.bind_some, hg, pure, GridFilter.applyFilterF]

/-! ### Chebyshev -/

private theorem slot_local {nbr : Fin E → Fin E → Prop} {P : Matrix (Fin E) (Fin E) ℝ} (hP : LocalTo nbr 1 P) (alpha : ℝ)
    (k : ℕ) : LocalTo nbr k (Cheb.slot P alpha k) := by
  have h1 : ∀ c : ℝ, LocalTo nbr 1 (c • (P - alpha • (1 : Matrix (Fin E) (Fin E) ℝ))) :=
    fun c => (hP.sub (LocalTo.one.smul _)).smul _
  induction k using Nat.strong_induction_on with
  | _ k ih =>
    match k, ih with
    | 0, _ => exact .one
    | 1, _ => exact h1 _
    | k + 2, ih =>
      rw [Cheb.slot]
      refine LocalTo.sub ?_ ((ih k (by omega)).mono (by omega))
      exact ((h1 _).mul (ih (k + 1) (by omega))).mono (by omega)

private theorem approximate_local {nbr : Fin E → Fin E → Prop} {P : Matrix (Fin E) (Fin E) ℝ} (hP : LocalTo nbr 1 P)
    {c : List ℝ} {alpha : ℝ} {order : ℕ} {M : Matrix (Fin E) (Fin E) ℝ} (h : Cheb.approximate P c alpha order = .ok M) :
    LocalTo nbr (order - 1) M := by
  have key : ∀ (n : ℕ) (a : ℕ → ℝ) (s : ℕ → Matrix (Fin E) (Fin E) ℝ), (∀ k < n, LocalTo nbr (order - 1) (s k)) →
      LocalTo nbr (order - 1) ((List.range n).map fun k => a k • s k).sum := by
    intro n a s hs
    apply LocalTo.sum
    intro X hX
    obtain ⟨k, hk, rfl⟩ := List.mem_map.1 hX
    exact (hs k (List.mem_range.1 hk)).smul _
  have hslot : ∀ k < order, LocalTo nbr (order - 1)
      (if k < (c.take order).length then Cheb.slot P alpha k else 0) := by
    intro k hk
    split_ifs
    · exact (slot_local hP alpha k).mono (by omega)
    · exact .zero
  unfold Cheb.approximate at h
  simp only at h
  split_ifs at h with h1 h2 h3 h4
  · rw [← Except.ok.inj h]; exact key order _ _ hslot
  · rw [← Except.ok.inj h]; exact key order (fun _ => _) _ hslot
  · rw [← Except.ok.inj h]
    exact key _ _ (fun _ => _) fun k _ => (slot_local hP alpha 0).mono (by omega)
  · rw [← Except.ok.inj h]
    exact key _ _ (fun _ => _) fun k _ => .zero

/-- C118 for `ChebyshevFilterDesign.apply`: every stored filter reaches over at most `L - 1` steps, and the filters do
not depend on the flow. -/
theorem C118_chebyshev (hb : sc.Built) (hr : EdgesInRange sc.nodes.length sc.edges) (st st' : FilterSt sc.E)
    (f : Fin sc.E → ℝ) (pChoice component : String) (L : ℕ) (n : Option ℕ) (cutOff steep : ℝ)
    (h : Cheb.apply lib series sc st f pChoice component L n cutOff steep = (.ok (), st')) :
    ∃ Hs : List (Matrix (Fin sc.E) (Fin sc.E) ℝ), (∀ H ∈ Hs, LocalTo (sc.Nbr pChoice) (L - 1) H) ∧
      ∀ (st : FilterSt sc.E) (f : Fin sc.E → ℝ), st.Valid →
        ∃ st', Cheb.apply lib series sc st f pChoice component L n cutOff steep = (.ok (), st') ∧
          st'.history.get? "filter" = some (.mats Hs) ∧
          st'.history.get? "f_estimated" = some (.rows (Hs.map fun H => H.mulVec f)) := by
  obtain ⟨P, fTrue, mask, lam, coeffs, HI, Hs, hE, h1, h2, h3, h4, h5, h6, h7, h8, -⟩ := chebApply_inv h
  refine ⟨Hs, ?_, fun st f' hst => ?_⟩
  · unfold Cheb.frequencyApprox at h7
    rw [h1] at h7
    have hP := getPMatrix_local hb hr h1
    have inv : ∀ (l : List ℕ) (H0 H : List (Matrix (Fin sc.E) (Fin sc.E) ℝ)), (∀ k ∈ l, k < L) →
        (∀ X ∈ H0, LocalTo (sc.Nbr pChoice) (L - 1) X) →
        l.foldlM (fun H k => do
          let M ← Cheb.approximate P coeffs (lam / 2) (k + 1)
          pure (Cheb.assignFrom H k M)) H0 = .ok H → ∀ X ∈ H, LocalTo (sc.Nbr pChoice) (L - 1) X := by
      intro l
      induction l with
      | nil =>
        intro H0 H _ h0 hH
        rw [← Except.ok.inj hH]; exact h0
      | cons k l ih =>
        intro H0 H hk h0 hH
        rw [List.foldlM_cons] at hH
        cases hM : Cheb.approximate P coeffs (lam / 2) (k + 1) with
        | error e => rw [hM] at hH; cases hH
        | ok M =>
          rw [hM] at hH
          refine ih _ H (fun k' hk' => hk k' (List.mem_cons_of_mem _ hk')) ?_ hH
          intro X hX
          unfold Cheb.assignFrom at hX
          obtain ⟨i, hi, rfl⟩ := List.mem_mapIdx.1 hX
          have := hk k List.mem_cons_self
          split_ifs
          all_goals first
            | exact (approximate_local hP hM).mono (by omega)
            | exact h0 _ (List.getElem_mem hi)
    refine inv (List.range L) _ Hs (fun k hk => List.mem_range.1 hk) ?_ h7
    intro X hX
    rw [List.eq_of_mem_replicate hX]
    exact .zero
  · obtain ⟨t', ht'⟩ := trueSignal_total (f' := f') h2
    obtain ⟨d, hd, hd1, hd2⟩ : ∃ d, Cheb.applyDesign lib series sc f' pChoice component L n cutOff steep = .ok d ∧
        d.filter = .mats Hs ∧ d.fEstimated = .rows (Hs.map fun H => H.mulVec f') := by
      unfold Cheb.applyDesign Cheb.getAlpha
      simp only [bind, Except.bind, getEigendecomposition_dense lib hE, h1, ht', h3, h4, pure, Except.pure, h5, h6, h7,
        if_neg h8]
      exact ⟨_, rfl, rfl, rfl⟩
    refine ⟨setHistory st d, by rw [Cheb.apply, hd], ?_, ?_⟩
    · rw [FilterSt.history, setHistory_cur, (setHistory_get st hst _).1, hd1]
    · rw [FilterSt.history, setHistory_cur, (setHistory_get st hst _).2.1, hd2]

/-! ### Consequences -/

/-- C118: flows that agree on all edges within reach of an edge have the same filtered value there. -/
theorem C118_local {nbr : Fin E → Fin E → Prop} {k : ℕ} {H : Matrix (Fin E) (Fin E) ℝ} (hH : LocalTo nbr k H)
    (f g : Fin E → ℝ) (e : Fin E) (h : ∀ e', Within nbr k e e' → f e' = g e') : H.mulVec f e = H.mulVec g e := by
  change ∑ e', H e e' * f e' = ∑ e', H e e' * g e'
  apply Finset.sum_congr rfl
  intro e' _
  by_cases h0 : H e e' = 0
  · rw [h0, zero_mul, zero_mul]
  · rw [h e' (hH e e' h0)]

/-- C118 for the shifting operators: one step for `steps = 1`, two otherwise. -/
theorem C118_shifting (hb : sc.Built) (hr : EdgesInRange sc.nodes.length sc.edges) (steps : Int)
    (f g : Fin sc.edges.length → ℝ) (e : Fin sc.edges.length) :
    ((∀ e', Within sc.ShareNode (if steps = 1 then 1 else 2) e e' → f e' = g e') →
      sc.applyLowerShifting f steps e = sc.applyLowerShifting g steps e ∧
      sc.applyKStepShifting f steps e = sc.applyKStepShifting g steps e) ∧
    ((∀ e', Within sc.ShareTriangle (if steps = 1 then 1 else 2) e e' → f e' = g e') →
      sc.applyUpperShifting f steps e = sc.applyUpperShifting g steps e) := by
  have key : ∀ {nbr : Fin sc.E → Fin sc.E → Prop} {M : Matrix (Fin sc.E) (Fin sc.E) ℝ}, LocalTo nbr 1 M →
      (∀ e', Within nbr (if steps = 1 then 1 else 2) e e' → f e' = g e') →
      (if steps = 1 then M.mulVec f else M.mulVec (M.mulVec f)) e = (if steps = 1 then M.mulVec g else M.mulVec (M.mulVec g)) e := by
    intro nbr M hM h
    split_ifs at h ⊢
    · exact C118_local hM f g e h
    · rw [mulVec_mulVec, mulVec_mulVec]
      exact C118_local (hM.mul hM) f g e h
  refine ⟨fun h => ?_, fun h => key (L1u_local hb) h⟩
  have h1 := key (L1l_local hb hr) h
  refine ⟨h1, ?_⟩
  exact congrArg₂ (· + ·) h1 (key (L1u_shareNode hb) h)

/-- C118 on paths: the gradient filter of size `L` that the least-squares design makes on a path of `n` edges exists and
does not mix edges `L` or more positions apart. -/
theorem C118_path (lib : NumLib) (n : ℕ) (hn : 0 < n) (L : ℕ) (hL : 0 < L) (tol : ℝ) (sc : SC ℝ) (hw : sc.WellFormed)
    (he : sc.edges = pathEdges n) :
    ∃ H, AlwaysApplies (fun st f => LSFilter.typeTwo lib sc st f "gradient" L tol) H ∧
      ∀ e e' : Fin sc.E, (e : ℕ) + L ≤ e' ∨ (e' : ℕ) + L ≤ e → H e e' = 0 := by
  have hE : 0 < sc.E := by
    change 0 < sc.edges.length
    rw [he]; simpa [pathEdges] using hn
  obtain ⟨a, ha⟩ := typeTwo_total lib sc hE 0 "gradient" (.inl rfl) (L : Int) (by omega) tol
  obtain ⟨H, hH, hA⟩ := C118_type_two hw.built hw.inRange (initFilter sc.E) _ 0 "gradient" (L : Int) tol
    (by rw [LSFilter.typeTwo, ha, recordDesign])
  refine ⟨H, hA, fun e e' h => ?_⟩
  by_contra h0
  rw [if_neg (by decide)] at hH
  have hw' := hH e e' h0
  have hedge : ∀ j : Fin sc.edges.length, sc.edges[j] = (((j : ℕ) : Int), ((j : ℕ) : Int) + 1) := by
    intro j
    simp only [Fin.getElem_fin, he, pathEdges, List.getElem_map, List.getElem_range]
  have key : ∀ {k : ℕ} {a b : Fin sc.edges.length}, Within sc.ShareNode k a b → (a : ℕ) ≤ b + k ∧ (b : ℕ) ≤ a + k := by
    intro k a b h
    induction h with
    | here k a => omega
    | step h _ ih =>
      obtain ⟨v, h1, h2⟩ := h
      rw [hedge] at h1 h2
      simp only at h1 h2
      omega
  have := key hw'
  rw [Int.toNat_natCast] at this
  omega

example : ∃ sc : SC ℝ, sc.WellFormed ∧ sc.edges = pathEdges 5 := by
  obtain ⟨sc, h, -, he, -⟩ := path_wellFormed 5
  exact ⟨sc, h, he⟩

end Pytspl
