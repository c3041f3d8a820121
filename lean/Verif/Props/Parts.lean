import Verif.Props.Networks
import Verif.Props.FilterComponents
import Verif.Props.GpEquivariance
import Verif.Props.GpPredict
import Mathlib.LinearAlgebra.Lagrange

/-!
# C143: disconnected networks are processed part by part

Shifting, edge-flow denoising and Gaussian process prediction on a network that falls apart give on every part what
they give for the part as a network of its own; filters that are designed for the whole network still do not mix
the parts.
-/

namespace Pytspl

open Matrix Polynomial

variable {lib lib' : NumLib} {series : ChebSeries} {sc sc' : SC ℝ} {m n : ℕ}

/-! ## Specification -/

/-- Under the matrix the set `S` and the rest do not act on each other. -/
def SplitsAlong {E : ℕ} (S : Fin E → Prop) (H : Matrix (Fin E) (Fin E) ℝ) : Prop :=
  ∀ e e', S e → ¬ S e' → H e e' = 0 ∧ H e' e = 0

/-- The second network is a part of the first (`IsPart`), and in both no triangle is listed twice. -/
structure IsSimplePart (sc sc' : SC ℝ) (ι : Fin sc'.edges.length → Fin sc.edges.length) : Prop where
  part : IsPart sc sc' ι
  nodup : sc.triangles.Nodup
  nodup' : sc'.triangles.Nodup

/-! ## Blocks of matrices -/

/-- `A'` is the block of `A` at the positions `ι`, and the rest of these rows and columns is 0. -/
private structure Block {m' : ℕ} (ι : Fin m' → Fin m) (A : Matrix (Fin m) (Fin m) ℝ)
    (A' : Matrix (Fin m') (Fin m') ℝ) : Prop where
  inj : Function.Injective ι
  inside : ∀ k k', A (ι k) (ι k') = A' k k'
  row : ∀ k e, e ∉ Set.range ι → A (ι k) e = 0
  col : ∀ k e, e ∉ Set.range ι → A e (ι k) = 0

section block
variable {m' : ℕ} {ι : Fin m' → Fin m} {A B : Matrix (Fin m) (Fin m) ℝ} {A' B' : Matrix (Fin m') (Fin m') ℝ}

private theorem Block.mulVec (h : Block ι A A') (x : Fin m → ℝ) (k : Fin m') :
    A.mulVec x (ι k) = A'.mulVec (x ∘ ι) k := by
  refine (Fintype.sum_of_injective ι h.inj _ _ (fun e he => ?_) fun k' => ?_).symm
  · change A (ι k) e * x e = 0
    rw [h.row k e he, zero_mul]
  · change A' k k' * x (ι k') = A (ι k) (ι k') * x (ι k')
    rw [h.inside]

private theorem Block.transpose (h : Block ι A A') : Block ι A.transpose A'.transpose :=
  ⟨h.inj, fun k k' => h.inside k' k, fun k e he => h.col k e he, fun k e he => h.row k e he⟩

private theorem Block.add (h : Block ι A A') (h2 : Block ι B B') : Block ι (A + B) (A' + B') :=
  ⟨h.inj, fun k k' => by rw [Matrix.add_apply, Matrix.add_apply, h.inside, h2.inside],
    fun k e he => by rw [Matrix.add_apply, h.row k e he, h2.row k e he, add_zero],
    fun k e he => by rw [Matrix.add_apply, h.col k e he, h2.col k e he, add_zero]⟩

private theorem Block.smul (c : ℝ) (h : Block ι A A') : Block ι (c • A) (c • A') :=
  ⟨h.inj, fun k k' => by rw [Matrix.smul_apply, Matrix.smul_apply, h.inside],
    fun k e he => by rw [Matrix.smul_apply, h.row k e he, smul_zero],
    fun k e he => by rw [Matrix.smul_apply, h.col k e he, smul_zero]⟩

private theorem Block.one (hι : Function.Injective ι) : Block ι (1 : Matrix (Fin m) (Fin m) ℝ) 1 :=
  ⟨hι, fun k k' => by rw [one_apply, one_apply]; simp [hι.eq_iff],
    fun k e he => one_apply_ne fun h => he ⟨k, h⟩,
    fun k e he => one_apply_ne fun h => he ⟨k, h.symm⟩⟩

private theorem Block.mul (h : Block ι A A') (h2 : Block ι B B') : Block ι (A * B) (A' * B') := by
  refine ⟨h.inj, fun k k' => ?_, fun k e he => ?_, fun k e he => ?_⟩
  · rw [Matrix.mul_apply, Matrix.mul_apply]
    refine (Fintype.sum_of_injective ι h.inj _ _ (fun e he => ?_) fun k' => ?_).symm
    · rw [h.row k e he, zero_mul]
    · rw [h.inside, h2.inside]
  · rw [Matrix.mul_apply]
    refine Finset.sum_eq_zero fun e' _ => ?_
    by_cases h' : e' ∈ Set.range ι
    · obtain ⟨k', rfl⟩ := h'
      rw [h2.row k' e he, mul_zero]
    · rw [h.row k e' h', zero_mul]
  · rw [Matrix.mul_apply]
    refine Finset.sum_eq_zero fun e' _ => ?_
    by_cases h' : e' ∈ Set.range ι
    · obtain ⟨k', rfl⟩ := h'
      rw [h.col k' e he, zero_mul]
    · rw [h2.col k e' h', mul_zero]

private theorem Block.aeval (h : Block ι A A') (p : ℝ[X]) :
    Block ι (Polynomial.aeval A p) (Polynomial.aeval A' p) := by
  induction p using Polynomial.induction_on' with
  | add a b ha hb => rw [map_add, map_add]; exact ha.add hb
  | monomial n c =>
    rw [aeval_monomial, aeval_monomial, ← Algebra.smul_def, ← Algebra.smul_def]
    refine Block.smul _ ?_
    induction n with
    | zero => rw [pow_zero, pow_zero]; exact .one h.inj
    | succ n ih => rw [pow_succ, pow_succ]; exact ih.mul h

private theorem Block.inv_row (h : Block ι A A') (hA : A * B = 1) (hA' : B' * A' = 1) :
    (∀ k k', B (ι k) (ι k') = B' k k') ∧ ∀ k e, e ∉ Set.range ι → B (ι k) e = 0 := by
  have key : ∀ e, (fun e' => B e' e) ∘ ι = B'.mulVec (fun k => (1 : Matrix (Fin m) (Fin m) ℝ) (ι k) e) := by
    intro e
    have h1 : (fun k => (1 : Matrix (Fin m) (Fin m) ℝ) (ι k) e) = A'.mulVec ((fun e' => B e' e) ∘ ι) := by
      funext k
      rw [← h.mulVec, ← hA]
      rfl
    rw [h1, mulVec_mulVec, hA', one_mulVec]
  constructor
  · intro k k'
    have := congrFun (key (ι k')) k
    have h2 : (fun k => (1 : Matrix (Fin m) (Fin m) ℝ) (ι k) (ι k')) = fun k => (1 : Matrix (Fin m') (Fin m') ℝ) k k' :=
      funext fun k => (Block.one h.inj).inside k k'
    rw [h2] at this
    refine this.trans ?_
    change (B' * (1 : Matrix (Fin m') (Fin m') ℝ)) k k' = _
    rw [Matrix.mul_one]
  · intro k e he
    have := congrFun (key e) k
    have h2 : (fun k => (1 : Matrix (Fin m) (Fin m) ℝ) (ι k) e) = 0 :=
      funext fun k => (Block.one h.inj).row k e he
    rw [h2, mulVec_zero] at this
    exact this

private theorem Block.inv (h : Block ι A A') (hA : A.det ≠ 0) (hA' : A'.det ≠ 0) : Block ι A⁻¹ A'⁻¹ := by
  have hu : IsUnit A.det := isUnit_iff_ne_zero.2 hA
  have hu' : IsUnit A'.det := isUnit_iff_ne_zero.2 hA'
  obtain ⟨h1, h2⟩ := h.inv_row (mul_nonsing_inv _ hu) (nonsing_inv_mul _ hu')
  obtain ⟨-, h3⟩ := h.transpose.inv_row (B := A⁻¹.transpose) (B' := A'⁻¹.transpose)
    (by rw [← transpose_mul, nonsing_inv_mul _ hu, transpose_one])
    (by rw [← transpose_mul, mul_nonsing_inv _ hu', transpose_one])
  exact ⟨h.inj, h1, h2, fun k e he => h3 k e he⟩

/-- a vector on the part, continued by 0 -/
private noncomputable def extend (ι : Fin m' → Fin m) (x : Fin m' → ℝ) : Fin m → ℝ := fun e => ∑ k, if ι k = e then x k else 0

private theorem extend_comp (hι : Function.Injective ι) (x : Fin m' → ℝ) : extend ι x ∘ ι = x := by
  funext k
  change (∑ k', if ι k' = ι k then x k' else 0) = x k
  rw [Finset.sum_eq_single k]
  · simp
  · intro b _ hb
    rw [if_neg fun h => hb (hι h)]
  · simp

private theorem extend_out (x : Fin m' → ℝ) {e : Fin m} (he : e ∉ Set.range ι) : extend ι x e = 0 :=
  Finset.sum_eq_zero fun k _ => if_neg fun h => he ⟨k, h⟩

private theorem Block.eigenvalue (h : Block ι A A') {lam : ℝ} (hl : IsEigenvalue A' lam) : IsEigenvalue A lam := by
  obtain ⟨v, hv0, hv⟩ := hl
  refine ⟨extend ι v, fun h0 => hv0 ?_, ?_⟩
  · rw [← extend_comp h.inj v, h0]; rfl
  · funext e
    by_cases he : e ∈ Set.range ι
    · obtain ⟨k, rfl⟩ := he
      rw [h.mulVec, extend_comp h.inj, hv, Pi.smul_apply, Pi.smul_apply]
      exact congrArg (lam • ·) (congrFun (extend_comp h.inj v) k).symm
    · rw [Pi.smul_apply, extend_out _ he, smul_zero]
      change (∑ e', A e e' * extend ι v e') = 0
      refine Finset.sum_eq_zero fun e' _ => ?_
      by_cases he' : e' ∈ Set.range ι
      · obtain ⟨k, rfl⟩ := he'
        rw [h.col k e he, zero_mul]
      · rw [extend_out _ he', mul_zero]

private theorem Block.splits (h : Block ι A A') : SplitsAlong (fun e => ∃ k, ι k = e) A := by
  rintro e e' ⟨k, rfl⟩ he'
  exact ⟨h.row k e' he', h.col k e' he'⟩

end block

/-! ## Laplacians -/

section laplacians
variable {ι : Fin sc'.edges.length → Fin sc.edges.length}

private theorem within_stays {S : Fin sc.edges.length → Prop} (hS : Separate sc S) {k : ℕ} {e e' : Fin sc.edges.length}
    (h : Within sc.ShareNode k e e') : S e ↔ S e' := by
  induction h with
  | here => rfl
  | step hab _ ih =>
    obtain ⟨v, h1, h2⟩ := hab
    exact (show _ ↔ _ from ⟨hS _ _ ⟨v, h1, h2⟩, hS _ _ ⟨v, h2, h1⟩⟩).trans ih

private theorem LocalTo.splits {S : Fin sc.edges.length → Prop} (hS : Separate sc S) {k : ℕ}
    {H : Matrix (Fin sc.E) (Fin sc.E) ℝ} (h : LocalTo sc.ShareNode k H) : SplitsAlong S H := by
  intro e e' he he'
  constructor
  · by_contra h0
    exact he' ((within_stays hS (h _ _ h0)).1 he)
  · by_contra h0
    exact he' ((within_stays hS (h _ _ h0)).2 he)

private theorem block_of (hι : IsPart sc sc' ι) {k : ℕ} {A : Matrix (Fin sc.E) (Fin sc.E) ℝ}
    {A' : Matrix (Fin sc'.E) (Fin sc'.E) ℝ} (h : LocalTo sc.ShareNode k A) (hi : ∀ k k', A (ι k) (ι k') = A' k k') :
    Block (m := sc.E) (m' := sc'.E) ι A A' := by
  have := LocalTo.splits hι.separate h
  exact ⟨hι.injective, hi, fun k e he => (this (ι k) e ⟨k, rfl⟩ he).1, fun k e he => (this (ι k) e ⟨k, rfl⟩ he).2⟩

private theorem block_L1l (hs : sc.OnSimpleGraph) (hs' : sc'.OnSimpleGraph) (hι : IsPart sc sc' ι) :
    Block (m := sc.E) (m' := sc'.E) ι sc.L1l sc'.L1l := by
  refine block_of hι (L1l_local hs.built hs.inRange) fun k k' => ?_
  rw [(C119_lower sc hs.built hs.inRange hs.noLoops).2 (ι k) (ι k'),
    (C119_lower sc' hs'.built hs'.inRange hs'.noLoops).2 k k', hι.edges, hι.edges]

private theorem sideSign_zero {t : List Int} {e : Edge} (h : ¬ IsSide t e) : sideSign t e = 0 := by
  unfold sideSign
  split
  · next a b c =>
    have : ¬ Joins e a b ∧ ¬ Joins e b c ∧ ¬ Joins e a c :=
      ⟨fun g => h ⟨a, b, c, rfl, .inl g⟩, fun g => h ⟨a, b, c, rfl, .inr (.inl g)⟩,
        fun g => h ⟨a, b, c, rfl, .inr (.inr g)⟩⟩
    simp [this]
  · rfl

private theorem block_L1u (hs : sc.OnSimpleGraph) (hs' : sc'.OnSimpleGraph) (hι : IsSimplePart sc sc' ι) :
    Block (m := sc.E) (m' := sc'.E) ι sc.L1u sc'.L1u := by
  refine block_of hι.part (L1u_shareNode hs.built) fun k k' => ?_
  rw [(C119_upper sc hs).2 (ι k) (ι k'), (C119_upper sc' hs').2 k k', hι.part.edges, hι.part.edges]
  congr 1
  rw [← List.sum_toFinset _ hι.nodup, ← List.sum_toFinset _ hι.nodup']
  refine (Finset.sum_subset (fun t ht => ?_) fun t ht ht' => ?_).symm
  · rw [List.mem_toFinset] at ht ⊢
    exact ((hι.part.triangles t).1 ht).1
  · rw [List.mem_toFinset] at ht ht'
    have : ¬ IsSide t sc'.edges[k] := fun h => ht' ((hι.part.triangles t).2 ⟨ht, _, List.getElem_mem _, h⟩)
    rw [sideSign_zero this, zero_mul]

private theorem block_L1 (hs : sc.OnSimpleGraph) (hs' : sc'.OnSimpleGraph) (hι : IsSimplePart sc sc' ι) :
    Block (m := sc.E) (m' := sc'.E) ι sc.L1 sc'.L1 := (block_L1l hs hs' hι.part).add (block_L1u hs hs' hι)

private theorem block_P (hs : sc.OnSimpleGraph) (hs' : sc'.OnSimpleGraph) (hι : IsSimplePart sc sc' ι) {pChoice : String}
    {P : Matrix (Fin sc.E) (Fin sc.E) ℝ} {P' : Matrix (Fin sc'.E) (Fin sc'.E) ℝ} (hP : sc.getPMatrix pChoice = .ok P)
    (hP' : sc'.getPMatrix pChoice = .ok P') : Block (m := sc.E) (m' := sc'.E) ι P P' := by
  unfold SC.getPMatrix at hP hP'
  split_ifs at hP hP'
  · rw [← Except.ok.inj hP, ← Except.ok.inj hP']; exact block_L1 hs hs' hι
  · rw [← Except.ok.inj hP, ← Except.ok.inj hP']; exact block_L1l hs hs' hι.part
  · rw [← Except.ok.inj hP, ← Except.ok.inj hP']; exact block_L1u hs hs' hι

end laplacians

/-! ## Shifting and denoising -/

/-- C143: on the edges of a part, shifting the flow of the whole network is shifting the flow of the part. -/
theorem C143_shifting (hs : sc.OnSimpleGraph) (hs' : sc'.OnSimpleGraph) (ι : Fin sc'.edges.length → Fin sc.edges.length)
    (hι : IsSimplePart sc sc' ι) (f : Fin sc.edges.length → ℝ) (steps : Int) (k : Fin sc'.edges.length) :
    sc.applyLowerShifting f steps (ι k) = sc'.applyLowerShifting (f ∘ ι) steps k ∧
    sc.applyUpperShifting f steps (ι k) = sc'.applyUpperShifting (f ∘ ι) steps k ∧
    sc.applyKStepShifting f steps (ι k) = sc'.applyKStepShifting (f ∘ ι) steps k := by
  have key : ∀ {A : Matrix (Fin sc.E) (Fin sc.E) ℝ} {A' : Matrix (Fin sc'.E) (Fin sc'.E) ℝ},
      Block (m := sc.E) (m' := sc'.E) ι A A' →
      (if steps = 1 then A.mulVec f else A.mulVec (A.mulVec f)) (ι k) =
      (if steps = 1 then A'.mulVec (f ∘ ι) else A'.mulVec (A'.mulVec (f ∘ ι))) k := by
    intro A A' h
    split_ifs
    · exact h.mulVec f k
    · have e : A.mulVec f ∘ ι = A'.mulVec (f ∘ ι) := funext (h.mulVec f)
      rw [h.mulVec, e]
  have h1 := key (block_L1l hs hs' hι.part)
  have h2 := key (block_L1u hs hs' hι)
  refine ⟨h1, h2, ?_⟩
  unfold SC.applyKStepShifting
  rw [Pi.add_apply, Pi.add_apply]
  exact congrArg₂ (· + ·) h1 h2

/-- C143: if the l2 denoiser returns on the whole network, it returns on the part with the same arguments, and the
estimate for the part is the estimate for the whole network on the edges of the part. -/
theorem C143_edge_flow (hs : sc.OnSimpleGraph) (hs' : sc'.OnSimpleGraph) (hE : 0 < sc'.edges.length)
    (ι : Fin sc'.edges.length → Fin sc.edges.length) (hι : IsSimplePart sc sc' ι)
    (st st1 : FilterSt sc.E) (hst : st.Valid) (st' : FilterSt sc'.E) (hst' : st'.Valid)
    (f fTrue : Fin sc.edges.length → ℝ) (fTrue' : Fin sc'.edges.length → ℝ) (pChoice : String) (muVals : List ℝ)
    (h : edgeFlowDenoise lib sc st f fTrue pChoice muVals = (.ok (), st1)) :
    ∃ x st1', edgeFlowDenoise lib' sc' st' (f ∘ ι) fTrue' pChoice muVals = (.ok (), st1') ∧
      st1.history.get? "f_estimated" = some (.vec x) ∧ st1'.history.get? "f_estimated" = some (.vec (x ∘ ι)) := by
  obtain ⟨P, mu, hP, hmu, hd, -, hest⟩ := edgeFlow_inv hst h
  have hP' : ∃ P', sc'.getPMatrix pChoice = .ok P' := by
    unfold SC.getPMatrix at hP ⊢
    split_ifs at hP ⊢ <;> exact ⟨_, rfl⟩
  obtain ⟨P', hP'⟩ := hP'
  have hb := block_P hs hs' hι hP hP'
  have hE1 : 0 < sc.E := Fin.pos (ι ⟨0, hE⟩)
  obtain ⟨hne, hall⟩ := (C59_domain hE1 hP st f fTrue muVals).1.1 ⟨st1, h⟩
  obtain ⟨st1', h'⟩ := (C59_domain (lib := lib') (sc := sc') hE hP' st' (f ∘ ι) fTrue' muVals).1.2
    ⟨hne, fun m hm lam hl => hall m hm lam (hb.eigenvalue hl)⟩
  obtain ⟨P2, mu', hP2, hmu', hd', -, hest'⟩ := edgeFlow_inv hst' h'
  obtain rfl : P' = P2 := Except.ok.inj (hP'.symm.trans hP2)
  obtain rfl : mu = mu' := Option.some.inj (hmu.symm.trans hmu')
  refine ⟨_, st1', h', hest, ?_⟩
  rw [hest']
  congr 2
  have hB : Block (m := sc.E) (m' := sc'.E) ι (1 + mu • P)⁻¹ (1 + mu • P')⁻¹ :=
    ((Block.one hb.inj).add (hb.smul mu)).inv hd hd'
  funext k
  exact (hB.mulVec f k).symm

/-! ## Designed filters -/

private theorem shareTriangle_node (hs : sc.OnSimpleGraph) {e e' : Fin sc.edges.length} (h : sc.ShareTriangle e e') :
    sc.ShareNode e e' := by
  obtain ⟨t, ht, h1, h2, h3, h4⟩ := h
  obtain ⟨k, hk, rfl⟩ := List.getElem_of_mem ht
  obtain ⟨a, b, c, -, -, -, ht, -⟩ := hs.built.tri_entry ⟨k, hk⟩
  have ht' : sc.triangles[k] = [a, b, c] := ht
  rw [ht'] at h1 h2 h3 h4
  have n1 := hs.noLoops _ (List.getElem_mem e.2)
  have n2 := hs.noLoops _ (List.getElem_mem e'.2)
  change sc.edges[e].1 ≠ sc.edges[e].2 at n1
  change sc.edges[e'].1 ≠ sc.edges[e'].2 at n2
  unfold SC.ShareNode
  generalize sc.edges[e] = p at *
  generalize sc.edges[e'] = q at *
  obtain ⟨p1, p2⟩ := p
  obtain ⟨q1, q2⟩ := q
  simp only [List.mem_cons, List.not_mem_nil, or_false] at *
  by_cases g1 : p1 = q1
  · exact ⟨p1, .inl rfl, .inl g1⟩
  by_cases g2 : p1 = q2
  · exact ⟨p1, .inl rfl, .inr g2⟩
  refine ⟨p2, .inr rfl, ?_⟩
  omega

private theorem LocalTo.toNode (hs : sc.OnSimpleGraph) {nbr : Fin sc.edges.length → Fin sc.edges.length → Prop}
    (hn : nbr = sc.ShareTriangle ∨ nbr = sc.ShareNode) {k : ℕ} {H : Matrix (Fin sc.E) (Fin sc.E) ℝ}
    (h : LocalTo nbr k H) : LocalTo sc.ShareNode k H := by
  rcases hn with rfl | rfl
  · intro e e' he
    have := h e e' he
    clear h he
    induction this with
    | here => exact .here _ _
    | step h1 _ ih => exact .step (shareTriangle_node hs h1) ih
  · exact h

private theorem nbr_cases (pChoice : String) : sc.Nbr pChoice = sc.ShareTriangle ∨ sc.Nbr pChoice = sc.ShareNode := by
  by_cases h : pChoice = "L1U"
  · left; funext e e'; unfold SC.Nbr; rw [if_pos h]
  · right; funext e e'; unfold SC.Nbr; rw [if_neg h]

/-- C143: the filters designed for the whole network do not mix the parts. -/
theorem C143_filters (hs : sc.OnSimpleGraph) (S : Fin sc.edges.length → Prop) (hS : Separate sc S) (st st' : FilterSt sc.E)
    (f fTrue : Fin sc.E → ℝ) :
    (∀ component L, LSFilter.typeOne lib sc st f component L = (.ok (), st') → ∃ H, SplitsAlong S H ∧
      AlwaysApplies (fun st f => LSFilter.typeOne lib sc st f component L) H) ∧
    (∀ component L tol, LSFilter.typeTwo lib sc st f component L tol = (.ok (), st') → ∃ H, SplitsAlong S H ∧
      AlwaysApplies (fun st f => LSFilter.typeTwo lib sc st f component L tol) H) ∧
    (∀ component pChoice L num mu cutOff steep,
      GridFilter.subcomponentExtraction lib sc st f component pChoice L num mu cutOff steep = (.ok (), st') →
      ∃ H, SplitsAlong S H ∧ AlwaysApplies
        (fun st f => GridFilter.subcomponentExtraction lib sc st f component pChoice L num mu cutOff steep) H) ∧
    (∀ pChoice L mu, GridFilter.denoise lib sc st f fTrue pChoice L mu = (.ok (), st') → ∃ H, SplitsAlong S H ∧
      ∀ fTrue', AlwaysApplies (fun st f => GridFilter.denoise lib sc st f fTrue' pChoice L mu) H) ∧
    (∀ pChoice component L n cutOff steep,
      Cheb.apply lib series sc st f pChoice component L n cutOff steep = (.ok (), st') →
      ∃ Hs : List (Matrix (Fin sc.E) (Fin sc.E) ℝ), (∀ H ∈ Hs, SplitsAlong S H) ∧
        ∀ (st : FilterSt sc.E) (f : Fin sc.E → ℝ), st.Valid →
          ∃ st', Cheb.apply lib series sc st f pChoice component L n cutOff steep = (.ok (), st') ∧
            st'.history.get? "filter" = some (.mats Hs) ∧
            st'.history.get? "f_estimated" = some (.rows (Hs.map fun H => H.mulVec f))) := by
  refine ⟨fun component L h => ?_, fun component L tol h => ?_, fun component pChoice L num mu cutOff steep h => ?_,
    fun pChoice L mu h => ?_, fun pChoice component L n cutOff steep h => ?_⟩
  · obtain ⟨H, h1, h2⟩ := C118_type_one hs.built hs.inRange st st' f component L h
    exact ⟨H, h1.splits hS, h2⟩
  · obtain ⟨H, h1, h2⟩ := C118_type_two hs.built hs.inRange st st' f component L tol h
    refine ⟨H, (h1.toNode hs ?_).splits hS, h2⟩
    split_ifs
    · exact .inl rfl
    · exact .inr rfl
  · obtain ⟨H, h1, h2⟩ := C118_grid_extraction hs.built hs.inRange st st' f component pChoice L num mu cutOff steep h
    exact ⟨H, (h1.toNode hs (nbr_cases _)).splits hS, h2⟩
  · obtain ⟨H, h1, h2⟩ := C118_grid_denoise hs.built hs.inRange st st' f fTrue pChoice L mu h
    exact ⟨H, (h1.toNode hs (nbr_cases _)).splits hS, h2⟩
  · obtain ⟨Hs, h1, h2⟩ := C118_chebyshev hs.built hs.inRange st st' f pChoice component L n cutOff steep h
    exact ⟨Hs, fun H hH => ((h1 H hH).toNode hs (nbr_cases _)).splits hS, h2⟩

/-- C143: what a filter that does not mix the parts gives on one part depends on the flow there alone. -/
theorem C143_splits {E : ℕ} {S : Fin E → Prop} {H : Matrix (Fin E) (Fin E) ℝ} (hH : SplitsAlong S H) (f g : Fin E → ℝ)
    (h : ∀ e, S e → f e = g e) (e : Fin E) (he : S e) : H.mulVec f e = H.mulVec g e := by
  change ∑ e', H e e' * f e' = ∑ e', H e e' * g e'
  refine Finset.sum_congr rfl fun e' _ => ?_
  by_cases he' : S e'
  · rw [h e' he']
  · rw [(hH e e' he he').1, zero_mul, zero_mul]

/-! ## Gaussian processes -/

section gp
variable {ι : Fin sc'.edges.length → Fin sc.edges.length} {tol : ℝ}

private theorem sandwich_aeval {n : ℕ} {A U : Matrix (Fin n) (Fin n) ℝ} {w : Fin n → ℝ} (h : IsEig A U w) (s : ℝ → ℝ)
    (cond : ℝ → Prop) [DecidablePred cond] (φ : ℝ → ℝ) (p : ℝ[X])
    (hp : ∀ i, p.eval (w i) = if cond (s (w i)) then φ (s (w i)) else 0) :
    sandwich (selectPairs U (fun i => s (w i)) cond) (fun j => φ ((selectPairs U (fun i => s (w i)) cond).vals j)) id id =
      aeval A p := by
  have h1 : aeval A p = U * diagonal (fun i => p.eval (w i)) * U.transpose := by
    rw [← h.aeval_mul, Matrix.mul_assoc, h.orth', Matrix.mul_one]
  rw [h1]
  ext a b
  rw [Matrix.mul_apply]
  have h2 := sum_sel (w := fun i => s (w i)) (cond := cond) (fun i => U a i * φ (s (w i)) * U b i)
  refine Eq.trans ?_ (h2.trans ?_)
  · rfl
  · refine Finset.sum_congr rfl fun i _ => ?_
    rw [mul_diagonal, hp]
    split_ifs <;> simp

private theorem block_sandwich {n n' : ℕ} {ι : Fin n' → Fin n} {A : Matrix (Fin n) (Fin n) ℝ}
    {A' : Matrix (Fin n') (Fin n') ℝ} (hb : Block ι A A') (hA : SymmPSD A) (hA' : SymmPSD A') (s : ℝ → ℝ)
    (cond : ℝ → Prop) [DecidablePred cond] (φ : ℝ → ℝ) :
    Block ι (sandwich (selectPairs (lib.eigh n A).2 (fun i => s ((lib.eigh n A).1 i)) cond)
        (fun j => φ ((selectPairs (lib.eigh n A).2 (fun i => s ((lib.eigh n A).1 i)) cond).vals j)) id id)
      (sandwich (selectPairs (lib'.eigh n' A').2 (fun i => s ((lib'.eigh n' A').1 i)) cond)
        (fun j => φ ((selectPairs (lib'.eigh n' A').2 (fun i => s ((lib'.eigh n' A').1 i)) cond).vals j)) id id) := by
  classical
  let pts : Finset ℝ := Finset.univ.image (lib.eigh n A).1 ∪ Finset.univ.image (lib'.eigh n' A').1
  let p : ℝ[X] := Lagrange.interpolate pts id fun x => if cond (s x) then φ (s x) else 0
  have hp : ∀ x ∈ pts, p.eval x = if cond (s x) then φ (s x) else 0 := fun x hx =>
    Lagrange.eval_interpolate_at_node _ (Function.injective_id.injOn) hx
  rw [sandwich_aeval (lib.isEig hA) s cond φ p fun i => hp _ (by simp [pts]),
    sandwich_aeval (lib'.isEig hA') s cond φ p fun i => hp _ (by simp [pts])]
  exact hb.aeval p

private theorem block_component (hs : sc.OnSimpleGraph) (hs' : sc'.OnSimpleGraph) (hι : IsSimplePart sc sc' ι)
    (component : String) {e : EigPairs sc.E} {e' : EigPairs sc'.E}
    (he : sc.getComponentEigenpair lib component tol = .ok e)
    (he' : sc'.getComponentEigenpair lib' component tol = .ok e') (φ : ℝ → ℝ) :
    Block (m := sc.E) (m' := sc'.E) ι (sandwich e (fun j => φ (e.vals j)) id id)
      (sandwich e' (fun j => φ (e'.vals j)) id id) := by
  have h0 : ∀ {lib : NumLib} {sc : SC ℝ} {e : EigPairs sc.E}, sc.getComponentEigenpair lib component tol = .ok e → 0 < sc.E := by
    intro lib sc e he
    rcases Nat.eq_zero_or_pos sc.E with h0 | h0
    · exfalso
      unfold SC.getComponentEigenpair getHarmonicEigenpair getCurlEigenpair getGradientEigenpair
        getEigendecomposition at he
      simp only [h0, if_true, bind, Except.bind] at he
      split_ifs at he
    · exact h0
  have e0 := h0 he
  have e0' := h0 he'
  unfold SC.getComponentEigenpair getHarmonicEigenpair getCurlEigenpair getGradientEigenpair at he he'
  simp only [getEigendecomposition_dense lib e0] at he
  simp only [getEigendecomposition_dense lib' e0'] at he'
  split_ifs at he he'
  · rw [← Except.ok.inj he, ← Except.ok.inj he']
    exact block_sandwich (block_L1 hs hs' hι) (symmPSD_L1 sc) (symmPSD_L1 sc') (fun x => if |x| < machineEps then 0 else x) _ φ
  · rw [← Except.ok.inj he, ← Except.ok.inj he']
    exact block_sandwich (block_L1u hs hs' hι) (symmPSD_L1u sc) (symmPSD_L1u sc') (fun x => if |x| < machineEps then 0 else x) _ φ
  · rw [← Except.ok.inj he, ← Except.ok.inj he']
    exact block_sandwich (block_L1l hs hs' hι.part) (symmPSD_L1l sc) (symmPSD_L1l sc') (fun x => if |x| < machineEps then 0 else x) _ φ

private theorem eigenpairs_inv {eig : GpEigenpairs sc.E} (h : sc.gpEigenpairs lib tol = .ok eig) :
    sc.getComponentEigenpair lib "harmonic" tol = .ok eig.harm ∧
    sc.getComponentEigenpair lib "gradient" tol = .ok eig.grad ∧
    sc.getComponentEigenpair lib "curl" tol = .ok eig.curl := by
  unfold SC.gpEigenpairs at h
  cases h1 : sc.getComponentEigenpair lib "harmonic" tol with
  | error x => rw [h1] at h; cases h
  | ok a =>
  cases h2 : sc.getComponentEigenpair lib "gradient" tol with
  | error x => rw [h1, h2] at h; cases h
  | ok b =>
  cases h3 : sc.getComponentEigenpair lib "curl" tol with
  | error x => rw [h1, h2, h3] at h; cases h
  | ok c =>
  rw [h1, h2, h3] at h
  cases h
  exact ⟨rfl, rfl, rfl⟩

private theorem block_fullCov (hs : sc.OnSimpleGraph) (hs' : sc'.OnSimpleGraph) (hι : IsSimplePart sc sc' ι)
    {k : GpKernel sc.E} {k' : GpKernel sc'.E} (hk : k.FromComplex lib tol) (hk' : k'.FromComplex lib' tol)
    (hsk : SameKernel k k') : Block (m := sc.E) (m' := sc'.E) ι (fullCov k) (fullCov k') := by
  obtain ⟨a1, a2, a3⟩ := eigenpairs_inv hk
  obtain ⟨b1, b2, b3⟩ := eigenpairs_inv hk'
  obtain ⟨t, e, raw⟩ := k
  obtain ⟨t', e', raw'⟩ := k'
  obtain ⟨h1, h2⟩ := hsk
  simp only at h1 h2
  subst h1 h2
  exact (((block_component hs hs' hι _ a1 b1 _).smul _).add ((block_component hs hs' hι _ a2 b2 _).smul _)).add
    ((block_component hs hs' hι _ a3 b3 _).smul _)

private theorem block_prior (hs : sc.OnSimpleGraph) (hs' : sc'.OnSimpleGraph) (hι : IsSimplePart sc sc' ι)
    {m : GpModel sc.E} {m' : GpModel sc'.E} (hk : m.kernel.FromComplex lib tol) (hk' : m'.kernel.FromComplex lib' tol)
    (hm : SameModel m m') : Block (m := sc.E) (m' := sc'.E) ι m.prior m'.prior := by
  unfold GpModel.prior GpModel.outputscale
  rw [hm.2.1]
  exact (block_fullCov hs hs' hι hk hk' hm.1).smul _

/-- C143: under models with the same parameters, the covariances between edges of the part are those of the part as
a network of its own, and the flow on the part is uncorrelated with the flow elsewhere. -/
theorem C143_prior (hs : sc.OnSimpleGraph) (hs' : sc'.OnSimpleGraph) (ι : Fin sc'.edges.length → Fin sc.edges.length)
    (hι : IsSimplePart sc sc' ι) (tol : ℝ) (ht : 0 < tol) (m : GpModel sc.E) (m' : GpModel sc'.E)
    (hk : m.kernel.FromComplex lib tol) (hk' : m'.kernel.FromComplex lib' tol) (hm : SameModel m m')
    (c c' : ℝ) (K : Matrix (Fin sc.E) (Fin sc.E) ℝ) (K' : Matrix (Fin sc'.E) (Fin sc'.E) ℝ) (hK : m.HasPrior c K)
    (hK' : m'.HasPrior c' K') :
    c = c' ∧ (∀ k k', K (ι k) (ι k') = K' k k') ∧ SplitsAlong (fun e => ∃ k, ι k = e) K := by
  obtain ⟨rfl, hc⟩ := HasPrior.unique hK (m.hasPrior hk ht)
  obtain ⟨rfl, hc'⟩ := HasPrior.unique hK' (m'.hasPrior hk' ht)
  have hb := block_prior hs hs' hι hk hk' hm
  refine ⟨?_, hb.inside, hb.splits⟩
  have h0' : 0 < sc'.E := by
    by_contra h0
    have h1 : sc'.E = 0 := by omega
    have := (eigenpairs_inv hk').1
    simp only [SC.getComponentEigenpair, if_true, getHarmonicEigenpair, getEigendecomposition, h1, bind,
      Except.bind] at this
    cases this
  have h0 : 0 < sc.E := Fin.pos (ι ⟨0, h0'⟩)
  rw [hc h0, hc' h0', hm.2.2.1]

/-! ## Predictions -/

private def famOf {α : Type} (l : List α) : Σ n, Fin n → α := ⟨l.length, l.get⟩

private theorem famOf_map {α β : Type} (f : α → β) (l : List α) :
    famOf (l.map f) = ⟨(famOf l).1, fun i => f ((famOf l).2 i)⟩ := by
  apply List.equivSigmaTuple.symm.injective
  change List.ofFn (l.map f).get = List.ofFn fun i => f (l.get i)
  rw [List.ofFn_get]
  conv_lhs => rw [← List.ofFn_get l, List.map_ofFn]
  rfl

private noncomputable def buildPred {E n : ℕ} (c s : ℝ) (K : Matrix (Fin E) (Fin E) ℝ) (i : Fin n → Fin E)
    (y : Fin n → ℝ) (a : Σ n, Fin n → Fin E) : GpPrediction :=
  ⟨a.1, fun u => c + (Matrix.of fun u b => K (a.2 u) (i b)).mulVec ((obsCov K s i)⁻¹.mulVec fun b => y b - c) u,
    postCov K s i a.2 + s • 1⟩

private theorem buildPred_part {E E' n n' p : ℕ} {ι : Fin E' → Fin E} {K : Matrix (Fin E) (Fin E) ℝ}
    {K' : Matrix (Fin E') (Fin E') ℝ} (hb : Block ι K K') (hK : SymmPSD K) (hK' : SymmPSD K') {s : ℝ} (hs : 0 < s)
    (c : ℝ) (i : Fin n → Fin E) (i' : Fin n' → Fin E') (g : Fin n' → Fin n) (hg : Function.Injective g)
    (hgi : ∀ a, i (g a) = ι (i' a)) (hgo : ∀ b, b ∉ Set.range g → i b ∉ Set.range ι) (y : Fin n → ℝ)
    (j : Fin p → Fin E') :
    buildPred c s K i y ⟨p, fun u => ι (j u)⟩ = buildPred c s K' i' (y ∘ g) ⟨p, j⟩ := by
  have hS : Block g (obsCov K s i) (obsCov K' s i') := by
    refine Block.add ⟨hg, fun a b => ?_, fun a b hb' => ?_, fun a b hb' => ?_⟩ (Block.smul s (Block.one hg))
    · change K (i (g a)) (i (g b)) = K' (i' a) (i' b)
      rw [hgi, hgi, hb.inside]
    · change K (i (g a)) (i b) = 0
      rw [hgi, hb.row _ _ (hgo b hb')]
    · change K (i b) (i (g a)) = 0
      rw [hgi, hb.col _ _ (hgo b hb')]
  have hI : Block g (obsCov K s i)⁻¹ (obsCov K' s i')⁻¹ := by
    refine hS.inv (fun h0 => ?_) fun h0 => ?_
    · have := congrArg det (obsCov_inv hK hs i).1
      rw [det_mul, h0, zero_mul, det_one] at this
      exact zero_ne_one this
    · have := congrArg det (obsCov_inv hK' hs i').1
      rw [det_mul, h0, zero_mul, det_one] at this
      exact zero_ne_one this
  have hsum : ∀ (e : Fin E') (x : Fin n → ℝ), ∑ b, K (ι e) (i b) * (obsCov K s i)⁻¹.mulVec x b =
      ∑ a, K' e (i' a) * (obsCov K' s i')⁻¹.mulVec (x ∘ g) a := by
    intro e x
    refine (Fintype.sum_of_injective g hg _ _ (fun b hb' => ?_) fun a => ?_).symm
    · rw [hb.row _ _ (hgo b hb'), zero_mul]
    · rw [hI.mulVec, hgi, hb.inside]
  unfold buildPred
  congr 1
  · funext u
    congr 1
    exact hsum (j u) _
  · congr 1
    unfold postCov
    congr 1
    · ext u v
      exact hb.inside _ _
    · ext u v
      rw [Matrix.mul_assoc, Matrix.mul_assoc]
      have h1 := hsum (j u) (fun b => K (ι (j v)) (i b))
      have h2 : (fun b => K (ι (j v)) (i b)) ∘ g = fun a => K' (j v) (i' a) := by
        funext a
        change K (ι (j v)) (i (g a)) = _
        rw [hgi, hb.inside]
      rw [h2] at h1
      exact h1

/-- C143: predictions at edges of the part from observations anywhere are the predictions of the part's own model from
the observations made on the part: observation `g a` is observation `a` of the part, and the other observations were
made outside it. -/
theorem C143_predict (hs : sc.OnSimpleGraph) (hs' : sc'.OnSimpleGraph) (ι : Fin sc'.edges.length → Fin sc.edges.length)
    (hι : IsSimplePart sc sc' ι) (tol : ℝ) (ht : 0 < tol) (m : GpModel sc.E) (m' : GpModel sc'.E)
    (hk : m.kernel.FromComplex lib tol) (hk' : m'.kernel.FromComplex lib' tol) (hm : SameModel m m')
    (hn : 0 < m.noise) (rt : List (Fin sc.E)) (rt' rs : List (Fin sc'.E)) (y : Fin rt.length → ℝ)
    (g : Fin rt'.length → Fin rt.length) (hg : Function.Injective g) (hgi : ∀ a, rt[g a] = ι rt'[a])
    (hgo : ∀ b, (∀ a, g a ≠ b) → ∀ k, ι k ≠ rt[b]) (yTest : List ℝ) :
    m.predict (edgeTensor rt) (List.ofFn y) (edgeTensor (n := sc.E) (rs.map ι)) yTest =
      m'.predict (edgeTensor rt') (List.ofFn (y ∘ g)) (edgeTensor rs) yTest := by
  have key : m.predictive (edgeTensor rt) (List.ofFn y) (edgeTensor (n := sc.E) (rs.map ι)) =
      m'.predictive (edgeTensor rt') (List.ofFn (y ∘ g)) (edgeTensor rs) := by
    rw [predictive_eq m hk ht, predictive_eq m' hk' ht]
    congr 1
    have h1 := buildPred_part (block_prior hs hs' hι hk hk' hm) (m.prior_psd hk ht) (m'.prior_psd hk' ht) hn
      (m.meanConst.getD 0) rt.get rt'.get g hg hgi (fun b hb => ?_) y rs.get
    · change buildPred (m.meanConst.getD 0) m.noise m.prior rt.get y (famOf (rs.map ι)) =
        buildPred (m'.meanConst.getD 0) m'.noise m'.prior rt'.get (y ∘ g) (famOf rs)
      rw [hm.2.2.1, hm.2.2.2, famOf_map]
      exact h1
    · rintro ⟨k, hk⟩
      exact hgo b (fun a ha => hb ⟨a, ha⟩) k hk
  unfold GpModel.predict
  rw [key]

private theorem bind_ok {α β : Type} {x : Py α} {f : α → Py β} {r : β} (h : (x >>= f) = .ok r) :
    ∃ a, x = .ok a ∧ f a = .ok r := by
  cases x with
  | error e => cases h
  | ok a => exact ⟨a, rfl, h⟩

private theorem matern_inv {t : Trainer sc} {p : GpParams} (hp : t.modelParameters = .ok p)
    {K : Matrix (Fin sc.E) (Fin sc.E) ℝ} {v : VarOut sc.E} (hK : t.buildMaternKernel lib = .ok (K, v)) :
    ∃ a b c, sc.getComponentEigenpair lib "harmonic" (1 / 1000) = .ok a ∧
      sc.getComponentEigenpair lib "gradient" (1 / 1000) = .ok b ∧
      sc.getComponentEigenpair lib "curl" (1 / 1000) = .ok c ∧
      K = p.outputscale • (p.h • sandwich a (fun j => (fun _ => p.mu) (a.vals j)) id id +
        p.hDown • sandwich b (fun j => (fun x => (torchPow (2 * p.muDown / p.kappaDown / p.kappaDown + x) (-p.muDown)).getD 0)
          (b.vals j)) id id +
        p.hUp • sandwich c (fun j => (fun x => (torchPow (2 * p.muUp / p.kappaUp / p.kappaUp + x) (-p.muUp)).getD 0)
          (c.vals j)) id id) := by
  unfold Trainer.buildMaternKernel at hK
  rw [hp] at hK
  obtain ⟨q, h0, hK⟩ := bind_ok hK
  obtain rfl := Except.ok.inj h0
  obtain ⟨a, h1, hK⟩ := bind_ok hK
  obtain ⟨b, h2, hK⟩ := bind_ok hK
  obtain ⟨c, h3, hK⟩ := bind_ok hK
  obtain ⟨k1, h4, hK⟩ := bind_ok hK
  obtain ⟨k2, h5, hK⟩ := bind_ok hK
  obtain ⟨w, h6, hK⟩ := bind_ok hK
  refine ⟨a, b, c, h1, h2, h3, ?_⟩
  unfold finiteVec at h4 h5
  split_ifs at h4 h5
  cases h4
  cases h5
  cases hK
  rfl

/-- C143: the covariance exported by `build_matern_kernel` for trained parameters, likewise. -/
theorem C143_matern (hs : sc.OnSimpleGraph) (hs' : sc'.OnSimpleGraph) (ι : Fin sc'.edges.length → Fin sc.edges.length)
    (hι : IsSimplePart sc sc' ι) (t : Trainer sc) (t' : Trainer sc') (hp : t'.modelParameters = t.modelParameters)
    (K : Matrix (Fin sc.E) (Fin sc.E) ℝ) (v : VarOut sc.E) (hK : t.buildMaternKernel lib = .ok (K, v))
    (K' : Matrix (Fin sc'.E) (Fin sc'.E) ℝ) (v' : VarOut sc'.E) (hK' : t'.buildMaternKernel lib' = .ok (K', v')) :
    (∀ k k', K (ι k) (ι k') = K' k k') ∧ SplitsAlong (fun e => ∃ k, ι k = e) K := by
  cases hq : t.modelParameters with
  | error e =>
    unfold Trainer.buildMaternKernel at hK
    rw [hq] at hK
    cases hK
  | ok p =>
    obtain ⟨a, b, c, h1, h2, h3, rfl⟩ := matern_inv hq hK
    obtain ⟨a', b', c', h1', h2', h3', rfl⟩ := matern_inv (hp.trans hq) hK'
    have hb := ((((block_component hs hs' hι _ h1 h1' fun _ => p.mu).smul p.h).add
      ((block_component hs hs' hι _ h2 h2' fun x =>
        (torchPow (2 * p.muDown / p.kappaDown / p.kappaDown + x) (-p.muDown)).getD 0).smul p.hDown)).add
      ((block_component hs hs' hι _ h3 h3' fun x =>
        (torchPow (2 * p.muUp / p.kappaUp / p.kappaUp + x) (-p.muUp)).getD 0).smul p.hUp)).smul p.outputscale
    exact ⟨hb.inside, hb.splits⟩

end gp

/-! ## The hypotheses can be met -/

/-- two triangles without a common node and the second of them: denoising on both, and Matérn models predicting the
edges of the second triangle from one observation on each -/
example (lib : NumLib) : ∃ (sc sc' : SC ℝ) (ι : Fin sc'.edges.length → Fin sc.edges.length), sc.OnSimpleGraph ∧
    sc'.OnSimpleGraph ∧ 0 < sc'.edges.length ∧ IsSimplePart sc sc' ι ∧
    (∃ st, edgeFlowDenoise lib sc (initFilter _) (fun _ => 1) (fun _ => 1) "L1" [1 / 2, 2] = (.ok (), st)) ∧
    ∃ (m : GpModel sc.E) (m' : GpModel sc'.E) (k : Fin sc'.E) (e : Fin sc.E), m.kernel.FromComplex lib (1 / 1000) ∧
      m'.kernel.FromComplex lib (1 / 1000) ∧ SameModel m m' ∧ 0 < m.noise ∧
      m.predict (edgeTensor (n := sc.E) [e, ι k]) [5, 7] (edgeTensor (n := sc.E) ((List.finRange sc'.E).map ι)) [1, 2, 3] =
        m'.predict (edgeTensor [k]) [7] (edgeTensor (List.finRange sc'.E)) [1, 2, 3] := by
  obtain ⟨sc, sc', ι, hs, hs', hι, h1, h2, h3, h4⟩ := isPart_twoTriangles
  have hE : 0 < sc.E := by change 0 < sc.edges.length; omega
  have hE' : 0 < sc'.E := by change 0 < sc'.edges.length; omega
  have hp : IsSimplePart sc sc' ι := ⟨hι, by rw [h3]; decide, by rw [h4]; decide⟩
  have he : ∃ e : Fin sc.E, ∀ k, ι k ≠ e := by
    by_contra h
    push Not at h
    have := Fintype.card_le_of_surjective ι h
    simp only [Fintype.card_fin] at this
    omega
  obtain ⟨e, he⟩ := he
  have hP : sc.getPMatrix "L1" = .ok sc.L1 := rfl
  obtain ⟨st, H, hst, -⟩ := C59_denoise (lib := lib) hE hP (initFilter _) (by simp [FilterSt.Valid, initFilter]) (fun _ => 1) (fun _ => 1) [1 / 2, 2]
    (by simp) 2 rfl
  refine ⟨sc, sc', ι, hs, hs', hE', hp, ⟨st, hst⟩, ?_⟩
  obtain ⟨eig, hk⟩ : ∃ eig, sc.gpEigenpairs lib (1 / 1000) = .ok eig := ⟨_, gpEigenpairs_eq lib sc hE (1 / 1000)⟩
  obtain ⟨eig', hk'⟩ : ∃ eig, sc'.gpEigenpairs lib (1 / 1000) = .ok eig := ⟨_, gpEigenpairs_eq lib sc' hE' (1 / 1000)⟩
  let m : GpModel sc.E := ⟨GpKernel.create .matern eig, 0, none, 1⟩
  let m' : GpModel sc'.E := ⟨GpKernel.create .matern eig', 0, none, 1⟩
  have hm : SameModel m m' := ⟨⟨rfl, rfl⟩, rfl, rfl, rfl⟩
  have hn : 0 < m.noise := one_pos
  refine ⟨m, m', ⟨0, hE'⟩, e, hk, hk', hm, hn, ?_⟩
  refine C143_predict hs hs' ι hp (1 / 1000) (by norm_num) m m' hk hk' hm hn
    [e, ι ⟨0, hE'⟩] [⟨0, hE'⟩] (List.finRange sc'.E) (![5, 7] : Fin 2 → ℝ) (fun _ => (1 : Fin 2)) ?_ ?_ ?_ [1, 2, 3]
  · intro a b _
    exact Subsingleton.elim (α := Fin 1) a b
  · change ∀ a : Fin 1, _
    intro a
    obtain rfl : a = 0 := Subsingleton.elim _ _
    rfl
  · change ∀ b : Fin 2, _
    intro b hb k
    fin_cases b
    · exact he k
    · exact absurd rfl (hb (0 : Fin 1))

end Pytspl
