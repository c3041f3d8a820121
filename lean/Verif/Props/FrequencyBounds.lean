import Verif.Props.EdgeLaplacian
import Verif.Props.Hodge
import Verif.Lemmas.EigProj
import Verif.Props.Masks
import Verif.Lemmas.ConcreteEig
import Mathlib.GroupTheory.Perm.Fin

/-!
# C165: how large the frequencies can be
-/

namespace Pytspl

open Matrix
open scoped Classical

variable {lib : NumLib} {sc : SC ℝ} {N E T m n : ℕ}

/-! ## A sum over ordered triples -/

private theorem triple_sum (a : Fin N → Fin N → ℝ) (ha : ∀ u v, a u v = -a v u) :
    ∑ u, ∑ v, ∑ w, (a u v + a v w + a w u) ^ 2 =
      3 * N * (∑ u, ∑ v, a u v ^ 2) - 6 * ∑ v, (∑ u, a u v) ^ 2 := by
  have hsq : ∀ u v w, (a u v + a v w + a w u) ^ 2 =
      a u v ^ 2 + a v w ^ 2 + a w u ^ 2 + a u v * a v w + a u v * a v w + a v w * a w u + a v w * a w u +
        a w u * a u v + a w u * a u v := by
    intro u v w; ring
  have s1 : ∑ u, ∑ v, ∑ _w : Fin N, a u v ^ 2 = N * ∑ u, ∑ v, a u v ^ 2 := by
    simp [Finset.mul_sum]
  have s2 : ∑ _u : Fin N, ∑ v, ∑ w, a v w ^ 2 = N * ∑ u, ∑ v, a u v ^ 2 := by
    simp
  have s3 : ∑ u, ∑ _v : Fin N, ∑ w, a w u ^ 2 = N * ∑ u, ∑ v, a u v ^ 2 := by
    rw [Finset.sum_comm]
    simp only [Finset.sum_const, Finset.card_univ, Fintype.card_fin, nsmul_eq_mul]
    rw [Finset.sum_comm]
  have c1 : ∑ u, ∑ v, ∑ w, a u v * a v w = -∑ v, (∑ u, a u v) ^ 2 := by
    rw [Finset.sum_comm, ← Finset.sum_neg_distrib]
    refine Finset.sum_congr rfl fun v _ => ?_
    rw [← Finset.sum_mul_sum, sq]
    have : ∑ w, a v w = -∑ u, a u v := by
      rw [← Finset.sum_neg_distrib]
      exact Finset.sum_congr rfl fun w _ => ha v w
    rw [this]; ring
  have c2 : ∑ u, ∑ v, ∑ w, a v w * a w u = -∑ v, (∑ u, a u v) ^ 2 := by
    rw [← c1, Finset.sum_comm]
    refine Finset.sum_congr rfl fun v _ => ?_
    rw [Finset.sum_comm]
  have c3 : ∑ u, ∑ v, ∑ w, a w u * a u v = -∑ v, (∑ u, a u v) ^ 2 := by
    rw [← c1]
    have : ∀ u, ∑ v, ∑ w, a w u * a u v = ∑ w, ∑ v, a w u * a u v := fun u => Finset.sum_comm
    simp only [this]
    rw [Finset.sum_comm]
  simp only [hsq, Finset.sum_add_distrib, s1, s2, s3, c1, c2, c3]
  ring

/-! ## The flow as an antisymmetric function of two nodes -/

private def anti (s d : Fin E → Fin N) (f : Fin E → ℝ) (u v : Fin N) : ℝ :=
  ∑ e, f e * ((if s e = u ∧ d e = v then 1 else 0) - (if s e = v ∧ d e = u then 1 else 0))

private theorem anti_anti (s d : Fin E → Fin N) (f : Fin E → ℝ) (u v : Fin N) :
    anti s d f u v = -anti s d f v u := by
  unfold anti
  rw [← Finset.sum_neg_distrib]
  exact Finset.sum_congr rfl fun e _ => by ring

private theorem anti_edge {s d : Fin E → Fin N} (hinj : ∀ e e', s e = s e' → d e = d e' → e = e')
    (hsw : ∀ e e', ¬ (s e = d e' ∧ d e = s e')) (f : Fin E → ℝ) (e : Fin E) : anti s d f (s e) (d e) = f e := by
  unfold anti
  rw [Finset.sum_eq_single e]
  · rw [if_pos ⟨rfl, rfl⟩, if_neg (fun h => hsw e e ⟨h.1, h.2⟩)]; ring
  · intro e' _ hne
    rw [if_neg (fun h => hne (hinj _ _ h.1 h.2)), if_neg (fun h => hsw e' e h)]; ring
  · exact fun h => absurd (Finset.mem_univ e) h

private theorem anti_in {s d : Fin E → Fin N} (f : Fin E → ℝ) (v : Fin N) :
    ∑ u, anti s d f u v = ∑ e, f e * ((if d e = v then 1 else 0) - (if s e = v then 1 else 0)) := by
  unfold anti
  rw [Finset.sum_comm]
  refine Finset.sum_congr rfl fun e _ => ?_
  rw [← Finset.mul_sum, Finset.sum_sub_distrib]
  have h1 : ∑ u, (if s e = u ∧ d e = v then (1 : ℝ) else 0) = if d e = v then 1 else 0 := by
    rw [Finset.sum_eq_single (s e)]
    · simp
    · intro u _ hu; rw [if_neg (fun h => hu h.1.symm)]
    · exact fun h => absurd (Finset.mem_univ _) h
  have h2 : ∑ u, (if s e = v ∧ d e = u then (1 : ℝ) else 0) = if s e = v then 1 else 0 := by
    rw [Finset.sum_eq_single (d e)]
    · simp
    · intro u _ hu; rw [if_neg (fun h => hu h.2.symm)]
    · exact fun h => absurd (Finset.mem_univ _) h
  rw [h1, h2]

private theorem anti_sq {s d : Fin E → Fin N} (hinj : ∀ e e', s e = s e' → d e = d e' → e = e')
    (hsw : ∀ e e', ¬ (s e = d e' ∧ d e = s e')) (f : Fin E → ℝ) :
    ∑ u, ∑ v, anti s d f u v ^ 2 = 2 * ∑ e, f e ^ 2 := by
  have h : ∀ u v, anti s d f u v ^ 2 = ∑ e, f e * ((if s e = u ∧ d e = v then anti s d f u v else 0) -
      (if s e = v ∧ d e = u then anti s d f u v else 0)) := by
    intro u v
    rw [sq]
    conv_lhs => lhs; unfold anti
    rw [Finset.sum_mul]
    refine Finset.sum_congr rfl fun e _ => ?_
    rw [mul_assoc, sub_mul, ite_mul, ite_mul, one_mul, zero_mul]
  simp only [h]
  have sw : ∀ F : Fin N → Fin N → Fin E → ℝ, ∑ u, ∑ v, ∑ e, F u v e = ∑ e, ∑ u, ∑ v, F u v e := by
    intro F
    have : ∀ u, ∑ v, ∑ e, F u v e = ∑ e, ∑ v, F u v e := fun u => Finset.sum_comm
    simp only [this]
    exact Finset.sum_comm
  rw [sw, Finset.mul_sum]
  refine Finset.sum_congr rfl fun e _ => ?_
  simp only [← Finset.mul_sum, Finset.sum_sub_distrib]
  have h1 : ∑ u, ∑ v, (if s e = u ∧ d e = v then anti s d f u v else 0) = f e := by
    rw [Finset.sum_eq_single (s e), Finset.sum_eq_single (d e)]
    · rw [if_pos ⟨rfl, rfl⟩, anti_edge hinj hsw]
    · intro v _ hv; rw [if_neg (fun h => hv h.2.symm)]
    · exact fun h => absurd (Finset.mem_univ _) h
    · intro u _ hu
      exact Finset.sum_eq_zero fun v _ => by rw [if_neg (fun h => hu h.1.symm)]
    · exact fun h => absurd (Finset.mem_univ _) h
  have h2 : ∑ u, ∑ v, (if s e = v ∧ d e = u then anti s d f u v else 0) = -f e := by
    rw [Finset.sum_eq_single (d e), Finset.sum_eq_single (s e)]
    · rw [if_pos ⟨rfl, rfl⟩, anti_anti, anti_edge hinj hsw]
    · intro v _ hv; rw [if_neg (fun h => hv h.1.symm)]
    · exact fun h => absurd (Finset.mem_univ _) h
    · intro u _ hu
      exact Finset.sum_eq_zero fun v _ => by rw [if_neg (fun h => hu h.2.symm)]
    · exact fun h => absurd (Finset.mem_univ _) h
  rw [h1, h2]
  ring

/-! ## Triangles among the ordered triples -/

private def circ (a : Fin N → Fin N → ℝ) (q : Fin 3 → Fin N) : ℝ := a (q 0) (q 1) + a (q 1) (q 2) + a (q 2) (q 0)

private theorem circ_perm {a : Fin N → Fin N → ℝ} (ha : ∀ u v, a u v = -a v u) (q : Fin 3 → Fin N)
    (σ : Equiv.Perm (Fin 3)) : circ a (q ∘ σ) ^ 2 = circ a q ^ 2 := by
  have hcases : ∀ σ : Equiv.Perm (Fin 3), (σ 0 = 0 ∧ σ 1 = 1 ∧ σ 2 = 2) ∨ (σ 0 = 0 ∧ σ 1 = 2 ∧ σ 2 = 1) ∨
      (σ 0 = 1 ∧ σ 1 = 0 ∧ σ 2 = 2) ∨ (σ 0 = 1 ∧ σ 1 = 2 ∧ σ 2 = 0) ∨ (σ 0 = 2 ∧ σ 1 = 0 ∧ σ 2 = 1) ∨
      (σ 0 = 2 ∧ σ 1 = 1 ∧ σ 2 = 0) := by decide
  have e1 := ha (q 1) (q 0)
  have e2 := ha (q 2) (q 1)
  have e3 := ha (q 0) (q 2)
  unfold circ
  rcases hcases σ with ⟨h0, h1, h2⟩ | ⟨h0, h1, h2⟩ | ⟨h0, h1, h2⟩ | ⟨h0, h1, h2⟩ | ⟨h0, h1, h2⟩ | ⟨h0, h1, h2⟩ <;>
    simp only [Function.comp, h0, h1, h2, e1, e2, e3] <;> ring

private theorem sum_triples (F : (Fin 3 → Fin N) → ℝ) : ∑ q, F q = ∑ u, ∑ v, ∑ w, F ![u, v, w] := by
  rw [← (Fin.consEquiv fun _ => Fin N).sum_comp, Fintype.sum_prod_type]
  refine Finset.sum_congr rfl fun u _ => ?_
  rw [← (Fin.consEquiv fun _ => Fin N).sum_comp, Fintype.sum_prod_type]
  refine Finset.sum_congr rfl fun v _ => ?_
  rw [← (Fin.consEquiv fun _ => Fin N).sum_comp, Fintype.sum_prod_type]
  refine Finset.sum_congr rfl fun w _ => ?_
  rw [Fintype.sum_unique]
  rfl

private theorem circ_total {s d : Fin E → Fin N} (hinj : ∀ e e', s e = s e' → d e = d e' → e = e')
    (hsw : ∀ e e', ¬ (s e = d e' ∧ d e = s e')) (f : Fin E → ℝ) :
    ∑ q, circ (anti s d f) q ^ 2 = 6 * (N * ∑ e, f e ^ 2 - ∑ v, (∑ u, anti s d f u v) ^ 2) := by
  rw [sum_triples]
  have := triple_sum (anti s d f) (anti_anti s d f)
  rw [anti_sq hinj hsw] at this
  simp only [circ, Matrix.cons_val_zero, Matrix.cons_val_one, Matrix.cons_val_two, Matrix.tail_cons, Matrix.head_cons]
  rw [this]
  ring

private theorem perm_desc : ∀ σ : Equiv.Perm (Fin 3), σ ≠ 1 → ∃ i j, i < j ∧ σ j < σ i := by decide

private theorem triangles_total {a : Fin N → Fin N → ℝ} (ha : ∀ u v, a u v = -a v u) (p : Fin T → Fin 3 → Fin N)
    (hp : ∀ t t', p t = p t' → t = t') (R : Fin N → Fin N → Prop) (hR : ∀ u v, R u v → ¬ R v u)
    (hpR : ∀ t i j, i < j → R (p t i) (p t j)) :
    Function.Injective (fun x : Fin T × Equiv.Perm (Fin 3) => p x.1 ∘ x.2) ∧
    ∑ x : Fin T × Equiv.Perm (Fin 3), circ a (p x.1 ∘ x.2) ^ 2 = 6 * ∑ t, circ a (p t) ^ 2 := by
  constructor
  · rintro ⟨t, σ⟩ ⟨t', τ⟩ h
    have h : p t ∘ σ = p t' ∘ τ := h
    have h1 : ∀ i, p t i = p t' ((τ * σ⁻¹) i) := by
      intro i
      have := congrFun h (σ⁻¹ i)
      simpa using this
    have h2 : τ * σ⁻¹ = 1 := by
      by_contra hne
      obtain ⟨i, j, hij, hji⟩ := perm_desc _ hne
      have r1 := hpR t i j hij
      have r2 := hpR t' _ _ hji
      rw [h1 i, h1 j] at r1
      exact hR _ _ r1 r2
    have h3 : τ = σ := by rw [mul_inv_eq_one] at h2; exact h2
    subst h3
    have h4 : t = t' := hp _ _ (by funext i; rw [h1 i, h2]; rfl)
    rw [h4]
  · rw [Fintype.sum_prod_type, Finset.mul_sum]
    refine Finset.sum_congr rfl fun t _ => ?_
    simp only [circ_perm ha]
    rw [Finset.sum_const, Finset.card_univ, Fintype.card_perm, Fintype.card_fin, nsmul_eq_mul]
    norm_num [Nat.factorial]

/-! ## The complex -/

/-- The nodes of the complex: source and target of every edge, and the vertices of every triangle. -/
private theorem complex_data (hw : sc.WellFormed) (hn : NoRepeats sc.edges) (htr : sc.triangles.Nodup) (f : Fin sc.E → ℝ) :
    ∃ (s d : Fin sc.E → Fin sc.N) (p : Fin sc.T → Fin 3 → Fin sc.N),
      (∀ e, sc.edges[e] = (((s e : ℕ) : Int), ((d e : ℕ) : Int))) ∧
      (∀ e e', s e = s e' → d e = d e' → e = e') ∧ (∀ e e', ¬ (s e = d e' ∧ d e = s e')) ∧
      (∀ t, sc.triangles[t] = [((p t 0 : ℕ) : Int), ((p t 1 : ℕ) : Int), ((p t 2 : ℕ) : Int)]) ∧
      (∀ t t', p t = p t' → t = t') ∧
      (∀ t i j, i < j → ∃ e, s e = p t i ∧ d e = p t j) ∧
      (∀ t, sc.getCurl f t = circ (anti s d f) (p t)) ∧
      (∀ v, sc.getDivergence f v = ∑ u, anti s d f u v) := by
  have hr : ∀ e : Fin sc.E, (0 ≤ sc.edges[e].1 ∧ sc.edges[e].1 < sc.N) ∧ (0 ≤ sc.edges[e].2 ∧ sc.edges[e].2 < sc.N) :=
    fun e => hw.inRange _ (List.getElem_mem _)
  let s : Fin sc.E → Fin sc.N := fun e => ⟨sc.edges[e].1.toNat, by have := (hr e).1; omega⟩
  let d : Fin sc.E → Fin sc.N := fun e => ⟨sc.edges[e].2.toNat, by have := (hr e).2; omega⟩
  have hs : ∀ e, ((s e : ℕ) : Int) = sc.edges[e].1 := fun e => Int.toNat_of_nonneg (hr e).1.1
  have hd : ∀ e, ((d e : ℕ) : Int) = sc.edges[e].2 := fun e => Int.toNat_of_nonneg (hr e).2.1
  have hpair : ∀ e e' : Fin sc.E, e ≠ e' → sc.edges[e] ≠ sc.edges[e'] ∧ sc.edges[e] ≠ sc.edges[e'].swap := by
    intro e e' hne
    have hp := List.pairwise_iff_getElem.1 hn
    rcases lt_or_gt_of_ne (fun h => hne (Fin.ext h)) with h | h
    · exact hp e e' e.2 e'.2 h
    · have := hp e' e e'.2 e.2 h
      exact ⟨this.1.symm, fun h => this.2 (by
        have h' : sc.edges[e] = sc.edges[e'].swap := h
        show sc.edges[e'] = sc.edges[e].swap
        rw [h', Prod.swap_swap])⟩
  have hinj : ∀ e e', s e = s e' → d e = d e' → e = e' := by
    intro e e' h1 h2
    by_contra hne
    refine (hpair e e' hne).1 (Prod.ext ?_ ?_)
    · rw [← hs, ← hs, h1]
    · rw [← hd, ← hd, h2]
  have hsw : ∀ e e', ¬ (s e = d e' ∧ d e = s e') := by
    rintro e e' ⟨h1, h2⟩
    by_cases hne : e = e'
    · subst hne
      have := hw.noLoops _ (List.getElem_mem e.2)
      exact this (by
        show sc.edges[e].1 = sc.edges[e].2
        rw [← hs, ← hd, h1])
    · refine (hpair e e' hne).2 (Prod.ext ?_ ?_)
      · rw [Prod.fst_swap, ← hs, ← hd, h1]
      · rw [Prod.snd_swap, ← hs, ← hd, h2]
  have htri : ∀ t : Fin sc.T, ∃ ia ib ic : Fin sc.E, s ib = d ia ∧ s ic = s ia ∧ d ic = d ib ∧
      sc.triangles[t] = [((s ia : ℕ) : Int), ((d ia : ℕ) : Int), ((d ib : ℕ) : Int)] ∧
      sc.getCurl f t = f ia + f ib - f ic := by
    intro t
    obtain ⟨a, b, c, ia, ib, ic, h0, h1, h2, h3, hc⟩ := C16_curl_exact sc hw.built hw.noLoops f t
    obtain ⟨a', b', c', h0', m1, m2, m3⟩ := hw.oriented _ (List.getElem_mem t.2)
    have h0'' : sc.triangles[t] = [a', b', c'] := h0'
    rw [h0] at h0''
    simp only [List.cons.injEq, and_true] at h0''
    obtain ⟨rfl, rfl, rfl⟩ := h0''
    replace h1 : sc.edges[ia] = (a, b) := by rcases h1 with h | h; exacts [h, absurd m1 h.1]
    replace h2 : sc.edges[ib] = (b, c) := by rcases h2 with h | h; exacts [h, absurd m2 h.1]
    replace h3 : sc.edges[ic] = (a, c) := by rcases h3 with h | h; exacts [h, absurd m3 h.1]
    have e1 := hs ia; have e2 := hd ia; have e3 := hs ib; have e4 := hd ib; have e5 := hs ic; have e6 := hd ic
    rw [h1] at e1 e2
    rw [h2] at e3 e4
    rw [h3] at e5 e6
    dsimp only at e1 e2 e3 e4 e5 e6
    refine ⟨ia, ib, ic, Fin.ext (by omega), Fin.ext (by omega), Fin.ext (by omega), ?_, hc⟩
    rw [h0, e1, e2, e4]
  choose ia ib ic t1 t2 t3 t4 t5 using htri
  let p : Fin sc.T → Fin 3 → Fin sc.N := fun t => ![s (ia t), d (ia t), d (ib t)]
  refine ⟨s, d, p, fun e => Prod.ext (hs e).symm (hd e).symm, hinj, hsw, t4, ?_, ?_, ?_, ?_⟩
  · intro t t' h
    have g0 : s (ia t) = s (ia t') := congrFun h 0
    have g1 : d (ia t) = d (ia t') := congrFun h 1
    have g2 : d (ib t) = d (ib t') := congrFun h 2
    have := t4 t
    rw [g0, g1, g2, ← t4 t'] at this
    exact Fin.ext ((List.Nodup.getElem_inj_iff htr).1 this)
  · have h01 : ∀ t, ∃ e, s e = p t 0 ∧ d e = p t 1 := fun t => ⟨ia t, rfl, rfl⟩
    have h12 : ∀ t, ∃ e, s e = p t 1 ∧ d e = p t 2 := fun t => ⟨ib t, t1 t, rfl⟩
    have h02 : ∀ t, ∃ e, s e = p t 0 ∧ d e = p t 2 := fun t => ⟨ic t, t2 t, t3 t⟩
    intro t i j hij
    fin_cases i <;> fin_cases j <;> first | exact absurd hij (by decide) | exact h01 t | exact h12 t | exact h02 t
  · intro t
    show _ = anti s d f (s (ia t)) (d (ia t)) + anti s d f (d (ia t)) (d (ib t)) + anti s d f (d (ib t)) (s (ia t))
    rw [anti_edge hinj hsw, ← t1 t, anti_edge hinj hsw, ← t2 t, ← t3 t, anti_anti, anti_edge hinj hsw, t5 t]
    ring
  · intro v
    rw [anti_in, (C15_divergence sc hw.built hw.inRange hw.noLoops f).1 v, ← Finset.sum_sub_distrib]
    refine Finset.sum_congr rfl fun e _ => ?_
    have i1 : sc.edges[e].2 = ((v : ℕ) : Int) ↔ d e = v := by
      rw [← hd e, Nat.cast_inj, Fin.ext_iff]
    have i2 : sc.edges[e].1 = ((v : ℕ) : Int) ↔ s e = v := by
      rw [← hs e, Nat.cast_inj, Fin.ext_iff]
    simp only [i1, i2]
    split_ifs <;> ring

/-- C165: the squares of all divergences and all curls of a flow add up to at most the number of nodes times the squares
of the flow. -/
theorem C165_energy (hw : sc.WellFormed) (hn : NoRepeats sc.edges) (htr : sc.triangles.Nodup) (f : Fin sc.E → ℝ) :
    ∑ t, sc.getCurl f t ^ 2 + ∑ v, sc.getDivergence f v ^ 2 ≤ sc.nodes.length * ∑ e, f e ^ 2 := by
  obtain ⟨s, d, p, -, hinj, hsw, -, hp, hR, hc, hdv⟩ := complex_data hw hn htr f
  have h1 := triangles_total (anti_anti s d f) p hp (fun u v => ∃ e, s e = u ∧ d e = v)
    (by rintro u v ⟨e, rfl, rfl⟩ ⟨e', h1, h2⟩; exact hsw e' e ⟨h1, h2⟩) hR
  have h2 : ∑ x : Fin sc.T × Equiv.Perm (Fin 3), circ (anti s d f) (p x.1 ∘ x.2) ^ 2 ≤
      ∑ q, circ (anti s d f) q ^ 2 := by
    rw [← Finset.sum_image (f := fun q => circ (anti s d f) q ^ 2) (fun x _ y _ h => h1.1 h)]
    exact Finset.sum_le_sum_of_subset_of_nonneg (Finset.subset_univ _) fun _ _ _ => sq_nonneg _
  rw [h1.2, circ_total hinj hsw] at h2
  simp only [hc, hdv]
  show _ ≤ (sc.N : ℝ) * _
  linarith

/-- C165, equality: if moreover every three nodes are the vertices of a triangle, the two sides are equal. -/
theorem C165_energy_complete (hw : sc.WellFormed) (hn : NoRepeats sc.edges) (htr : sc.triangles.Nodup)
    (hall : ∀ u v w : Fin sc.nodes.length, u ≠ v → v ≠ w → u ≠ w →
      ∃ t ∈ sc.triangles, ((u : ℕ) : Int) ∈ t ∧ ((v : ℕ) : Int) ∈ t ∧ ((w : ℕ) : Int) ∈ t) (f : Fin sc.E → ℝ) :
    ∑ t, sc.getCurl f t ^ 2 + ∑ v, sc.getDivergence f v ^ 2 = sc.nodes.length * ∑ e, f e ^ 2 := by
  obtain ⟨s, d, p, -, hinj, hsw, ht, hp, hR, hc, hdv⟩ := complex_data hw hn htr f
  have h1 := triangles_total (anti_anti s d f) p hp (fun u v => ∃ e, s e = u ∧ d e = v)
    (by rintro u v ⟨e, rfl, rfl⟩ ⟨e', h1, h2⟩; exact hsw e' e ⟨h1, h2⟩) hR
  have hself : ∀ u, anti s d f u u = 0 := fun u => by have := anti_anti s d f u u; linarith
  have h2 : ∑ x : Fin sc.T × Equiv.Perm (Fin 3), circ (anti s d f) (p x.1 ∘ x.2) ^ 2 =
      ∑ q, circ (anti s d f) q ^ 2 := by
    rw [← Finset.sum_image (f := fun q => circ (anti s d f) q ^ 2) (fun x _ y _ h => h1.1 h)]
    refine Finset.sum_subset (Finset.subset_univ _) fun q _ hq => ?_
    by_cases g1 : q 0 = q 1
    · rw [circ, g1, hself, anti_anti s d f (q 2) (q 1)]; ring
    by_cases g2 : q 1 = q 2
    · rw [circ, g2, hself, anti_anti s d f (q 2) (q 0)]; ring
    by_cases g3 : q 0 = q 2
    · rw [circ, ← g3, hself, anti_anti s d f (q 1) (q 0)]; ring
    refine absurd ?_ hq
    obtain ⟨t', ht', m0, m1, m2⟩ := hall (q 0) (q 1) (q 2) g1 g2 g3
    obtain ⟨k, hk, rfl⟩ := List.getElem_of_mem ht'
    let t : Fin sc.T := ⟨k, hk⟩
    have hk' : sc.triangles[k] = _ := ht t
    rw [hk'] at m0 m1 m2
    have key : ∀ u : Fin sc.nodes.length, ((u : ℕ) : Int) ∈ [((p t 0 : ℕ) : Int), ((p t 1 : ℕ) : Int), ((p t 2 : ℕ) : Int)] →
        ∃ i, p t i = u := by
      intro u hu
      simp only [List.mem_cons, List.not_mem_nil, or_false, Nat.cast_inj] at hu
      rcases hu with h | h | h
      · exact ⟨0, Fin.ext h.symm⟩
      · exact ⟨1, Fin.ext h.symm⟩
      · exact ⟨2, Fin.ext h.symm⟩
    obtain ⟨i0, e0⟩ := key _ m0
    obtain ⟨i1, e1⟩ := key _ m1
    obtain ⟨i2, e2⟩ := key _ m2
    have hσ : Function.Injective (![i0, i1, i2] : Fin 3 → Fin 3) := by
      have d01 : i0 ≠ i1 := fun h => g1 (by rw [← e0, ← e1, h])
      have d12 : i1 ≠ i2 := fun h => g2 (by rw [← e1, ← e2, h])
      have d02 : i0 ≠ i2 := fun h => g3 (by rw [← e0, ← e2, h])
      intro a b hab
      fin_cases a <;> fin_cases b
      exacts [rfl, absurd hab d01, absurd hab d02, absurd hab d01.symm, rfl, absurd hab d12, absurd hab d02.symm,
        absurd hab d12.symm, rfl]
    refine Finset.mem_image.2 ⟨(t, Equiv.ofBijective _ (Finite.injective_iff_bijective.1 hσ)), Finset.mem_univ _, ?_⟩
    funext i
    fin_cases i
    · exact e0
    · exact e1
    · exact e2
  rw [h1.2, circ_total hinj hsw] at h2
  simp only [hc, hdv]
  show _ = (sc.N : ℝ) * _
  linarith

private theorem energy_eq (f : Fin sc.E → ℝ) : f ⬝ᵥ sc.L1.mulVec f =
    ∑ t, sc.getCurl f t ^ 2 + ∑ v, sc.getDivergence f v ^ 2 := by
  have h1 : sc.L1.mulVec f = sc.B1.transpose.mulVec (sc.getDivergence f) + sc.B2.mulVec (sc.getCurl f) := by
    show (sc.B1.transpose * sc.B1 + sc.B2 * sc.B2.transpose).mulVec f = _
    rw [add_mulVec, ← mulVec_mulVec, ← mulVec_mulVec]
    rfl
  have h2 : f ⬝ᵥ sc.B1.transpose.mulVec (sc.getDivergence f) = sc.getDivergence f ⬝ᵥ sc.getDivergence f := by
    rw [dotProduct_mulVec, vecMul_transpose]; rfl
  have h3 : f ⬝ᵥ sc.B2.mulVec (sc.getCurl f) = sc.getCurl f ⬝ᵥ sc.getCurl f := by
    rw [dotProduct_mulVec, ← mulVec_transpose]; rfl
  rw [h1, dotProduct_add, h2, h3, add_comm]
  simp only [dotProduct, sq]

private theorem dot_pos {v : Fin n → ℝ} (hv : v ≠ 0) : 0 < ∑ i, v i ^ 2 := by
  obtain ⟨i, hi⟩ := Function.ne_iff.1 hv
  exact lt_of_lt_of_le (by have : v i ≠ 0 := hi; positivity)
    (Finset.single_le_sum (f := fun i => v i ^ 2) (fun i _ => sq_nonneg _) (Finset.mem_univ i))

/-- C165: no Hodge frequency exceeds the number of nodes. -/
theorem C165_hodge (hw : sc.WellFormed) (hn : NoRepeats sc.edges) (htr : sc.triangles.Nodup) {lam : ℝ}
    (h : IsEigenvalue sc.L1 lam) : 0 ≤ lam ∧ lam ≤ sc.nodes.length := by
  obtain ⟨v, hv, hl⟩ := h
  have h1 := energy_eq v
  have h2 : v ⬝ᵥ sc.L1.mulVec v = lam * ∑ e, v e ^ 2 := by
    rw [hl, dotProduct_smul, smul_eq_mul]; simp only [dotProduct, sq]
  have h3 := C165_energy hw hn htr v
  have h4 := dot_pos hv
  rw [h2] at h1
  constructor
  · by_contra hneg
    have h5 : 0 ≤ ∑ t, sc.getCurl v t ^ 2 + ∑ u, sc.getDivergence v u ^ 2 :=
      add_nonneg (Finset.sum_nonneg fun _ _ => sq_nonneg _) (Finset.sum_nonneg fun _ _ => sq_nonneg _)
    nlinarith
  · rw [← h1] at h3
    exact le_of_mul_le_mul_right h3 h4

/-- C165: on the complex of all edges and all triangles every Hodge frequency is the number of nodes. -/
theorem C165_hodge_complete (hw : sc.WellFormed) (hn : NoRepeats sc.edges) (htr : sc.triangles.Nodup)
    (hall : ∀ u v w : Fin sc.nodes.length, u ≠ v → v ≠ w → u ≠ w →
      ∃ t ∈ sc.triangles, ((u : ℕ) : Int) ∈ t ∧ ((v : ℕ) : Int) ∈ t ∧ ((w : ℕ) : Int) ∈ t) {lam : ℝ}
    (h : IsEigenvalue sc.L1 lam) : lam = sc.nodes.length := by
  obtain ⟨v, hv, hl⟩ := h
  have h1 := energy_eq v
  have h2 : v ⬝ᵥ sc.L1.mulVec v = lam * ∑ e, v e ^ 2 := by
    rw [hl, dotProduct_smul, smul_eq_mul]; simp only [dotProduct, sq]
  rw [h2, C165_energy_complete hw hn htr hall v] at h1
  exact mul_right_cancel₀ (dot_pos hv).ne' h1

/-! ## Degrees -/

private theorem sign_bound {B : Matrix (Fin m) (Fin n) ℝ} (hB : ∀ i j, B i j ^ 3 = B i j) {c r : ℝ} (hc0 : 0 ≤ c)
    (hc : ∀ j, ∑ i, B i j ^ 2 ≤ c) (hr : ∀ i, ∑ j, B i j ^ 2 ≤ r) (x : Fin m → ℝ) :
    ∑ j, B.transpose.mulVec x j ^ 2 ≤ c * r * ∑ i, x i ^ 2 := by
  have h1 : ∀ j, B.transpose.mulVec x j ^ 2 ≤ c * ∑ i, x i ^ 2 * B i j ^ 2 := by
    intro j
    have e : B.transpose.mulVec x j = ∑ i, (B i j ^ 2) * (x i * B i j) := by
      rw [mulVec, dotProduct]
      refine Finset.sum_congr rfl fun i _ => ?_
      rw [transpose_apply]
      linear_combination (-x i) * hB i j
    rw [e]
    refine (Finset.sum_mul_sq_le_sq_mul_sq _ _ _).trans ?_
    have e1 : ∑ i, (B i j ^ 2) ^ 2 = ∑ i, B i j ^ 2 :=
      Finset.sum_congr rfl fun i _ => by linear_combination B i j * hB i j
    have e2 : ∑ i, (x i * B i j) ^ 2 = ∑ i, x i ^ 2 * B i j ^ 2 := Finset.sum_congr rfl fun i _ => mul_pow _ _ _
    rw [e1, e2]
    exact mul_le_mul_of_nonneg_right (hc j) (Finset.sum_nonneg fun _ _ => by positivity)
  calc ∑ j, B.transpose.mulVec x j ^ 2 ≤ ∑ j, c * ∑ i, x i ^ 2 * B i j ^ 2 := Finset.sum_le_sum fun j _ => h1 j
    _ = c * ∑ i, x i ^ 2 * ∑ j, B i j ^ 2 := by
        rw [← Finset.mul_sum, Finset.sum_comm]
        simp only [Finset.mul_sum]
    _ ≤ c * ∑ i, x i ^ 2 * r :=
        mul_le_mul_of_nonneg_left (Finset.sum_le_sum fun i _ => mul_le_mul_of_nonneg_left (hr i) (sq_nonneg _)) hc0
    _ = c * r * ∑ i, x i ^ 2 := by rw [← Finset.sum_mul]; ring

private theorem b1_facts (hs : sc.OnSimpleGraph) : (∀ i j, sc.B1 i j ^ 3 = sc.B1 i j) ∧
    (∀ j, ∑ i, sc.B1 i j ^ 2 = 2) ∧ ∀ i : Fin sc.N, ∑ j, sc.B1 i j ^ 2 = (degreeOf sc.edges ((i : ℕ) : Int) : ℝ) := by
  refine ⟨fun i j => ?_, fun j => ?_, fun i => ?_⟩
  · rw [hs.built.b1_entry hs.inRange hs.noLoops]
    split_ifs <;> norm_num
  · have := (C119_lower_cases sc hs j j).1 rfl
    rw [← this]
    show _ = ∑ i, sc.B1.transpose j i * sc.B1 i j
    exact Finset.sum_congr rfl fun i _ => by rw [transpose_apply, sq]
  · rw [← (C09_laplacian_exact sc hs).2.1 i]
    show _ = ∑ j, sc.B1 i j * sc.B1.transpose j i
    exact Finset.sum_congr rfl fun j _ => by rw [transpose_apply, sq]

private theorem b2_facts (hs : sc.OnSimpleGraph) : (∀ i j, sc.B2 i j ^ 3 = sc.B2 i j) ∧
    (∀ t, ∑ i, sc.B2 i t ^ 2 = 3) ∧
    ∀ i : Fin sc.E, ∑ t, sc.B2 i t ^ 2 = ((sc.triangles.filter fun t => IsSide t sc.edges[i]).length : ℝ) := by
  refine ⟨fun i t => ?_, fun t => ?_, fun i => ?_⟩
  · obtain ⟨a, b, c, ia, ib, ic, -, -, -, -, hB⟩ := hs.built.tri_entry t
    rw [hB]
    split_ifs <;> norm_num
  · obtain ⟨a, b, c, ia, ib, ic, h0, h1, h2, h3, hB⟩ := hs.built.tri_entry t
    obtain ⟨d1, d2, d3, -⟩ := triRows_distinct hs.noLoops h1 h2 h3
    have := sum_b2_col (fun i => sc.B2 i t) (fun i => sc.B2 i t) d1 d2 d3 hB
    simp only [sq]
    rw [this, hB ia, hB ib, hB ic]
    simp [d1, d2, d3.symm]
    norm_num
  · rw [← (C119_upper_cases sc hs i i).1]
    show _ = ∑ t, sc.B2 i t * sc.B2.transpose t i
    exact Finset.sum_congr rfl fun t _ => by rw [transpose_apply, sq]

private theorem gram_eigen {B : Matrix (Fin m) (Fin n) ℝ} {lam K : ℝ}
    (hb : ∀ x, ∑ j, B.transpose.mulVec x j ^ 2 ≤ K * ∑ i, x i ^ 2) (h : IsEigenvalue (B * B.transpose) lam) : lam ≤ K := by
  obtain ⟨v, hv, hl⟩ := h
  have h1 : ∑ j, B.transpose.mulVec v j ^ 2 = lam * ∑ i, v i ^ 2 := by
    have e : B.transpose.mulVec v ⬝ᵥ B.transpose.mulVec v = v ⬝ᵥ (B * B.transpose).mulVec v := by
      rw [← mulVec_mulVec, dotProduct_mulVec v B, ← mulVec_transpose]
    rw [hl, dotProduct_smul, smul_eq_mul] at e
    simpa only [dotProduct, sq] using e
  have h2 := hb v
  rw [h1] at h2
  exact le_of_mul_le_mul_right h2 (dot_pos hv)

/-- C165: if no node has more than `D` edges, no frequency of the graph Laplacian and of the lower Laplacian exceeds `2 D`. -/
theorem C165_degree (hs : sc.OnSimpleGraph) {D : ℕ} (hD : ∀ v : Fin sc.nodes.length, degreeOf sc.edges ((v : ℕ) : Int) ≤ D)
    {lam : ℝ} (h : IsEigenvalue sc.L0 lam ∨ IsEigenvalue sc.L1l lam) : lam ≤ 2 * D := by
  obtain ⟨f1, f2, f3⟩ := b1_facts hs
  have hr : ∀ i : Fin sc.N, ∑ j, sc.B1 i j ^ 2 ≤ (D : ℝ) := fun i => by rw [f3]; exact_mod_cast hD i
  rcases h with h | h
  · exact gram_eigen (sign_bound f1 (by norm_num) (fun j => (f2 j).le) hr) h
  · have := gram_eigen (B := sc.B1.transpose) (lam := lam) (K := D * 2)
      (sign_bound (fun i j => f1 j i) (Nat.cast_nonneg _) hr (fun j => (f2 j).le)) (by rw [transpose_transpose]; exact h)
    linarith

/-- C165: if no edge is a side of more than `M` triangles, no frequency of the upper Laplacian and of the triangle Laplacian
exceeds `3 M`. -/
theorem C165_triangles (hs : sc.OnSimpleGraph) {M : ℕ}
    (hM : ∀ e ∈ sc.edges, (sc.triangles.filter fun t => IsSide t e).length ≤ M)
    {lam : ℝ} (h : IsEigenvalue sc.L1u lam ∨ IsEigenvalue sc.L2l lam) : lam ≤ 3 * M := by
  obtain ⟨f1, f2, f3⟩ := b2_facts hs
  have hr : ∀ i : Fin sc.E, ∑ j, sc.B2 i j ^ 2 ≤ (M : ℝ) := fun i => by
    rw [f3]; exact_mod_cast hM _ (List.getElem_mem _)
  rcases h with h | h
  · exact gram_eigen (sign_bound f1 (by norm_num) (fun j => (f2 j).le) hr) h
  · have := gram_eigen (B := sc.B2.transpose) (lam := lam) (K := M * 3)
      (sign_bound (fun i j => f1 j i) (Nat.cast_nonneg _) hr (fun j => (f2 j).le)) (by rw [transpose_transpose]; exact h)
    linarith

/-- C165: the Hodge frequencies of a well-formed complex obey the larger of the two bounds. -/
theorem C165_hodge_degree (hw : sc.WellFormed) (hs : sc.OnSimpleGraph) {D M : ℕ}
    (hD : ∀ v : Fin sc.nodes.length, degreeOf sc.edges ((v : ℕ) : Int) ≤ D)
    (hM : ∀ e ∈ sc.edges, (sc.triangles.filter fun t => IsSide t e).length ≤ M)
    {lam : ℝ} (h : IsEigenvalue sc.L1 lam) : lam ≤ max (2 * (D : ℝ)) (3 * M) := by
  obtain ⟨v, hv, hl⟩ := h
  have h12 := hw.b1_mul_b2
  have hL : sc.L1.mulVec v = sc.B1.transpose.mulVec (sc.B1.mulVec v) + sc.B2.mulVec (sc.B2.transpose.mulVec v) := by
    show (sc.B1.transpose * sc.B1 + sc.B2 * sc.B2.transpose).mulVec v = _
    rw [add_mulVec, ← mulVec_mulVec, ← mulVec_mulVec]
  by_cases h0 : sc.B1.mulVec v = 0
  · refine le_max_of_le_right (C165_triangles hs hM (.inl ⟨v, hv, ?_⟩))
    rw [h0, mulVec_zero, zero_add] at hL
    rw [← hl, hL]
    show (sc.B2 * sc.B2.transpose).mulVec v = _
    rw [← mulVec_mulVec]
  · refine le_max_of_le_left (C165_degree hs hD (.inl ⟨_, h0, ?_⟩))
    show (sc.B1 * sc.B1.transpose).mulVec (sc.B1.mulVec v) = _
    have := congrArg sc.B1.mulVec hL
    rw [hl, mulVec_smul, mulVec_add, mulVec_mulVec _ sc.B1 sc.B2, h12, zero_mulVec, add_zero] at this
    rw [this, ← mulVec_mulVec]

/-- C165: the frequencies add up to twice the number of edges plus three times the number of triangles. -/
theorem C165_sum (hs : sc.OnSimpleGraph) (hgap : NoSmallEigenvalue sc.L1 (1 / 1000)) {U : Matrix (Fin sc.E) (Fin sc.E) ℝ}
    {w : Fin sc.E → ℝ} (h : getEigendecomposition lib (.ndarray sc.L1) = .ok (U, w)) :
    ∑ i, w i = 2 * sc.edges.length + 3 * sc.triangles.length := by
  have hE : 0 < sc.E := by
    by_contra h0
    have h0' : sc.E = 0 := by omega
    simp only [getEigendecomposition, h0', if_true] at h
    cases h
  rw [getEigendecomposition_dense lib hE, snap_eq lib (symmPSD_L1 sc) machineEps_le hgap] at h
  have hw : (lib.eigh sc.E sc.L1).1 = w := congrArg Prod.snd (Except.ok.inj h)
  have hI := lib.isEig (symmPSD_L1 sc)
  rw [hw] at hI
  have h1 : Matrix.trace sc.L1 = ∑ i, w i := by
    conv_lhs => rw [hI.recon]
    rw [Matrix.mul_assoc, Matrix.trace_mul_comm, Matrix.mul_assoc, hI.orth, Matrix.mul_one, Matrix.trace_diagonal]
  rw [← h1]
  show Matrix.trace (sc.B1.transpose * sc.B1 + sc.B2 * sc.B2.transpose) = _
  rw [Matrix.trace_add, Matrix.trace_mul_comm sc.B2]
  have t1 : Matrix.trace (sc.B1.transpose * sc.B1) = ∑ j, ∑ i, sc.B1 i j ^ 2 := by
    rw [Matrix.trace]
    refine Finset.sum_congr rfl fun j _ => ?_
    rw [Matrix.diag_apply, Matrix.mul_apply]
    exact Finset.sum_congr rfl fun i _ => by rw [transpose_apply, sq]
  have t2 : Matrix.trace (sc.B2.transpose * sc.B2) = ∑ j, ∑ i, sc.B2 i j ^ 2 := by
    rw [Matrix.trace]
    refine Finset.sum_congr rfl fun j _ => ?_
    rw [Matrix.diag_apply, Matrix.mul_apply]
    exact Finset.sum_congr rfl fun i _ => by rw [transpose_apply, sq]
  rw [t1, t2]
  simp only [(b1_facts hs).2.1, (b2_facts hs).2.1, Finset.sum_const, Finset.card_univ, Fintype.card_fin, nsmul_eq_mul]
  ring

/-- C165: so the largest frequency is at least `2 + 3 T / E`. -/
theorem C165_largest (hs : sc.OnSimpleGraph) (hgap : NoSmallEigenvalue sc.L1 (1 / 1000)) {U : Matrix (Fin sc.E) (Fin sc.E) ℝ}
    {w : Fin sc.E → ℝ} (h : getEigendecomposition lib (.ndarray sc.L1) = .ok (U, w)) :
    ∃ i, 2 + 3 * (sc.triangles.length : ℝ) / sc.edges.length ≤ w i := by
  have hE : 0 < sc.E := by
    by_contra h0
    have h0' : sc.E = 0 := by omega
    simp only [getEigendecomposition, h0', if_true] at h
    cases h
  have hsum := C165_sum hs hgap h
  by_contra hne
  push Not at hne
  have hpos : (0 : ℝ) < sc.edges.length := by exact_mod_cast hE
  have h1 : ∑ i, w i < ∑ _i : Fin sc.E, (2 + 3 * (sc.triangles.length : ℝ) / sc.edges.length) :=
    Finset.sum_lt_sum_of_nonempty ⟨⟨0, hE⟩, Finset.mem_univ _⟩ fun i _ => hne i
  rw [hsum, Finset.sum_const, Finset.card_univ, Fintype.card_fin, nsmul_eq_mul] at h1
  have h2 : (sc.E : ℝ) * (2 + 3 * (sc.triangles.length : ℝ) / sc.edges.length) =
      2 * sc.edges.length + 3 * sc.triangles.length := by
    show (sc.edges.length : ℝ) * _ = _
    field_simp
  rw [h2] at h1
  exact lt_irrefl _ h1

/-- The hypotheses hold for four pairwise joined nodes with one filled triangle: at most 4 (here the other bounds give 6). -/
example {lam : ℝ} (h : IsEigenvalue k4Tri.L1 lam) : lam ≤ 4 := by
  have hn : NoRepeats k4Tri.edges := by
    show NoRepeats [(0, 1), (0, 2), (0, 3), (1, 2), (1, 3), (2, 3)]
    decide
  have := (C165_hodge k4Tri_wellFormed hn (List.nodup_singleton _) h).2
  have e : (k4Tri.nodes.length : ℝ) = 4 := by
    show (([0, 1, 2, 3] : List Int).length : ℝ) = 4
    norm_num
  rwa [e] at this

/-- ... and 4 is one of its frequencies, so the bound is attained. -/
example : IsEigenvalue k4Tri.L1 4 := by
  have := isEigenvalue_int (k4B1.transpose * k4B1 + k4B2 * k4B2.transpose) ![0, 0, 1, 0, 1, 1] 4 2 (by decide)
    (by decide +kernel)
  have e : k4Tri.L1 = (k4B1.transpose * k4B1 + k4B2 * k4B2.transpose).map (Int.cast : ℤ → ℝ) := by
    rw [Matrix.map_add _ (fun a b => Int.cast_add a b)]
    have e1 : k4Tri.L1l = (k4B1.transpose * k4B1).map (Int.cast : ℤ → ℝ) := SC.ofInt_L1l ..
    have e2 : k4Tri.L1u = (k4B2 * k4B2.transpose).map (Int.cast : ℤ → ℝ) := SC.ofInt_L1u ..
    exact congrArg₂ (· + ·) e1 e2
  rw [e]
  exact_mod_cast this

/-- In a filled triangle every three nodes are the vertices of a triangle, so every frequency is 3. -/
example {lam : ℝ} (h : IsEigenvalue tri.L1 lam) : lam = 3 := by
  have hn : NoRepeats tri.edges := by
    show NoRepeats [(0, 1), (0, 2), (1, 2)]
    decide
  have := C165_hodge_complete tri_wellFormed hn (List.nodup_singleton _) (by
    show ∀ u v w : Fin 3, u ≠ v → v ≠ w → u ≠ w → ∃ t ∈ ([[0, 1, 2]] : List (List Int)), ((u : ℕ) : Int) ∈ t ∧
      ((v : ℕ) : Int) ∈ t ∧ ((w : ℕ) : Int) ∈ t
    decide) h
  have e : (tri.nodes.length : ℝ) = 3 := by
    show (([0, 1, 2] : List Int).length : ℝ) = 3
    norm_num
  rwa [e] at this

end Pytspl
