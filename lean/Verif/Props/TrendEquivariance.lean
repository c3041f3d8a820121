import Verif.Props.TrendWeights
import Verif.Props.FilterEquivariance

/-!
# C135: trend filters under a renumbering of the complex
-/

namespace Pytspl

open Matrix

variable {E E' : ℕ} {α β γ : Type}

/-! ## The specification -/

/-- Two histories with the same results, edge `k` of the first complex being edge `σ k` of the second. -/
structure SameTrend (σ : Fin E ≃ Fin E') (h : TrendHistory E) (h' : TrendHistory E') : Prop where
  filter : Option.Rel (fun M M' => ∀ i j, M' (σ i) (σ j) = M i j) h.filter h'.filter
  flows : Option.Rel (List.Forall₂ (List.Forall₂ fun x x' => ∀ k, x' (σ k) = x k)) h.frequencyResponses
    h'.frequencyResponses
  component : h.componentFlow = h'.componentFlow
  errors : h.errors = h'.errors
  correlations : h.correlations = h'.correlations

/-! ## Vectors and matrices -/

private theorem vecs {σ : Fin E ≃ Fin E'} {f : Fin E → ℝ} {f' : Fin E' → ℝ} (h : ∀ k, f' (σ k) = f k) :
    f' = fun k => f (σ.symm k) := by
  funext k
  rw [← h, Equiv.apply_symm_apply]

private theorem mats {m m' : ℕ} {ρ : Fin m ≃ Fin m'} {σ : Fin E ≃ Fin E'} {M : Matrix (Fin m) (Fin E) ℝ}
    {M' : Matrix (Fin m') (Fin E') ℝ} (h : ∀ i j, M' (ρ i) (σ j) = M i j) : M' = M.submatrix ρ.symm σ.symm := by
  ext i j
  rw [submatrix_apply, ← h, Equiv.apply_symm_apply, Equiv.apply_symm_apply]

private theorem apply_same {m m' : ℕ} {ρ : Fin m ≃ Fin m'} {σ : Fin E ≃ Fin E'} {M : Matrix (Fin m) (Fin E) ℝ}
    {M' : Matrix (Fin m') (Fin E') ℝ} (h : ∀ i j, M' (ρ i) (σ j) = M i j) {f : Fin E → ℝ} {f' : Fin E' → ℝ}
    (hf : ∀ k, f' (σ k) = f k) (k : Fin m) : M'.mulVec f' (ρ k) = M.mulVec f k := by
  have e1 : M'.mulVec f' (ρ k) = ∑ j, M' (ρ k) j * f' j := rfl
  have e2 : M.mulVec f k = ∑ j, M k j * f j := rfl
  rw [e1, e2]
  exact (Fintype.sum_equiv σ _ _ fun j => by rw [h, hf]).symm

private theorem length_same {σ : Fin E ≃ Fin E'} {f : Fin E → ℝ} {f' : Fin E' → ℝ} (hf : ∀ k, f' (σ k) = f k) :
    norm2 f' = norm2 f := by
  have : f' ⬝ᵥ f' = f ⬝ᵥ f := (Fintype.sum_equiv σ _ _ fun k => by rw [hf]).symm
  unfold norm2
  rw [this]

private theorem sum_same {σ : Fin E ≃ Fin E'} {f : Fin E → ℝ} {f' : Fin E' → ℝ} (hf : ∀ k, f' (σ k) = f k) :
    norm1 f' = norm1 f := (Fintype.sum_equiv σ _ _ fun k => by rw [hf]).symm

private theorem card_same (σ : Fin E ≃ Fin E') : E = E' := by simpa using Fintype.card_congr σ

private theorem cast_same (σ : Fin E ≃ Fin E') : (E' : ℝ) = E := by rw [card_same σ]

private theorem corr_same {σ : Fin E ≃ Fin E'} {f t : Fin E → ℝ} {f' t' : Fin E' → ℝ} (hf : ∀ k, f' (σ k) = f k)
    (ht : ∀ k, t' (σ k) = t k) : calculateCorrelation f t = calculateCorrelation f' t' := by
  have hm : ∀ {g : Fin E → ℝ} {g' : Fin E' → ℝ}, (∀ k, g' (σ k) = g k) → meanVec g' = meanVec g := by
    intro g g' hg
    unfold meanVec
    rw [show ∑ i, g' i = ∑ i, g i from (Fintype.sum_equiv σ _ _ fun k => by rw [hg]).symm, cast_same σ]
  have hc : ∀ {g : Fin E → ℝ} {g' : Fin E' → ℝ}, (∀ k, g' (σ k) = g k) →
      ∀ k, (fun i => g' i - meanVec g') (σ k) = (fun i => g i - meanVec g) k := by
    intro g g' hg k
    simp only [hg, hm hg]
  unfold calculateCorrelation
  simp only
  rw [length_same (σ := σ) (f := fun i => f i - meanVec f) (f' := fun i => f' i - meanVec f') (hc hf),
    length_same (σ := σ) (f := fun i => t i - meanVec t) (f' := fun i => t' i - meanVec t') (hc ht)]
  congr 1
  exact Fintype.sum_equiv σ _ _ fun k => by
    rw [hc hf k, hc ht k]

private theorem error_same {σ : Fin E ≃ Fin E'} {f t : Fin E → ℝ} {f' t' : Fin E' → ℝ} (hf : ∀ k, f' (σ k) = f k)
    (ht : ∀ k, t' (σ k) = t k) : calculateErrorNRMSE f t = calculateErrorNRMSE f' t' := by
  unfold calculateErrorNRMSE
  rw [length_same ht, length_same (f := f - t) (f' := f' - t') (σ := σ) fun k => by
    rw [Pi.sub_apply, Pi.sub_apply, hf, ht]]

private theorem each_same {R : β → γ → Prop} {k : α → Py β} {k' : α → Py γ} (l : List α)
    (h : ∀ a, SameOutcome R (k a) (k' a)) : SameOutcome (List.Forall₂ R) (l.mapM k) (l.mapM k') := by
  induction l with
  | nil => exact .nil
  | cons a l ih =>
    rw [List.mapM_cons, List.mapM_cons]
    exact (h a).bind fun b c hbc => ih.bind fun bs cs hs => .cons hbc hs

/-- two passes with the same results -/
private structure SameTrendPass (σ : Fin E ≃ Fin E') (a : TrendPass E) (b : TrendPass E') : Prop where
  x : ∀ k, b.x (σ k) = a.x k
  err : a.err = b.err
  comp : a.comp = b.comp
  corr : a.corr = b.corr

private theorem history_same {sc sc' : SC ℝ} {σ : Fin sc.E ≃ Fin sc'.E} {o : Option (Matrix (Fin sc.E) (Fin sc.E) ℝ)}
    {o' : Option (Matrix (Fin sc'.E) (Fin sc'.E) ℝ)} (ho : Option.Rel (fun M M' => ∀ i j, M' (σ i) (σ j) = M i j) o o')
    {g : List (List (TrendPass sc.E))} {g' : List (List (TrendPass sc'.E))}
    (hg : List.Forall₂ (List.Forall₂ (SameTrendPass σ)) g g') :
    SameTrend σ (sc.trendHistory o g) (sc'.trendHistory o' g') := by
  have one : ∀ {δ : Type} (p : TrendPass sc.E → δ) (p' : TrendPass sc'.E → δ),
      (∀ a b, SameTrendPass σ a b → p a = p' b) → ∀ {r r'}, List.Forall₂ (SameTrendPass σ) r r' → r.map p = r'.map p' := by
    intro δ p p' hp r r' hr
    induction hr with
    | nil => rfl
    | cons h1 _ ih => rw [List.map_cons, List.map_cons, hp _ _ h1, ih]
  have all : ∀ (p : TrendPass sc.E → Option ℝ) (p' : TrendPass sc'.E → Option ℝ),
      (∀ a b, SameTrendPass σ a b → p a = p' b) →
      g.map (fun row => npMean (row.map p)) = g'.map fun row => npMean (row.map p') := by
    intro p p' hp
    induction hg with
    | nil => rfl
    | cons h1 _ ih => rw [List.map_cons, List.map_cons, one p p' hp h1, ih]
  refine ⟨ho, .some ?_, congrArg some (all _ _ fun a b h => by rw [h.comp]),
    congrArg some (all _ _ fun a b h => h.err), congrArg some (all _ _ fun a b h => h.corr)⟩
  rw [List.forall₂_map_left_iff, List.forall₂_map_right_iff]
  refine hg.imp fun r r' hr => ?_
  rw [List.forall₂_map_left_iff, List.forall₂_map_right_iff]
  exact hr.imp fun a b h => h.x

variable {sc sc' : SC ℝ} {π : Fin sc.nodes.length ≃ Fin sc'.nodes.length}
  {σ : Fin sc.edges.length ≃ Fin sc'.edges.length} {τ : Fin sc.triangles.length ≃ Fin sc'.triangles.length}

private theorem pass_same (r : Renumbered sc sc' π σ τ) (h : sc.OnSimpleGraph) (hb : sc'.Built) (lib : NumLib)
    (component : String) {f x : Fin sc.E → ℝ} {f' x' : Fin sc'.E → ℝ} (hf : ∀ k, f' (σ k) = f k)
    (hx : ∀ k, x' (σ k) = x k) :
    SameOutcome (SameTrendPass (E := sc.E) (E' := sc'.E) σ) (sc.trendPass component f x)
      (sc'.trendPass component f' x') := by
  obtain ⟨d, c, -⟩ := C99_flows r h hb lib x x' hx
  have hn : SameOutcome Eq (sc.componentNorm component x) (sc'.componentNorm component x') := by
    unfold SC.componentNorm
    split_ifs
    · exact (length_same (E := sc.N) (E' := sc'.N) (σ := π) d).symm
    · exact (length_same (E := sc.T) (E' := sc'.T) (σ := τ) c).symm
    · rfl
  refine hn.bind fun a b hab => ?_
  exact ⟨hx, error_same (E := sc.E) (E' := sc'.E) (σ := σ) hx hf, hab,
    corr_same (E := sc.E) (E' := sc'.E) (σ := σ) hf hx⟩

private theorem noisy_same (σ : Fin sc.E ≃ Fin sc'.E) {f n : Fin sc.E → ℝ} {f' n' : Fin sc'.E → ℝ}
    (hf : ∀ k, f' (σ k) = f k) (hn : ∀ k, n' (σ k) = n k) (p : Option ℝ) (k : Fin sc.E) :
    sc'.noisyFlow f' p n' (σ k) = sc.noisyFlow f p n k := by
  unfold SC.noisyFlow
  rw [Pi.add_apply, Pi.add_apply, Pi.smul_apply, Pi.smul_apply, hf, hn]

private theorem powers_same (σ : Fin sc.E ≃ Fin sc'.E) {f : Fin sc.E → ℝ} {f' : Fin sc'.E → ℝ}
    (hf : ∀ k, f' (σ k) = f k) (snrDb : List ℝ) : sc'.getPowerNoise f' snrDb = sc.getPowerNoise f snrDb := by
  unfold SC.getPowerNoise
  rw [length_same hf, cast_same σ]

private theorem inv_same (σ : Fin E ≃ Fin E') {P : Matrix (Fin E) (Fin E) ℝ} {P' : Matrix (Fin E') (Fin E') ℝ}
    (hP : ∀ i j, P' (σ i) (σ j) = P i j) (mu : ℝ) :
    SameOutcome (fun M M' => ∀ i j, M' (σ i) (σ j) = M i j) (npInv (1 + mu • P)) (npInv (1 + mu • P')) := by
  have hM : ∀ i j, (1 + mu • P') (σ i) (σ j) = (1 + mu • P) i j := by
    intro i j
    rw [Matrix.add_apply, Matrix.add_apply, Matrix.smul_apply, Matrix.smul_apply, hP]
    simp [Matrix.one_apply]
  have hdet : (1 + mu • P').det = (1 + mu • P).det := by
    rw [mats hM]
    exact Matrix.det_submatrix_equiv_self σ.symm _
  unfold npInv
  rw [hdet]
  split_ifs with h0
  · rfl
  intro i j
  rw [mats hM, Matrix.inv_submatrix_equiv]
  simp

private theorem last_same {R : α → β → Prop} {l : List α} {l' : List β} (h : List.Forall₂ R l l') :
    Option.Rel R l.getLast? l'.getLast? := by
  have h' := List.forall₂_reverse_iff.2 h
  rw [← List.head?_reverse, ← List.head?_reverse]
  generalize l.reverse = a at h' ⊢
  generalize l'.reverse = b at h' ⊢
  cases h' with
  | nil => exact .none
  | cons h1 _ => exact .some h1

private theorem flatten_same {R : α → β → Prop} {l : List (List α)} {l' : List (List β)}
    (h : List.Forall₂ (List.Forall₂ R) l l') : List.Forall₂ R l.flatten l'.flatten := by
  induction h with
  | nil => exact .nil
  | cons h1 _ ih =>
    rw [List.flatten_cons, List.flatten_cons]
    exact List.rel_append h1 ih

/-- C135: the l2 filter on two numberings of one complex, with the same flow and the same noise: both calls raise the
same exception or both return, and the histories hold the same filter, flows, norms, errors and correlations. -/
theorem C135_l2 (r : Renumbered sc sc' π σ τ) (h : sc.OnSimpleGraph) (hb : sc'.Built) {f : Fin sc.E → ℝ}
    {f' : Fin sc'.E → ℝ} (hf : ∀ k, f' (σ k) = f k) {st : TrendHistory sc.E} {st' : TrendHistory sc'.E}
    (hst : SameTrend (E := sc.E) (E' := sc'.E) σ st st') (component : String) (realisations : ℕ) (snrDb : List ℝ)
    (mu : ℝ) {noise : ℕ → ℕ → Fin sc.E → ℝ} {noise' : ℕ → ℕ → Fin sc'.E → ℝ}
    (hn : ∀ i j k, noise' i j (σ k) = noise i j k) :
    SameOutcome Eq (sc.denoisingL2 st f component realisations snrDb mu noise).1
      (sc'.denoisingL2 st' f' component realisations snrDb mu noise').1 ∧
    SameTrend (E := sc.E) (E' := sc'.E) σ (sc.denoisingL2 st f component realisations snrDb mu noise).2
      (sc'.denoisingL2 st' f' component realisations snrDb mu noise').2 := by
  obtain ⟨lib⟩ := NumLib.exists
  obtain ⟨-, l1, -⟩ := C99_laplacians r h hb
  have key : SameOutcome (SameTrend (E := sc.E) (E' := sc'.E) σ) (sc.l2Design f component realisations snrDb mu noise)
      (sc'.l2Design f' component realisations snrDb mu noise') := by
    unfold SC.l2Design
    rw [powers_same (sc := sc) (sc' := sc') σ hf]
    refine (SameOutcome.refl _).bind fun _ _ _ => ?_
    refine SameOutcome.bind (R := List.Forall₂ (List.Forall₂ fun (a : Matrix (Fin sc.E) (Fin sc.E) ℝ × TrendPass sc.E)
        (b : Matrix (Fin sc'.E) (Fin sc'.E) ℝ × TrendPass sc'.E) => (∀ i j, b.1 (σ i) (σ j) = a.1 i j) ∧
          SameTrendPass (E := sc.E) (E' := sc'.E) σ a.2 b.2)) (each_same _ fun pi => each_same _ fun j => ?_) ?_
    · refine (inv_same (E := sc.E) (E' := sc'.E) σ l1 mu).bind fun H H' hH => ?_
      refine (pass_same r h hb lib component hf (apply_same (E := sc.E) (E' := sc'.E) (m := sc.E) (m' := sc'.E) hH
        (noisy_same (sc := sc) (sc' := sc') σ hf (hn _ _) _))).bind fun a b hab => ⟨hH, hab⟩
    · intro g g' hg
      have hl := last_same (flatten_same hg)
      cases e : g.flatten.getLast? with
      | none =>
        cases e' : g'.flatten.getLast? with
        | none => exact rfl
        | some b => rw [e, e'] at hl; cases hl
      | some a =>
        cases e' : g'.flatten.getLast? with
        | none => rw [e, e'] at hl; cases hl
        | some b =>
          rw [e, e'] at hl
          cases hl with
          | some hab =>
            refine history_same (sc := sc) (sc' := sc') (.some hab.1) ?_
            rw [List.forall₂_map_left_iff, List.forall₂_map_right_iff]
            refine hg.imp fun r r' hr => ?_
            rw [List.forall₂_map_left_iff, List.forall₂_map_right_iff]
            exact hr.imp fun a b h => h.2
  unfold SC.denoisingL2 SC.commitHistory
  cases e : sc.l2Design f component realisations snrDb mu noise with
  | error x =>
    cases e' : sc'.l2Design f' component realisations snrDb mu noise' with
    | error x' => rw [e, e'] at key; exact ⟨key, hst⟩
    | ok y' => rw [e, e'] at key; exact key.elim
  | ok y =>
    cases e' : sc'.l2Design f' component realisations snrDb mu noise' with
    | error x' => rw [e, e'] at key; exact key.elim
    | ok y' => rw [e, e'] at key; exact ⟨rfl, key⟩

private theorem pow_same {σ : Fin E ≃ Fin E'} {M : Matrix (Fin E) (Fin E) ℝ} {M' : Matrix (Fin E') (Fin E') ℝ}
    (h : ∀ i j, M' (σ i) (σ j) = M i j) (k : ℕ) (i j : Fin E) : (M' ^ k) (σ i) (σ j) = (M ^ k) i j := by
  have e : M' = Matrix.reindexAlgEquiv ℝ ℝ σ M := by rw [mats h]; rfl
  rw [e, ← map_pow]
  simp

private theorem mul_same {m m' : ℕ} {ρ : Fin m ≃ Fin m'} {σ : Fin E ≃ Fin E'} {B : Matrix (Fin m) (Fin E) ℝ}
    {B' : Matrix (Fin m') (Fin E') ℝ} (hB : ∀ i j, B' (ρ i) (σ j) = B i j) {M : Matrix (Fin E) (Fin E) ℝ}
    {M' : Matrix (Fin E') (Fin E') ℝ} (h : ∀ i j, M' (σ i) (σ j) = M i j) (i : Fin m) (j : Fin E) :
    (B' * M') (ρ i) (σ j) = (B * M) i j := by
  rw [Matrix.mul_apply, Matrix.mul_apply]
  exact (Fintype.sum_equiv σ _ _ fun k => by rw [hB, h]).symm

/-- C135: the shift operators of two numberings of one complex are the same up to the numbering, so the penalties of
corresponding flows are the same. -/
theorem C135_shift_operator (r : Renumbered sc sc' π σ τ) (h : sc.OnSimpleGraph) (hb : sc'.Built) (component : String)
    (order : Int) : SameOutcome (fun (S : (m : ℕ) × Matrix (Fin m) (Fin sc.E) ℝ)
      (S' : (m : ℕ) × Matrix (Fin m) (Fin sc'.E) ℝ) => ∃ ρ : Fin S.1 ≃ Fin S'.1,
        ∀ a k, S'.2 (ρ a) (σ k) = S.2 a k) (sc.getShiftOperator component order)
      (sc'.getShiftOperator component order) := by
  obtain ⟨b1, b2⟩ := C99_incidence r h hb
  obtain ⟨-, l1, l2, -⟩ := C99_laplacians r h hb
  have b2' : ∀ t k, sc'.B2.transpose (τ t) (σ k) = sc.B2.transpose t k := fun t k => b2 k t
  unfold SC.getShiftOperator
  split_ifs
  · rfl
  · exact ⟨π, b1⟩
  · exact ⟨π, mul_same (E := sc.E) (E' := sc'.E) b1 (pow_same (E := sc.E) (E' := sc'.E) l1 _)⟩
  · exact ⟨σ, pow_same (E := sc.E) (E' := sc'.E) l1 _⟩
  · exact ⟨τ, b2'⟩
  · exact ⟨τ, mul_same (E := sc.E) (E' := sc'.E) b2' (pow_same (E := sc.E) (E' := sc'.E) l2 _)⟩
  · exact ⟨σ, pow_same (E := sc.E) (E' := sc'.E) l2 _⟩

/-- C135: the l1 filter on two numberings of one complex, with the same flow and the same noise.  Each stored flow of
the second call is, read in the first numbering, as good as the one of the first call, and the two deviate from the
noisy flow in the same direction.  What is missing: that they are equal; `C133_counterexample` shows that not even two
calls on one complex need to agree. -/
theorem C135_l1_partial (r : Renumbered sc sc' π σ τ) (h : sc.OnSimpleGraph) (hb : sc'.Built) (hE : 0 < sc.E)
    (cvx cvx' : CvxSolver) {f : Fin sc.E → ℝ} {f' : Fin sc'.E → ℝ} (hf : ∀ k, f' (σ k) = f k)
    {st st1 : TrendHistory sc.E} {st' st1' : TrendHistory sc'.E} {component : String}
    (hc : component = "divergence" ∨ component = "curl") {realisations : ℕ} {snrDb : List ℝ} {order : ℕ} {mu : ℝ}
    (hmu : 0 ≤ mu) {noise : ℕ → ℕ → Fin sc.E → ℝ} {noise' : ℕ → ℕ → Fin sc'.E → ℝ}
    (hn : ∀ i j k, noise' i j (σ k) = noise i j k)
    (h1 : sc.denoisingL1 cvx st f component realisations snrDb order mu noise = (.ok (), st1))
    (h2 : sc'.denoisingL1 cvx' st' f' component realisations snrDb order mu noise' = (.ok (), st1')) {i j : ℕ} {db : ℝ}
    {x : Fin sc.E → ℝ} {x' : Fin sc'.E → ℝ} (hi : snrDb[i]? = some db) (hj : j < realisations)
    (hx : Stored st1 i j x) (hx' : Stored st1' i j x') :
    (∃ k S, sc.getShiftOperator component order = .ok ⟨k, S⟩ ∧
      norm2 (noisy f db (noise i j) - x) + mu * norm1 (S.mulVec x) =
        norm2 (noisy f db (noise i j) - fun k => x' (σ k)) + mu * norm1 (S.mulVec fun k => x' (σ k))) ∧
    (x = noisy f db (noise i j) ∨ (fun k => x' (σ k)) = noisy f db (noise i j) ∨
      ∃ c : ℝ, 0 < c ∧ noisy f db (noise i j) - (fun k => x' (σ k)) = c • (noisy f db (noise i j) - x)) := by
  have hE' : 0 < sc'.E := by
    have : sc.E = sc'.E := card_same (E := sc.E) (E' := sc'.E) σ
    omega
  obtain ⟨k, S, hS, -⟩ := shift_ok sc component order
  obtain ⟨k', S', hS', -⟩ := shift_ok sc' component order
  have hρ := C135_shift_operator r h hb component order
  rw [hS, hS'] at hρ
  obtain ⟨ρ, hρ⟩ := hρ
  simp only at hρ
  have b1 := run_best cvx hE hc hmu h1 hS hi hj hx
  have b2 := run_best cvx' hE' hc hmu h2 hS' hi hj hx'
  have hy : ∀ k, noisy f' db (noise' i j) (σ k) = noisy f db (noise i j) k := by
    intro k
    unfold noisy
    rw [hf, hn, length_same (E := sc.E) (E' := sc'.E) (σ := σ) hf, cast_same (E := sc.E) (E' := sc'.E) σ]
  have b3 : Best (noisy f db (noise i j)) S mu fun k => x' (σ k) := by
    intro z
    have hz := b2 fun k => z (σ.symm k)
    have back : ∀ (u : Fin sc.E → ℝ) (u' : Fin sc'.E → ℝ), (∀ k, u' (σ k) = u k) →
        norm2 (noisy f' db (noise' i j) - u') + mu * norm1 (S'.mulVec u') =
          norm2 (noisy f db (noise i j) - u) + mu * norm1 (S.mulVec u) := by
      intro u u' hu
      rw [length_same (E := sc.E) (E' := sc'.E) (σ := σ) (f := noisy f db (noise i j) - u) fun k => by
        rw [Pi.sub_apply, Pi.sub_apply, hy, hu], sum_same (apply_same (E := sc.E) (E' := sc'.E) hρ hu)]
    rw [back (fun k => x' (σ k)) x' fun k => rfl, back z (fun k => z (σ.symm k)) fun k => by simp] at hz
    exact hz
  obtain ⟨e1, e2⟩ := best_ray hmu b1 b3
  exact ⟨⟨k, S, hS, e1⟩, e2⟩

/-- the hypotheses are met: a network with six edges and a triangle in two numberings, filtered twice -/
example : ∃ (sc sc' : SC ℝ) (π : Fin sc.nodes.length ≃ Fin sc'.nodes.length)
    (σ : Fin sc.edges.length ≃ Fin sc'.edges.length) (τ : Fin sc.triangles.length ≃ Fin sc'.triangles.length),
    Renumbered sc sc' π σ τ ∧ sc.OnSimpleGraph ∧ sc'.Built ∧ 0 < sc.E ∧
      SameTrend (E := sc.E) (E' := sc'.E) σ {} {} := by
  obtain ⟨sc, sc', π, σ, τ, h1, h2, h3, h4, -⟩ := exists_renumbered
  refine ⟨sc, sc', π, σ, τ, h1, h2, h3, ?_, ⟨.none, .none, rfl, rfl, rfl⟩⟩
  show 0 < sc.edges.length
  rw [h4]
  decide

end Pytspl
