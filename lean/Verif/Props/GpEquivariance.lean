import Verif.Props.LibIndependence
import Verif.Props.GaussianProcess

/-!
# C132: Gaussian process models do not depend on how the complex is numbered
-/

namespace Pytspl

open Matrix

variable {E E' n n' : ℕ}

/-! ## The specification -/

/-- The eigenpairs `e'` of the renumbered complex, with edge `σ a` called `a` again. -/
def EigPairs.pull (σ : Fin n ≃ Fin n') (e' : EigPairs n') : EigPairs n :=
  ⟨e'.num, Matrix.of fun a j => e'.vecs (σ a) j, e'.vals⟩

/-- all three sets of eigenpairs -/
def GpEigenpairs.pull (σ : Fin n ≃ Fin n') (e' : GpEigenpairs n') : GpEigenpairs n :=
  ⟨e'.harm.pull σ, e'.grad.pull σ, e'.curl.pull σ⟩

/-- Two kernels of the same class with the same parameters. -/
def SameKernel (k : GpKernel E) (k' : GpKernel E') : Prop := k'.type = k.type ∧ k'.raw = k.raw

/-- Two models with kernels of the same class and the same parameters throughout. -/
def SameModel (m : GpModel E) (m' : GpModel E') : Prop :=
  SameKernel m.kernel m'.kernel ∧ m'.rawOutputscale = m.rawOutputscale ∧ m'.meanConst = m.meanConst ∧
    m'.noise = m.noise

/-! ## Eigenpairs -/

private theorem select_renumber (lib : NumLib) {A : Matrix (Fin n) (Fin n) ℝ} {A' : Matrix (Fin n') (Fin n') ℝ}
    (hA : SymmPSD A) (hA' : SymmPSD A') (σ : Fin n ≃ Fin n') (h : ∀ i j, A' (σ i) (σ j) = A i j) (s : ℝ → ℝ)
    (cond : ℝ → Prop) [DecidablePred cond] :
    SamePairs (selectPairs (lib.eigh n A).2 (fun i => s ((lib.eigh n A).1 i)) cond)
      ((selectPairs (lib.eigh n' A').2 (fun i => s ((lib.eigh n' A').1 i)) cond).pull σ) := by
  have hn : n = n' := by simpa using Fintype.card_congr σ
  subst hn
  have hv : (lib.eigh n A').1 = (lib.eigh n A).1 := List.ofFn_injective (eigh_renumber lib hA.1 σ h)
  have e1 : IsEig A (lib.eigh n A).2 (lib.eigh n A).1 := ⟨(lib.eigh_spec n A hA.1).2.1, (lib.eigh_spec n A hA.1).2.2⟩
  obtain ⟨-, o, q⟩ := lib.eigh_spec n A' hA'.1
  have e2 : IsEig A (((lib.eigh n A').2).submatrix σ id) (lib.eigh n A).1 := by
    constructor
    · rw [← o]
      ext i j
      rw [Matrix.mul_apply, Matrix.mul_apply]
      exact Equiv.sum_comp σ (fun x => (lib.eigh n A').2.transpose i x * (lib.eigh n A').2 x j)
    · rw [hv] at q
      ext i j
      have := congrFun (congrFun q (σ i)) j
      rw [Matrix.mul_apply, Matrix.mul_diagonal] at this ⊢
      rw [Matrix.submatrix_apply, id, ← this, ← Equiv.sum_comp σ (fun x => A' (σ i) x * (lib.eigh n A').2 x j)]
      exact Finset.sum_congr rfl fun x _ => by rw [h]; rfl
  have := select_same e1 e2 s cond
  rw [hv]
  exact this

variable {sc sc' : SC ℝ} {π : Fin sc.nodes.length ≃ Fin sc'.nodes.length}
  {σ : Fin sc.edges.length ≃ Fin sc'.edges.length} {τ : Fin sc.triangles.length ≃ Fin sc'.triangles.length}

/-- C132: the eigenpairs of a component of the two complexes are interchangeable. -/
theorem C132_eigenpairs (r : Renumbered sc sc' π σ τ) (h : sc.OnSimpleGraph) (hb : sc'.Built) (lib : NumLib)
    (component : String) (tol : ℝ) (e : EigPairs sc.E) (he : sc.getComponentEigenpair lib component tol = .ok e) :
    ∃ e', sc'.getComponentEigenpair lib component tol = .ok e' ∧
      SamePairs e (EigPairs.pull (n := sc.E) (n' := sc'.E) σ e') := by
  obtain ⟨-, l1, l2, l3, -⟩ := C99_laplacians r h hb
  have hlen : sc.E = sc'.E := by simpa using Fintype.card_congr (σ : Fin sc.E ≃ Fin sc'.E)
  rcases Nat.eq_zero_or_pos sc.E with h0 | h0
  · exfalso
    unfold SC.getComponentEigenpair getHarmonicEigenpair getCurlEigenpair getGradientEigenpair
      getEigendecomposition at he
    simp only [h0, if_true, bind, Except.bind] at he
    split_ifs at he
  have h0' : 0 < sc'.E := hlen ▸ h0
  unfold SC.getComponentEigenpair getHarmonicEigenpair getCurlEigenpair getGradientEigenpair at he ⊢
  simp only [getEigendecomposition_dense lib h0] at he
  simp only [getEigendecomposition_dense lib h0']
  split_ifs at he ⊢
  · refine ⟨_, rfl, ?_⟩
    rw [← Except.ok.inj he]
    exact select_renumber lib (symmPSD_L1 sc) (symmPSD_L1 sc') σ l3 (fun x => if |x| < machineEps then 0 else x) _
  · refine ⟨_, rfl, ?_⟩
    rw [← Except.ok.inj he]
    exact select_renumber lib (symmPSD_L1u sc) (symmPSD_L1u sc') σ l2 (fun x => if |x| < machineEps then 0 else x) _
  · refine ⟨_, rfl, ?_⟩
    rw [← Except.ok.inj he]
    exact select_renumber lib (symmPSD_L1l sc) (symmPSD_L1l sc') σ l1 (fun x => if |x| < machineEps then 0 else x) _

private theorem gp_pull (r : Renumbered sc sc' π σ τ) (h : sc.OnSimpleGraph) (hb : sc'.Built) {lib : NumLib} {tol : ℝ}
    {e : GpEigenpairs sc.E} {e' : GpEigenpairs sc'.E} (he : sc.gpEigenpairs lib tol = .ok e)
    (he' : sc'.gpEigenpairs lib tol = .ok e') :
    SamePairs e.harm (EigPairs.pull (n := sc.E) (n' := sc'.E) σ e'.harm) ∧
    SamePairs e.grad (EigPairs.pull (n := sc.E) (n' := sc'.E) σ e'.grad) ∧
    SamePairs e.curl (EigPairs.pull (n := sc.E) (n' := sc'.E) σ e'.curl) := by
  unfold SC.gpEigenpairs at he he'
  cases h1 : sc.getComponentEigenpair lib "harmonic" tol with
  | error x => rw [h1] at he; cases he
  | ok a =>
  cases h2 : sc.getComponentEigenpair lib "gradient" tol with
  | error x => rw [h1, h2] at he; cases he
  | ok b =>
  cases h3 : sc.getComponentEigenpair lib "curl" tol with
  | error x => rw [h1, h2, h3] at he; cases he
  | ok c =>
  obtain ⟨a', ha, sa⟩ := C132_eigenpairs r h hb lib _ tol a h1
  obtain ⟨b', hb', sb⟩ := C132_eigenpairs r h hb lib _ tol b h2
  obtain ⟨c', hc, sc'⟩ := C132_eigenpairs r h hb lib _ tol c h3
  rw [h1, h2, h3] at he
  rw [ha, hb', hc] at he'
  cases he
  cases he'
  exact ⟨sa, sb, sc'⟩

/-! ## Rows -/

/-- a list of rows as a family -/
private def fam {α : Type} (l : List α) : Σ n, Fin n → α := ⟨l.length, l.get⟩

private theorem fam_map {α β : Type} (f : α → β) (l : List α) :
    fam (l.map f) = ⟨(fam l).1, fun i => f ((fam l).2 i)⟩ := by
  apply List.equivSigmaTuple.symm.injective
  change List.ofFn (l.map f).get = List.ofFn fun i => f (l.get i)
  rw [List.ofFn_get]
  conv_lhs => rw [← List.ofFn_get l, List.map_ofFn]
  rfl

private noncomputable def covOf (k : GpKernel E) (a b : Σ n, Fin n → Fin E) : Py (Matrix (Fin a.1) (Fin b.1) ℝ) := do
  let (k0, k1, k2) ← k.evalCovar
  pure (k.weight 0 • sandwich k.eig.harm k0 a.2 b.2 + k.weight 1 • sandwich k.eig.grad k1 a.2 b.2 +
    k.weight 2 • sandwich k.eig.curl k2 a.2 b.2)

private noncomputable def forwardOf (k : GpKernel E) (diag : Bool) (a b : Σ n, Fin n → Fin E) : Py CovOut := do
  let K ← covOf k a b
  if diag then .ok (.diag (matDiag K)) else .ok (.mat _ _ K)

private theorem forward_of (k : GpKernel E) (diag : Bool) (r1 r2 : List (Fin E)) :
    k.forward (edgeTensor r1) (some (edgeTensor r2)) diag = forwardOf k diag (fam r1) (fam r2) := by
  unfold GpKernel.forward
  simp only [rows_cast, bind, Except.bind]
  rfl

private noncomputable def predictiveOf (m : GpModel E) (y : List ℝ) (a b : Σ n, Fin n → Fin E) : Py GpPrediction :=
  if y.length ≠ a.1 then .error .runtimeError
  else do
    let Ktt ← covOf m.kernel a a
    let Kst ← covOf m.kernel b a
    let Kss ← covOf m.kernel b b
    let c := m.meanConst.getD 0
    let s := m.outputscale
    let S := (s • Ktt + m.noise • (1 : Matrix (Fin a.1) (Fin a.1) ℝ))⁻¹
    let resid : Fin a.1 → ℝ := fun i => y[(i : ℕ)]?.getD 0 - c
    pure ⟨b.1, fun u => c + (s • Kst).mulVec (S.mulVec resid) u,
      s • Kss - (s • Kst) * S * (s • Kst).transpose + m.noise • (1 : Matrix (Fin b.1) (Fin b.1) ℝ)⟩

private theorem predictive_of (m : GpModel E) (y : List ℝ) (rt rs : List (Fin E)) :
    m.predictive (edgeTensor rt) y (edgeTensor rs) = predictiveOf m y (fam rt) (fam rs) := by
  unfold GpModel.predictive predictiveOf
  have : (edgeTensor rt).length = (fam rt).1 := by simp [edgeTensor, fam]
  simp only [rows_cast, bind, Except.bind, this]
  rfl

private noncomputable def priorOf (m : GpModel E) (a : Σ n, Fin n → Fin E) : Py (List ℝ × CovOut) := do
  let K ← covOf m.kernel a a
  pure (List.replicate a.1 (m.meanConst.getD 0), .mat _ _ (m.outputscale • K))

private theorem prior_of (m : GpModel E) (r : List (Fin E)) :
    m.forward (edgeTensor r) = priorOf m (fam r) := by
  unfold GpModel.forward priorOf
  have : (edgeTensor r).map (fun _ => m.meanConst.getD 0) = List.replicate (fam r).1 (m.meanConst.getD 0) := by
    rw [List.map_const']
    simp [edgeTensor, fam]
  simp only [rows_cast, bind, Except.bind, this]
  rfl

/-! ## Kernels and predictions -/

/-- C132: a kernel of any of the five classes gives the same covariances between the same edges, the edges having
their numbers in either complex. -/
theorem C132_kernel (r : Renumbered sc sc' π σ τ) (h : sc.OnSimpleGraph) (hb : sc'.Built) (lib : NumLib) (tol : ℝ)
    (k : GpKernel sc.E) (k' : GpKernel sc'.E) (hk : k.FromComplex lib tol) (hk' : k'.FromComplex lib tol)
    (hs : SameKernel k k') (r1 r2 : List (Fin sc.E)) (diag : Bool) :
    k'.forward (edgeTensor (n := sc'.E) (r1.map σ)) (some (edgeTensor (n := sc'.E) (r2.map σ))) diag =
      k.forward (edgeTensor r1) (some (edgeTensor r2)) diag := by
  obtain ⟨s1, s2, s3⟩ := gp_pull r h hb hk hk'
  obtain ⟨t, e, raw⟩ := k
  obtain ⟨t', e', raw'⟩ := k'
  obtain ⟨h1, h2⟩ := hs
  simp only at h1 h2
  subst h1 h2
  rw [C129_kernel e (GpEigenpairs.pull (n := sc.E) (n' := sc'.E) σ e') s1 s2 s3, forward_of, forward_of, fam_map,
    fam_map]
  rfl

/-- C132: the prior and the predictions of a model do not depend on the numbering. -/
theorem C132_predict (r : Renumbered sc sc' π σ τ) (h : sc.OnSimpleGraph) (hb : sc'.Built) (lib : NumLib) (tol : ℝ)
    (m : GpModel sc.E) (m' : GpModel sc'.E) (hk : m.kernel.FromComplex lib tol) (hk' : m'.kernel.FromComplex lib tol)
    (hs : SameModel m m') (rTrain rTest : List (Fin sc.E)) (yTrain yTest : List ℝ) :
    m'.forward (edgeTensor (n := sc'.E) (rTest.map σ)) = m.forward (edgeTensor rTest) ∧
    m'.predict (edgeTensor (n := sc'.E) (rTrain.map σ)) yTrain (edgeTensor (n := sc'.E) (rTest.map σ)) yTest =
      m.predict (edgeTensor rTrain) yTrain (edgeTensor rTest) yTest := by
  obtain ⟨s1, s2, s3⟩ := gp_pull r h hb hk hk'
  obtain ⟨⟨t, e, raw⟩, sca, mean, noise⟩ := m
  obtain ⟨⟨t', e', raw'⟩, sca', mean', noise'⟩ := m'
  obtain ⟨⟨h1, h2⟩, h3, h4, h5⟩ := hs
  simp only at h1 h2 h3 h4 h5
  subst h1 h2 h3 h4 h5
  obtain ⟨c1, c2⟩ := C129_predict e (GpEigenpairs.pull (n := sc.E) (n' := sc'.E) σ e') s1 s2 s3 t' raw' sca' mean' noise'
    (edgeTensor rTrain) (edgeTensor rTest) yTrain yTest
  rw [c1, c2]
  constructor
  · rw [prior_of, prior_of, fam_map]
    rfl
  · unfold GpModel.predict
    rw [predictive_of, predictive_of, fam_map, fam_map]
    rfl

/-! ## The exported Matérn covariance -/

private theorem varianceOut_same (σ : Fin n ≃ Fin n') {K : Matrix (Fin n) (Fin n) ℝ} {K' : Matrix (Fin n') (Fin n') ℝ}
    (h : ∀ i j, K' (σ i) (σ j) = K i j) {v : VarOut n} (hv : varianceOut K = .ok v) :
    ∃ v', varianceOut K' = .ok v' ∧ ((v = .zero ∧ v' = .zero) ∨
      ∃ u u', v = .vec u ∧ v' = .vec u' ∧ ∀ i, u' (σ i) = u i) := by
  have hp : (List.ofFn fun i => K' i i).Perm (List.ofFn fun i => K i i) := by
    have hn : n = n' := by simpa using Fintype.card_congr σ
    subst hn
    have h2 : (fun i => K i i) = (fun i => K' i i) ∘ σ := by
      funext i
      exact (h i i).symm
    rw [h2]
    exact (Equiv.Perm.ofFn_comp_perm σ _).symm
  have e1 : (List.ofFn fun i => K' i i).min? = (List.ofFn fun i => K i i).min? := by
    cases hm : (List.ofFn fun i => K i i).min? with
    | none => rw [List.min?_eq_none_iff] at hm ⊢; rw [hm] at hp; exact hp.eq_nil
    | some a =>
      rw [List.min?_eq_some_iff] at hm ⊢
      exact ⟨hp.mem_iff.2 hm.1, fun b hb => hm.2 b (hp.mem_iff.1 hb)⟩
  have e2 : (List.ofFn fun i => K' i i).max? = (List.ofFn fun i => K i i).max? := by
    cases hm : (List.ofFn fun i => K i i).max? with
    | none => rw [List.max?_eq_none_iff] at hm ⊢; rw [hm] at hp; exact hp.eq_nil
    | some a =>
      rw [List.max?_eq_some_iff] at hm ⊢
      exact ⟨hp.mem_iff.2 hm.1, fun b hb => hm.2 b (hp.mem_iff.1 hb)⟩
  unfold varianceOut at hv ⊢
  simp only [e1, e2]
  simp only at hv
  split at hv
  · rename_i a b h1 h2
    refine ⟨_, rfl, ?_⟩
    rw [← Except.ok.inj hv]
    split_ifs
    · exact .inl ⟨rfl, rfl⟩
    · exact .inr ⟨_, _, rfl, rfl, fun i => h i i⟩
  · cases hv

private theorem bind_ok {α β : Type} {x : Py α} {f : α → Py β} {r : β} (h : (x >>= f) = .ok r) :
    ∃ a, x = .ok a ∧ f a = .ok r := by
  cases x with
  | error e => cases h
  | ok a => exact ⟨a, rfl, h⟩

/-- C132: the covariance exported by `build_matern_kernel` and the variances returned with it. -/
theorem C132_matern (r : Renumbered sc sc' π σ τ) (h : sc.OnSimpleGraph) (hb : sc'.Built) (lib : NumLib)
    (t : Trainer sc) (t' : Trainer sc') (hp : t'.modelParameters = t.modelParameters)
    (K : Matrix (Fin sc.E) (Fin sc.E) ℝ) (v : VarOut sc.E) (hK : t.buildMaternKernel lib = .ok (K, v)) :
    ∃ (K' : Matrix (Fin sc'.E) (Fin sc'.E) ℝ) (v' : VarOut sc'.E), t'.buildMaternKernel lib = .ok (K', v') ∧
      (∀ i j, K' (σ i) (σ j) = K i j) ∧ ((v = .zero ∧ v' = .zero) ∨
        ∃ u u', v = .vec u ∧ v' = .vec u' ∧ ∀ i, u' (σ i) = u i) := by
  unfold Trainer.buildMaternKernel at hK ⊢
  rw [hp]
  obtain ⟨p, h0, hK⟩ := bind_ok hK
  obtain ⟨a, h1, hK⟩ := bind_ok hK
  obtain ⟨b, h2, hK⟩ := bind_ok hK
  obtain ⟨c, h3, hK⟩ := bind_ok hK
  obtain ⟨k1, h4, hK⟩ := bind_ok hK
  obtain ⟨k2, h5, hK⟩ := bind_ok hK
  obtain ⟨w, h6, hK⟩ := bind_ok hK
  obtain ⟨a', ha, sa⟩ := C132_eigenpairs r h hb lib _ _ a h1
  obtain ⟨b', hb', sb⟩ := C132_eigenpairs r h hb lib _ _ b h2
  obtain ⟨c', hc, sc'⟩ := C132_eigenpairs r h hb lib _ _ c h3
  rcases sb.sandwich_eq (fun v => torchPow (2 * p.muDown / p.kappaDown / p.kappaDown + v) (-p.muDown)) with
    ⟨k, k', hk, hk', sk⟩ | ⟨hk, hk'⟩
  swap
  · rw [hk] at h4; cases h4
  rcases sc'.sandwich_eq (fun v => torchPow (2 * p.muUp / p.kappaUp / p.kappaUp + v) (-p.muUp)) with
      ⟨l, l', hl, hl', sl⟩ | ⟨hl, hl'⟩
  swap
  · rw [hl] at h5; cases h5
  rw [hk] at h4
  rw [hl] at h5
  cases h4
  cases h5
  have hk2 : finiteVec (fun j => torchPow (2 * p.muDown / p.kappaDown / p.kappaDown + b'.vals j) (-p.muDown)) = .ok k' := hk'
  have hl2 : finiteVec (fun j => torchPow (2 * p.muUp / p.kappaUp / p.kappaUp + c'.vals j) (-p.muUp)) = .ok l' := hl'
  simp only [h0, ha, hb', hc, bind, Except.bind]
  rw [hk2]
  simp only
  rw [hl2]
  simp only
  cases hK
  have key : ∀ i j, (p.outputscale • (p.h • sandwich a' (fun _ => p.mu) (allRows _) (allRows _) +
      p.hDown • sandwich b' k' (allRows _) (allRows _) + p.hUp • sandwich c' l' (allRows _) (allRows _))) (σ i) (σ j) =
      (p.outputscale • (p.h • sandwich a (fun _ => p.mu) (allRows _) (allRows _) +
      p.hDown • sandwich b k1 (allRows _) (allRows _) + p.hUp • sandwich c k2 (allRows _) (allRows _))) i j := by
    intro i j
    have t1 : sandwich a' (fun _ => p.mu) (allRows _) (allRows _) (σ i) (σ j) =
        sandwich a (fun _ => p.mu) (allRows _) (allRows _) i j := (sa.2 (fun _ => p.mu) i j).symm
    have t2 : sandwich b' k' (allRows _) (allRows _) (σ i) (σ j) = sandwich b k1 (allRows _) (allRows _) i j :=
      (congrFun (congrFun (sk _ _ (allRows _) (allRows _)) i) j).symm
    have t3 : sandwich c' l' (allRows _) (allRows _) (σ i) (σ j) = sandwich c k2 (allRows _) (allRows _) i j :=
      (congrFun (congrFun (sl _ _ (allRows _) (allRows _)) i) j).symm
    simp only [Matrix.smul_apply, Matrix.add_apply, t1, t2, t3]
  obtain ⟨v', hv, hvv⟩ := varianceOut_same (n := sc.E) σ key h6
  rw [hv]
  exact ⟨_, _, rfl, key, hvv⟩

/-! ## The hypotheses can be met -/

/-- the sample complex and its mirror image, a Matérn kernel with its initial parameters on both, and predictions from
observations of two edges -/
example (lib : NumLib) : ∃ (sc sc' : SC ℝ) (π : Fin sc.nodes.length ≃ Fin sc'.nodes.length)
    (σ : Fin sc.edges.length ≃ Fin sc'.edges.length) (τ : Fin sc.triangles.length ≃ Fin sc'.triangles.length)
    (m : GpModel sc.E) (m' : GpModel sc'.E) (rTrain rTest : List (Fin sc.E)), Renumbered sc sc' π σ τ ∧
    sc.OnSimpleGraph ∧ sc'.Built ∧ sc.edges ≠ sc'.edges ∧ m.kernel.FromComplex lib (1 / 1000) ∧
    m'.kernel.FromComplex lib (1 / 1000) ∧ SameModel m m' ∧ rTrain.length = 2 ∧
    m'.predict (edgeTensor (n := sc'.E) (rTrain.map σ)) [1, 2] (edgeTensor (n := sc'.E) (rTest.map σ)) [3, 4] =
      m.predict (edgeTensor rTrain) [1, 2] (edgeTensor rTest) [3, 4] := by
  obtain ⟨sc, sc', π, σ, τ, r, hs, hb, e1, e2⟩ := exists_renumbered
  have hE : 1 < sc.E := by change 1 < sc.edges.length; rw [e1]; decide
  have hE' : 0 < sc'.E := by change 0 < sc'.edges.length; rw [e2]; decide
  obtain ⟨e, he⟩ : ∃ e, sc.gpEigenpairs lib (1 / 1000) = .ok e := by
    obtain ⟨k, -, hk⟩ := GpKernel.FromComplex.exists lib sc (by omega) (1 / 1000) .matern
    exact ⟨_, hk⟩
  obtain ⟨e', he'⟩ : ∃ e, sc'.gpEigenpairs lib (1 / 1000) = .ok e := by
    obtain ⟨k, -, hk⟩ := GpKernel.FromComplex.exists lib sc' hE' (1 / 1000) .matern
    exact ⟨_, hk⟩
  let m := GpModel.create (GpKernel.create .matern e) none 1
  let m' := GpModel.create (GpKernel.create .matern e') none 1
  have hm : SameModel m m' := ⟨⟨rfl, rfl⟩, rfl, rfl, rfl⟩
  have hk : m.kernel.FromComplex lib (1 / 1000) := he
  have hk' : m'.kernel.FromComplex lib (1 / 1000) := he'
  refine ⟨sc, sc', π, σ, τ, m, m', [⟨0, by omega⟩, ⟨1, hE⟩], [⟨1, hE⟩, ⟨0, by omega⟩], r, hs, hb, by rw [e1, e2]; decide,
    hk, hk', hm, rfl, (C132_predict r hs hb lib _ _ _ hk hk' hm _ _ _ _).2⟩

end Pytspl
