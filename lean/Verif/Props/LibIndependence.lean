import Verif.Props.Equivariance
import Verif.Props.Masks
import Verif.Lemmas.PolyFit
import Verif.Lemmas.GpLib
import Verif.Lemmas.NumLibExists
import Verif.Lemmas.Concrete
import Verif.Model.EdgeFlowDenoising
import Verif.Model.Plot
import Verif.Model.Chebyshev
import Verif.Model.GpPredict

/-!
# C129: results do not depend on which correct numerical library computes them

`lib` and `lib'` are any two libraries that satisfy the contract: they may return different orthonormal
bases of the eigenspaces and break ties differently.
-/

namespace Pytspl

open Matrix Polynomial

variable {n m E : ℕ}

/-! ## Least squares -/

/-- the answer of `lstsq` depends on the target only through `Aᵀ b` -/
theorem lstsq_unique (lib lib' : NumLib) (A : Matrix (Fin m) (Fin n) ℝ) {b b' : Fin m → ℝ}
    (h : A.transpose.mulVec b = A.transpose.mulVec b') : lib.lstsq m n A b = lib'.lstsq m n A b' := by
  set x := lib.lstsq m n A b with hx
  set y := lib'.lstsq m n A b' with hy
  have n1 := lib.normal A b
  have n2 := lib'.normal A b'
  rw [← hx] at n1
  rw [← hy] at n2
  have hA : A.mulVec x = A.mulVec y := by
    have h0 : A.transpose.mulVec (A.mulVec (x - y)) = 0 := by
      rw [mulVec_sub, mulVec_sub]
      rw [mulVec_sub] at n1 n2
      rw [sub_eq_zero] at n1 n2
      rw [n1, n2, h, sub_self]
    have h1 := range_ker_zero A ⟨x - y, rfl⟩ h0
    rw [mulVec_sub] at h1
    exact sub_eq_zero.1 h1
  have l1 := lib.lstsq_least m n A b ((1 / 2 : ℝ) • (x + y)) (by
    rw [← hx, mulVec_smul, mulVec_add, ← hA, ← two_smul ℝ, smul_smul]; norm_num)
  have l2 := lib'.lstsq_least m n A b' ((1 / 2 : ℝ) • (x + y)) (by
    rw [← hy, mulVec_smul, mulVec_add, hA, ← two_smul ℝ, smul_smul]; norm_num)
  rw [← hx] at l1
  rw [← hy] at l2
  have e : ((1 / 2 : ℝ) • (x + y)) ⬝ᵥ ((1 / 2 : ℝ) • (x + y)) =
      (x ⬝ᵥ x + y ⬝ᵥ y) / 2 - ((x - y) ⬝ᵥ (x - y)) / 4 := by
    simp only [smul_dotProduct, dotProduct_smul, add_dotProduct, dotProduct_add, sub_dotProduct,
      dotProduct_sub, smul_eq_mul, dotProduct_comm y x]
    ring
  rw [e] at l1 l2
  have h0 : (x - y) ⬝ᵥ (x - y) = 0 := le_antisymm (by linarith) (dot_self_nonneg _)
  exact sub_eq_zero.1 (dotProduct_self_eq_zero.1 h0)

/-- C129: the three components of a flow are the same for every library, rounded or not, and so is
every exception. -/
theorem C129_flows (lib lib' : NumLib) (sc : SC ℝ) (f : Fin sc.E → ℝ) (component : String) (round : Bool)
    (d : ℤ) : sc.getComponentFlow lib f component round d = sc.getComponentFlow lib' f component round d := by
  have h1 : ∀ (r : Bool) (d : ℤ), getGradientFlow lib sc.B1 f r d = getGradientFlow lib' sc.B1 f r d := by
    intro r d
    unfold getGradientFlow
    rw [lstsq_unique lib lib' _ rfl]
  have h2 : ∀ (r : Bool) (d : ℤ), getCurlFlow lib sc.B2 f r d = getCurlFlow lib' sc.B2 f r d := by
    intro r d
    unfold getCurlFlow
    rw [lstsq_unique lib lib' _ rfl]
  unfold SC.getComponentFlow getHarmonicFlow
  rw [h1, h1, h2, h2]

/-- C129: so the Hodge decomposition is drawn the same. -/
theorem C129_drawing (g : GraphLib) (lib lib' : NumLib) (p : SCPlot) (f : Fin p.sc.E → ℝ) :
    p.drawHodgeDecomposition g lib f = p.drawHodgeDecomposition g lib' f := by
  unfold SCPlot.drawHodgeDecomposition
  simp only [C129_flows lib lib']

/-! ## Eigenvalues and eigenpairs -/

private theorem eigh_vals (lib lib' : NumLib) {A : Matrix (Fin n) (Fin n) ℝ} (hA : A.transpose = A) :
    (lib.eigh n A).1 = (lib'.eigh n A).1 := by
  obtain ⟨m1, o1, q1⟩ := lib.eigh_spec n A hA
  obtain ⟨m2, o2, q2⟩ := lib'.eigh_spec n A hA
  have r1 := (IsEig.mk o1 q1).roots_eq
  have r2 := (IsEig.mk o2 q2).roots_eq
  rw [r1, Fin.univ_val_map, Fin.univ_val_map, Multiset.coe_eq_coe] at r2
  apply List.ofFn_injective
  refine (List.Perm.eq_of_pairwise (fun a b _ _ => le_antisymm) ?_ ?_ r2)
  · exact List.pairwise_ofFn.mpr fun i j hij => m1 hij.le
  · exact List.pairwise_ofFn.mpr fun i j hij => m2 hij.le

/-- C129: the eigenvalues (in order, with repetitions) of a symmetric matrix are the same for every
library. -/
theorem C129_eigenvalues (lib lib' : NumLib) {A : Matrix (Fin n) (Fin n) ℝ} (hA : A.transpose = A) (tol : ℝ)
    (U : Matrix (Fin n) (Fin n) ℝ) (w : Fin n → ℝ) (h : getEigendecomposition lib (.ndarray A) tol = .ok (U, w)) :
    ∃ U', getEigendecomposition lib' (.ndarray A) tol = .ok (U', w) := by
  unfold getEigendecomposition at h ⊢
  simp only at h ⊢
  split_ifs at h ⊢ with h0
  refine ⟨(lib'.eigh n A).2, ?_⟩
  rw [eigh_vals lib' lib hA]
  rw [show w = _ from (congrArg Prod.snd (Except.ok.inj h)).symm]

/-- a function of the eigenvalues, put back together with the eigenvectors, does not depend on them -/
private theorem calculus {A U U' : Matrix (Fin n) (Fin n) ℝ} {w : Fin n → ℝ} (h : IsEig A U w)
    (h' : IsEig A U' w) (g : ℝ → ℝ) :
    U * diagonal (fun i => g (w i)) * U.transpose = U' * diagonal (fun i => g (w i)) * U'.transpose := by
  let p : ℝ[X] := Lagrange.interpolate (Finset.univ.image w) id g
  have hp : (fun i => g (w i)) = fun i => p.eval (w i) := by
    funext i
    exact (Lagrange.eval_interpolate_at_node g Function.injective_id.injOn
      (Finset.mem_image_of_mem w (Finset.mem_univ i))).symm
  rw [hp, ← h.aeval_mul, ← h'.aeval_mul, mul_assoc, mul_assoc, h.orth', h'.orth']

/-- Two sets of eigenpairs are interchangeable: same eigenvalues in the same order, and every function of
the eigenvalues gives the same matrix when it is put together with the eigenvectors. -/
def SamePairs (e e' : EigPairs n) : Prop :=
  List.ofFn e.vals = List.ofFn e'.vals ∧
    ∀ (g : ℝ → ℝ) (a b : Fin n), ∑ j, e.vecs a j * g (e.vals j) * e.vecs b j =
      ∑ j, e'.vecs a j * g (e'.vals j) * e'.vecs b j

theorem select_same {A U U' : Matrix (Fin n) (Fin n) ℝ} {w : Fin n → ℝ} (h : IsEig A U w)
    (h' : IsEig A U' w) (s : ℝ → ℝ) (cond : ℝ → Prop) [DecidablePred cond] :
    SamePairs (selectPairs U (fun i => s (w i)) cond) (selectPairs U' (fun i => s (w i)) cond) := by
  refine ⟨by rw [selectPairs_vals, selectPairs_vals], fun g a b => ?_⟩
  have key : ∀ V : Matrix (Fin n) (Fin n) ℝ,
      (∑ j, (selectPairs V (fun i => s (w i)) cond).vecs a j *
        g ((selectPairs V (fun i => s (w i)) cond).vals j) *
        (selectPairs V (fun i => s (w i)) cond).vecs b j) =
      (V * diagonal (fun i => if cond (s (w i)) then g (s (w i)) else 0) * V.transpose) a b := by
    intro V
    have e1 := sum_sel (w := fun i => s (w i)) (cond := cond) (fun i => V a i * g (s (w i)) * V b i)
    refine (e1 : _ = _).trans ?_
    rw [Matrix.mul_apply]
    refine Finset.sum_congr rfl fun i _ => ?_
    rw [Matrix.mul_diagonal, Matrix.transpose_apply]
    split_ifs <;> simp
  rw [key, key]
  exact congrFun (congrFun (calculus h h' fun x => if cond (s x) then g (s x) else 0) a) b

private theorem pair_same (lib lib' : NumLib) {A : Matrix (Fin n) (Fin n) ℝ} (hA : SymmPSD A) {cond : ℝ → Prop}
    [DecidablePred cond] (e : EigPairs n)
    (h : (do let (U, w) ← getEigendecomposition lib (.ndarray A); pure (selectPairs U w cond) : Py (EigPairs n)) =
      .ok e) :
    ∃ e', (do let (U, w) ← getEigendecomposition lib' (.ndarray A); pure (selectPairs U w cond) :
      Py (EigPairs n)) = .ok e' ∧ SamePairs e e' := by
  rcases Nat.eq_zero_or_pos n with h0 | h0
  · subst h0; cases h
  · rw [getEigendecomposition_dense lib h0] at h
    rw [getEigendecomposition_dense lib' h0]
    refine ⟨_, rfl, ?_⟩
    rw [← Except.ok.inj h]
    have e1 := lib.isEig hA
    have e2 := lib'.isEig hA
    rw [eigh_vals lib' lib hA.1] at e2 ⊢
    exact select_same e1 e2 (fun x => if |x| < machineEps then 0 else x) cond

/-- C129: the eigenpairs of a component are interchangeable between libraries. -/
theorem C129_eigenpairs (lib lib' : NumLib) (sc : SC ℝ) (component : String) (tol : ℝ) (e : EigPairs sc.E)
    (h : sc.getComponentEigenpair lib component tol = .ok e) :
    ∃ e', sc.getComponentEigenpair lib' component tol = .ok e' ∧ SamePairs e e' := by
  unfold SC.getComponentEigenpair at h ⊢
  split_ifs at h ⊢
  · exact pair_same lib lib' (symmPSD_L1 sc) e h
  · exact pair_same lib lib' (symmPSD_L1u sc) e h
  · exact pair_same lib lib' (symmPSD_L1l sc) e h

/-- C129: the matrix `V Vᵀ` of the eigenvectors of a component is the same for every library, and so is
the length of the coefficients of a flow. -/
theorem C129_projector (e e' : EigPairs n) (h : SamePairs e e') :
    e.num = e'.num ∧ e.vecs * e.vecs.transpose = e'.vecs * e'.vecs.transpose ∧
      ∀ f : Fin n → ℝ, (e.vecs.transpose.mulVec f) ⬝ᵥ (e.vecs.transpose.mulVec f) =
        (e'.vecs.transpose.mulVec f) ⬝ᵥ (e'.vecs.transpose.mulVec f) := by
  have hp : e.vecs * e.vecs.transpose = e'.vecs * e'.vecs.transpose := by
    ext a b
    simpa [Matrix.mul_apply] using h.2 (fun _ => 1) a b
  refine ⟨by simpa using congrArg List.length h.1, hp, fun f => ?_⟩
  have key : ∀ (k : ℕ) (V : Matrix (Fin n) (Fin k) ℝ), (V.transpose.mulVec f) ⬝ᵥ (V.transpose.mulVec f) =
      f ⬝ᵥ (V * V.transpose).mulVec f := by
    intro k V
    rw [← mulVec_mulVec, ← dot_mulVec_transpose]
  rw [key, key, hp]

/-! ## Gaussian process kernels -/

theorem SamePairs.sandwich_eq {e e' : EigPairs n} (h : SamePairs e e') (φ : ℝ → Option ℝ) :
    (∃ k k', finiteVec (fun j => φ (e.vals j)) = .ok k ∧ finiteVec (fun j => φ (e'.vals j)) = .ok k' ∧
      ∀ (p q : ℕ) (i1 : Fin p → Fin n) (i2 : Fin q → Fin n), sandwich e k i1 i2 = sandwich e' k' i1 i2) ∨
    (finiteVec (fun j => φ (e.vals j)) = .error .nonFinite ∧
      finiteVec (fun j => φ (e'.vals j)) = .error .nonFinite) := by
  have hm : (∀ j, (φ (e.vals j)).isSome) ↔ ∀ j, (φ (e'.vals j)).isSome := by
    have h1 : ∀ (k : ℕ) (v : Fin k → ℝ), (∀ j, (φ (v j)).isSome) ↔ ∀ x ∈ List.ofFn v, (φ x).isSome := by
      intro k v; simp
    rw [h1, h1, h.1]
  unfold finiteVec
  by_cases hs : ∀ j, (φ (e.vals j)).isSome
  · left
    rw [if_pos hs, if_pos (hm.1 hs)]
    refine ⟨_, _, rfl, rfl, fun p q i1 i2 => ?_⟩
    ext a b
    exact h.2 (fun x => (φ x).getD 0) (i1 a) (i2 b)
  · right
    rw [if_neg hs, if_neg (fun hx => hs (hm.2 hx))]
    exact ⟨rfl, rfl⟩

/-- C129: the eigenpairs handed to the Gaussian process kernels are interchangeable. -/
theorem C129_gp_eigenpairs (lib lib' : NumLib) (sc : SC ℝ) (tol : ℝ) (e : GpEigenpairs sc.E)
    (h : sc.gpEigenpairs lib tol = .ok e) :
    ∃ e', sc.gpEigenpairs lib' tol = .ok e' ∧ SamePairs e.harm e'.harm ∧ SamePairs e.grad e'.grad ∧
      SamePairs e.curl e'.curl := by
  unfold SC.gpEigenpairs at h ⊢
  cases h1 : sc.getComponentEigenpair lib "harmonic" tol with
  | error x => rw [h1] at h; cases h
  | ok a =>
  cases h2 : sc.getComponentEigenpair lib "gradient" tol with
  | error x => rw [h1, h2] at h; cases h
  | ok b =>
  cases h3 : sc.getComponentEigenpair lib "curl" tol with
  | error x => rw [h1, h2, h3] at h; cases h
  | ok c =>
  obtain ⟨a', ha, sa⟩ := C129_eigenpairs lib lib' sc _ tol a h1
  obtain ⟨b', hb, sb⟩ := C129_eigenpairs lib lib' sc _ tol b h2
  obtain ⟨c', hc, sc'⟩ := C129_eigenpairs lib lib' sc _ tol c h3
  rw [h1, h2, h3] at h
  rw [ha, hb, hc]
  cases h
  exact ⟨_, rfl, sa, sb, sc'⟩

theorem cov_same {e e' : GpEigenpairs E} (hh : SamePairs e.harm e'.harm) (hg : SamePairs e.grad e'.grad)
    (hc : SamePairs e.curl e'.curl) (t : KernelType) (raw : String → ℝ) (r1 r2 : List (Fin E)) :
    (⟨t, e, raw⟩ : GpKernel E).cov r1 r2 = (⟨t, e', raw⟩ : GpKernel E).cov r1 r2 := by
  unfold GpKernel.cov GpKernel.evalCovar
  have d : ∀ i x, (⟨t, e, raw⟩ : GpKernel E).density i x = (⟨t, e', raw⟩ : GpKernel E).density i x :=
    fun _ _ => rfl
  have w : ∀ i, (⟨t, e, raw⟩ : GpKernel E).weight i = (⟨t, e', raw⟩ : GpKernel E).weight i := fun _ => rfl
  simp only [d, w]
  rcases hh.sandwich_eq ((⟨t, e', raw⟩ : GpKernel E).density 0) with ⟨a, a', ha, ha', sa⟩ | ⟨ha, ha'⟩
  · rcases hg.sandwich_eq ((⟨t, e', raw⟩ : GpKernel E).density 1) with ⟨b, b', hb, hb', sb⟩ | ⟨hb, hb'⟩
    · rcases hc.sandwich_eq ((⟨t, e', raw⟩ : GpKernel E).density 2) with ⟨c, c', hc, hc', sc⟩ | ⟨hc, hc'⟩
      · simp only [ha, ha', hb, hb', hc, hc', bind, Except.bind, pure, Except.pure, sa, sb, sc]
      · simp only [ha, ha', hb, hb', hc, hc', bind, Except.bind]
    · simp only [ha, ha', hb, hb', bind, Except.bind]
  · simp only [ha, ha', bind, Except.bind]

/-- C129: a kernel of any of the five classes built on interchangeable eigenpairs, with the same
parameters, gives the same covariances. -/
theorem C129_kernel (e e' : GpEigenpairs E) (hh : SamePairs e.harm e'.harm) (hg : SamePairs e.grad e'.grad)
    (hc : SamePairs e.curl e'.curl) (t : KernelType) (raw : String → ℝ) (x1 : List ℚ) (x2 : Option (List ℚ))
    (diag : Bool) :
    (⟨t, e, raw⟩ : GpKernel E).forward x1 x2 diag = (⟨t, e', raw⟩ : GpKernel E).forward x1 x2 diag := by
  unfold GpKernel.forward
  simp only [cov_same hh hg hc]

/-- C129: a model built on interchangeable eigenpairs, with the same parameters, has the same prior, and `predict`
returns the same distribution and the same metrics, or raises the same exception. -/
theorem C129_predict (e e' : GpEigenpairs E) (hh : SamePairs e.harm e'.harm) (hg : SamePairs e.grad e'.grad)
    (hc : SamePairs e.curl e'.curl) (t : KernelType) (raw : String → ℝ) (scale : ℝ) (mean : Option ℝ) (noise : ℝ)
    (xTrain xTest : List ℚ) (yTrain yTest : List ℝ) :
    (⟨⟨t, e, raw⟩, scale, mean, noise⟩ : GpModel E).forward xTest =
      (⟨⟨t, e', raw⟩, scale, mean, noise⟩ : GpModel E).forward xTest ∧
    (⟨⟨t, e, raw⟩, scale, mean, noise⟩ : GpModel E).predict xTrain yTrain xTest yTest =
      (⟨⟨t, e', raw⟩, scale, mean, noise⟩ : GpModel E).predict xTrain yTrain xTest yTest := by
  constructor
  · unfold GpModel.forward
    simp only [cov_same hh hg hc]
    rfl
  · have : (⟨⟨t, e, raw⟩, scale, mean, noise⟩ : GpModel E).predictive xTrain yTrain xTest =
        (⟨⟨t, e', raw⟩, scale, mean, noise⟩ : GpModel E).predictive xTrain yTrain xTest := by
      unfold GpModel.predictive
      simp only [cov_same hh hg hc]
      rfl
    unfold GpModel.predict
    rw [this]

/-- C129: the Matérn kernel matrix of a trained model. -/
theorem C129_matern (lib lib' : NumLib) {sc : SC ℝ} (t : Trainer sc) :
    t.buildMaternKernel lib = t.buildMaternKernel lib' := by
  unfold Trainer.buildMaternKernel
  cases hp : t.modelParameters with
  | error x => rfl
  | ok p =>
  have err : ∀ c, (∃ x, sc.getComponentEigenpair lib c = .error x ∧ sc.getComponentEigenpair lib' c = .error x) ∨
      ∃ e e', sc.getComponentEigenpair lib c = .ok e ∧ sc.getComponentEigenpair lib' c = .ok e' ∧
        SamePairs e e' := by
    intro c
    cases h : sc.getComponentEigenpair lib c with
    | ok e =>
      obtain ⟨e', h', s⟩ := C129_eigenpairs lib lib' sc _ _ e h
      exact .inr ⟨e, e', rfl, h', s⟩
    | error x =>
      left
      refine ⟨x, rfl, ?_⟩
      rcases Nat.eq_zero_or_pos sc.E with h0 | h0
      · rw [← h]
        unfold SC.getComponentEigenpair getHarmonicEigenpair getCurlEigenpair getGradientEigenpair
          getEigendecomposition
        simp [h0]
      · cases h' : sc.getComponentEigenpair lib' c with
        | ok e' =>
          obtain ⟨e, h2, -⟩ := C129_eigenpairs lib' lib sc _ _ e' h'
          rw [h2] at h; cases h
        | error y =>
          unfold SC.getComponentEigenpair getHarmonicEigenpair getCurlEigenpair getGradientEigenpair at h h'
          simp only [getEigendecomposition_dense lib h0, getEigendecomposition_dense lib' h0] at h h'
          split_ifs at h h'
          · cases h
          · cases h
          · cases h
          · cases h; cases h'; rfl
  simp only [bind, Except.bind]
  rcases err "harmonic" with ⟨x, h, h'⟩ | ⟨a, a', ha, ha', sa⟩
  · rw [h, h']
  rcases err "gradient" with ⟨x, h, h'⟩ | ⟨b, b', hb, hb', sb⟩
  · rw [ha, ha', h, h']
  rcases err "curl" with ⟨x, h, h'⟩ | ⟨c, c', hc, hc', sc'⟩
  · rw [ha, ha', hb, hb', h, h']
  rw [ha, ha', hb, hb', hc, hc']
  have s0 : ∀ (p q : ℕ) (i1 : Fin p → Fin sc.E) (i2 : Fin q → Fin sc.E) (x : ℝ),
      sandwich a (fun _ => x) i1 i2 = sandwich a' (fun _ => x) i1 i2 := by
    intro p q i1 i2 x
    ext u v
    exact sa.2 (fun _ => x) (i1 u) (i2 v)
  simp only [s0]
  rcases sb.sandwich_eq (fun v => torchPow (2 * p.muDown / p.kappaDown / p.kappaDown + v) (-p.muDown)) with
    ⟨k, k', hk, hk', sk⟩ | ⟨hk, hk'⟩
  · rcases sc'.sandwich_eq (fun v => torchPow (2 * p.muUp / p.kappaUp / p.kappaUp + v) (-p.muUp)) with
      ⟨l, l', hl, hl', sl⟩ | ⟨hl, hl'⟩
    · simp only [hk, hk', hl, hl', sk, sl]
    · simp only [hk, hk', hl, hl']
  · simp only [hk, hk']

/-! ## Filters -/

theorem applyFilter_moments (lib lib' : NumLib) (f fTrue : Fin E → ℝ) {P U U' : Matrix (Fin E) (Fin E) ℝ}
    {w : Fin E → ℝ} (h : IsEig P U w) (h' : IsEig P U' w) (ev al al' : List ℝ) (L : Int)
    (hlen : al.length = al'.length)
    (hal : ∀ k : ℕ, ∑ i : Fin ev.length, ev[i] ^ k * al[(i : ℕ)]?.getD 0 =
      ∑ i : Fin ev.length, ev[i] ^ k * al'[(i : ℕ)]?.getD 0) :
    applyFilter lib f fTrue P U ev al L = applyFilter lib' f fTrue P U' ev al' L := by
  by_cases hL : 0 < L ∧ al.length = ev.length
  · rw [applyFilter_eq lib f fTrue P U ev al L hL.1 hL.2,
      applyFilter_eq lib' f fTrue P U' ev al' L hL.1 (hlen ▸ hL.2)]
    have hp : ∀ l, polyAt lib (fun i : Fin ev.length => ev[i]) (fun i => al[(i : ℕ)]?.getD 0) L.toNat l =
        polyAt lib' (fun i : Fin ev.length => ev[i]) (fun i => al'[(i : ℕ)]?.getD 0) L.toNat l := by
      intro l
      unfold polyAt coefAt
      rw [lstsq_unique lib lib']
      funext j
      have e : ∀ b : Fin ev.length → ℝ, ((sysAt (fun i : Fin ev.length => ev[i]) L.toNat (l + 1)).transpose.mulVec b) j =
          if (j : ℕ) < l + 1 then ∑ i : Fin ev.length, ev[i] ^ (j : ℕ) * b i else 0 := by
        intro b
        have : ((sysAt (fun i : Fin ev.length => ev[i]) L.toNat (l + 1)).transpose.mulVec b) j =
          ∑ i, sysAt (fun i : Fin ev.length => ev[i]) L.toNat (l + 1) i j * b i := rfl
        rw [this]
        simp only [sysAt, Matrix.of_apply]
        split_ifs <;> simp
      rw [e, e]
      split_ifs
      · exact hal j
      · rfl
    simp only [hp, h.aeval_diag, h'.aeval_diag]
  · unfold applyFilter
    rw [← hlen]
    split_ifs with a b c
    · rfl
    · rfl
    · rfl
    · exact absurd ⟨by omega, not_not.1 c⟩ hL

private theorem eig_or (lib lib' : NumLib) {A : Matrix (Fin n) (Fin n) ℝ} (hA : SymmPSD A) :
    (getEigendecomposition lib (.ndarray A) = .error .valueError ∧
      getEigendecomposition lib' (.ndarray A) = .error .valueError) ∨
    ∃ U U' w v, getEigendecomposition lib (.ndarray A) = .ok (U, v) ∧
      getEigendecomposition lib' (.ndarray A) = .ok (U', v) ∧ IsEig A U w ∧ IsEig A U' w := by
  rcases Nat.eq_zero_or_pos n with h0 | h0
  · left; subst h0; exact ⟨rfl, rfl⟩
  · right
    have e2 := lib'.isEig hA
    refine ⟨_, (lib'.eigh n A).2, _, _, getEigendecomposition_dense lib h0 A _, ?_, lib.isEig hA, ?_⟩
    · rw [getEigendecomposition_dense lib' h0, eigh_vals lib' lib hA.1]
    · rw [eigh_vals lib' lib hA.1] at e2; exact e2

private theorem trueSignal_same (lib lib' : NumLib) (sc : SC ℝ) (f : Fin sc.E → ℝ) (c : String) :
    sc.getTrueSignal lib f c = sc.getTrueSignal lib' f c := C129_flows lib lib' sc f c _ _

private theorem pMatrix_cases (sc : SC ℝ) (c : String) :
    sc.getPMatrix c = .error .valueError ∨ ∃ P, sc.getPMatrix c = .ok P ∧ SymmPSD P := by
  unfold SC.getPMatrix
  split_ifs
  · exact .inr ⟨_, rfl, symmPSD_L1 sc⟩
  · exact .inr ⟨_, rfl, symmPSD_L1l sc⟩
  · exact .inr ⟨_, rfl, symmPSD_L1u sc⟩
  · exact .inl rfl

/-- C129: the least-squares filter of the second type. -/
theorem C129_ls_type_two (lib lib' : NumLib) (sc : SC ℝ) (st : FilterSt sc.E) (f : Fin sc.E → ℝ)
    (component : String) (L : Int) (tol : ℝ) :
    LSFilter.typeTwo lib sc st f component L tol = LSFilter.typeTwo lib' sc st f component L tol := by
  unfold LSFilter.typeTwo
  congr 1
  unfold LSFilter.typeTwoDesign
  rw [trueSignal_same lib lib']
  have key : ∀ (P : Matrix (Fin sc.E) (Fin sc.E) ℝ), SymmPSD P → ∀ K K' :
      Matrix (Fin sc.E) (Fin sc.E) ℝ × (Fin sc.E → ℝ) → Py (Applied sc.E),
      (∀ U U' v w, IsEig P U w → IsEig P U' w → K (U, v) = K' (U', v)) →
      (getEigendecomposition lib (.ndarray P) >>= K) = (getEigendecomposition lib' (.ndarray P) >>= K') := by
    intro P hP K K' hK
    rcases eig_or lib lib' hP with ⟨a, b⟩ | ⟨U, U', w, v, a, b, c, d⟩
    · rw [a, b]; rfl
    · rw [a, b]; exact hK U U' v w c d
  split_ifs
  · refine key _ (symmPSD_L1l sc) _ _ fun U U' v w h h' => ?_
    cases sc.getTrueSignal lib' f component with
    | error x => rfl
    | ok t => exact applyFilter_moments lib lib' f t h h' _ _ _ L rfl fun _ => rfl
  · refine key _ (symmPSD_L1u sc) _ _ fun U U' v w h h' => ?_
    cases sc.getTrueSignal lib' f component with
    | error x => rfl
    | ok t => exact applyFilter_moments lib lib' f t h h' _ _ _ L rfl fun _ => rfl
  · rfl

/-- C129: the general least-squares filter: the three flows and the history of the object. -/
theorem C129_ls_general (lib lib' : NumLib) (sc : SC ℝ) (st : FilterSt sc.E) (f : Fin sc.E → ℝ)
    (L1 L2 : Int) (tol : ℝ) :
    LSFilter.generalFilter lib sc st f L1 L2 tol = LSFilter.generalFilter lib' sc st f L1 L2 tol := by
  unfold LSFilter.generalFilter
  simp only [C129_ls_type_two lib lib']

private theorem applyFilterF_same (lib lib' : NumLib) (f fTrue : Fin E → ℝ) {P U U' : Matrix (Fin E) (Fin E) ℝ}
    {w : Fin E → ℝ} (h : IsEig P U w) (h' : IsEig P U' w) (data : Option (List ℝ × List ℝ)) (L : Int) :
    GridFilter.applyFilterF lib f fTrue P U data L = GridFilter.applyFilterF lib' f fTrue P U' data L := by
  unfold GridFilter.applyFilterF
  cases data with
  | none => rfl
  | some d => exact applyFilter_moments lib lib' f fTrue h h' _ _ _ L rfl fun _ => rfl

/-- C129: the grid-based filters. -/
theorem C129_grid (lib lib' : NumLib) (sc : SC ℝ) (st : FilterSt sc.E) (f fTrue : Fin sc.E → ℝ)
    (component pChoice : String) (L L1 L2 num : Int) (mu cutOff steep : ℝ) :
    GridFilter.denoise lib sc st f fTrue pChoice L mu = GridFilter.denoise lib' sc st f fTrue pChoice L mu ∧
    GridFilter.subcomponentExtraction lib sc st f component pChoice L num mu cutOff steep =
      GridFilter.subcomponentExtraction lib' sc st f component pChoice L num mu cutOff steep ∧
    GridFilter.generalFilter lib sc st f L1 L2 = GridFilter.generalFilter lib' sc st f L1 L2 := by
  have ext : ∀ (st : FilterSt sc.E) (component pChoice : String) (L num : Int) (mu cutOff steep : ℝ),
      GridFilter.subcomponentExtraction lib sc st f component pChoice L num mu cutOff steep =
      GridFilter.subcomponentExtraction lib' sc st f component pChoice L num mu cutOff steep := by
    intro st component pChoice L num mu cutOff steep
    unfold GridFilter.subcomponentExtraction
    congr 1
    unfold GridFilter.extractionDesign
    rw [trueSignal_same lib lib']
    rcases pMatrix_cases sc pChoice with h | ⟨P, h, hP⟩
    · rw [h]; rfl
    · rw [h]
      simp only [bind, Except.bind]
      rcases eig_or lib lib' hP with ⟨a, b⟩ | ⟨U, U', w, v, a, b, c, d⟩
      · rw [a, b]
      · rw [a, b]
        simp only
        cases GridFilter.sampledResponse P num mu with
        | error x => rfl
        | ok s =>
          simp only
          cases sc.getTrueSignal lib' f component with
          | error x => rfl
          | ok t => exact applyFilterF_same lib lib' f t c d _ L
  refine ⟨?_, ext st component pChoice L num mu cutOff steep, ?_⟩
  · unfold GridFilter.denoise
    congr 1
    unfold GridFilter.denoiseDesign
    rcases pMatrix_cases sc pChoice with h | ⟨P, h, hP⟩
    · rw [h]; rfl
    · rw [h]
      simp only [bind, Except.bind]
      rcases eig_or lib lib' hP with ⟨a, b⟩ | ⟨U, U', w, v, a, b, c, d⟩
      · rw [a, b]
      · rw [a, b]
        simp only
        cases GridFilter.sampledResponse P sc.E mu with
        | error x => rfl
        | ok s => exact applyFilterF_same lib lib' f fTrue c d _ L
  · unfold GridFilter.generalFilter
    simp only [ext]

/-- C129: edge-flow denoising. -/
theorem C129_edge_flow (lib lib' : NumLib) (sc : SC ℝ) (st : FilterSt sc.E) (f fTrue : Fin sc.E → ℝ)
    (pChoice : String) (muVals : List ℝ) :
    edgeFlowDenoise lib sc st f fTrue pChoice muVals = edgeFlowDenoise lib' sc st f fTrue pChoice muVals := by
  have key : edgeFlowDesign lib sc f fTrue pChoice muVals = edgeFlowDesign lib' sc f fTrue pChoice muVals := by
    unfold edgeFlowDesign
    rcases pMatrix_cases sc pChoice with h | ⟨P, h, hP⟩
    · rw [h]; rfl
    · rw [h]
      simp only [bind, Except.bind]
      rcases eig_or lib lib' hP with ⟨a, b⟩ | ⟨U, U', w, v, a, b, c, d⟩
      · rw [a, b]
      · rw [a, b]
        simp only
        have hm : muPass P U f fTrue = muPass P U' f fTrue := by
          funext mu
          unfold muPass npInv
          split_ifs with hdet
          · rfl
          · simp only [bind, Except.bind, pure, Except.pure]
            have hu : IsUnit (1 + mu • P).det := isUnit_iff_ne_zero.2 hdet
            have diag : ∀ V, IsEig P V w → ∀ k, (V.transpose * (1 + mu • P)⁻¹ * V) k k = (1 + mu * w k)⁻¹ := by
              intro V hV k
              have h1 : (1 + mu • P) * V = V * diagonal (fun i => 1 + mu * w i) := by
                rw [add_mul, one_mul, smul_mul_assoc, hV.eig]
                ext i j
                simp [Matrix.mul_diagonal]; ring
              have h2 : V.transpose * (1 + mu • P)⁻¹ * V * diagonal (fun i => 1 + mu * w i) = 1 := by
                rw [mul_assoc, ← h1, ← mul_assoc, mul_assoc V.transpose, Matrix.nonsing_inv_mul _ hu,
                  mul_one, hV.orth]
              have h3 := congrFun (congrFun h2 k) k
              rw [Matrix.mul_diagonal, Matrix.one_apply_eq] at h3
              exact eq_inv_of_mul_eq_one_left h3
            congr 2
            funext k
            rw [diag U c, diag U' d]
        rw [hm]
  unfold edgeFlowDenoise
  rw [key]

/-- C129: the least-squares filter of the first type, although the mask it is fitted to depends on how
ties between eigenvalues are broken. -/
theorem C129_ls_type_one (lib lib' : NumLib) {sc : SC ℝ} (hw : sc.WellFormed) (st : FilterSt sc.E) (f : Fin sc.E → ℝ)
    (component : String) (L : Int) :
    LSFilter.typeOne lib sc st f component L = LSFilter.typeOne lib' sc st f component L := by
  unfold LSFilter.typeOne
  congr 1
  unfold LSFilter.typeOneDesign
  rw [trueSignal_same lib lib']
  rcases Nat.eq_zero_or_pos sc.E with h0 | h0
  · simp [getEigendecomposition, h0, bind, Except.bind]
  rw [getEigendecomposition_dense lib h0, getEigendecomposition_dense lib' h0]
  simp only [bind, Except.bind]
  by_cases hc : component = "harmonic" ∨ component = "curl" ∨ component = "gradient"
  · cases sc.getTrueSignal lib' f component with
    | error x => rfl
    | ok t =>
    obtain ⟨eh, ec, eg, hp⟩ := EigParts.exists lib sc (1 / 1000) h0
    obtain ⟨eh', hh', sh⟩ := C129_eigenpairs lib lib' sc _ _ eh hp.harm
    obtain ⟨ec', hc', sc'⟩ := C129_eigenpairs lib lib' sc _ _ ec hp.curl
    obtain ⟨eg', hg', sg⟩ := C129_eigenpairs lib lib' sc _ _ eg hp.grad
    obtain ⟨al, ha, la, ma⟩ := coeffs_moment hw hp component hc
    obtain ⟨al', ha', la', ma'⟩ := coeffs_moment hw ⟨hh', hc', hg'⟩ component hc
    have hv : allVals eh' ec' eg' = allVals eh ec eg := by
      unfold allVals; rw [sh.1, sc'.1, sg.1]
    rw [ha, ha']
    simp only
    have e1 := lib.isEig (symmPSD_L1 sc)
    have e2 := lib'.isEig (symmPSD_L1 sc)
    rw [eigh_vals lib' lib (symmPSD_L1 sc).1] at e2 ma' ⊢
    refine applyFilter_moments lib lib' f t e1 e2 _ _ _ L (by rw [la, la']) fun k => ?_
    generalize hsn : (fun i => if |(lib.eigh sc.E sc.L1).1 i| < machineEps then 0 else (lib.eigh sc.E sc.L1).1 i) = v
      at ma ma' ⊢
    have conv : ∀ b : List ℝ, (∑ i : Fin (List.ofFn v).length, (List.ofFn v)[i] ^ k * b[(i : ℕ)]?.getD 0) =
        ((List.finRange sc.E).map fun i : Fin sc.E =>
          (if |(lib.eigh sc.E sc.L1).1 i| < machineEps then 0 else (lib.eigh sc.E sc.L1).1 i) ^ k *
            b[(i : ℕ)]?.getD 0).sum := by
      intro b
      subst hsn
      rw [← List.ofFn_eq_map, List.sum_ofFn]
      refine Fintype.sum_equiv (finCongr (by simp)) _ _ fun i => ?_
      simp only [Fin.getElem_fin, List.getElem_ofFn, finCongr_apply, Fin.val_cast]
      rfl
    rw [conv, conv, ma, ma', hv, (C129_projector _ _ sh).1, (C129_projector _ _ sc').1]
  · push Not at hc
    rw [C49_names component hc.1 hc.2.1 hc.2.2, C49_names component hc.1 hc.2.1 hc.2.2]

/-- whether the mask of a component exists depends only on the eigenvalues -/
theorem mask_transfer (lib lib' : NumLib) (sc sc' : SC ℝ) (hE : sc.E = sc'.E)
    (hp : ∀ c e, sc.getComponentEigenpair lib c = .ok e →
      ∃ e', sc'.getComponentEigenpair lib' c = .ok e' ∧ List.ofFn e.vals = List.ofFn e'.vals)
    (component : String) (al : List ℝ) (h : sc.getComponentCoefficients lib component = .ok al) :
    ∃ al', sc'.getComponentCoefficients lib' component = .ok al' ∧ al'.length = al.length := by
  unfold SC.getComponentCoefficients at h ⊢
  cases h1 : sc.getComponentEigenpair lib "harmonic" with
  | error x => rw [h1] at h; cases h
  | ok a =>
  cases h2 : sc.getComponentEigenpair lib "curl" with
  | error x => rw [h1, h2] at h; cases h
  | ok b =>
  cases h3 : sc.getComponentEigenpair lib "gradient" with
  | error x => rw [h1, h2, h3] at h; cases h
  | ok c =>
  obtain ⟨a', ha, sa⟩ := hp _ a h1
  obtain ⟨b', hb, sb⟩ := hp _ b h2
  obtain ⟨c', hc, sq⟩ := hp _ c h3
  have main : ∀ (g g' : ℕ → ℝ),
      ((lib.argsort (List.ofFn a.vals ++ List.ofFn b.vals ++ List.ofFn c.vals)).mapM fun i =>
        match ((List.range sc.E).map g)[i]? with
        | some x => (.ok x : Py ℝ)
        | none => .error .indexError) = .ok al →
      ∃ al', ((lib'.argsort (List.ofFn a'.vals ++ List.ofFn b'.vals ++ List.ofFn c'.vals)).mapM fun i =>
        match ((List.range sc'.E).map g')[i]? with
        | some x => (.ok x : Py ℝ)
        | none => .error .indexError) = .ok al' ∧ al'.length = al.length := by
    intro g g' hm
    have hf := mapM_eq_ok hm
    refine ⟨_, mapM_ok _ _ g' fun i hi => ?_, ?_⟩
    swap
    · rw [List.length_map, ← hf.length_eq, (lib'.argsort_perm _).length_eq, (lib.argsort_perm _).length_eq,
        sa, sb, sq]
    rw [← sa, ← sb, ← sq] at hi
    have hi' := (lib.argsort_perm _).mem_iff.2 ((lib'.argsort_perm _).mem_iff.1 hi)
    obtain ⟨q, hq, hqi⟩ := List.getElem_of_mem hi'
    have hy := hf.get hq (hf.length_eq ▸ hq)
    simp only [List.get_eq_getElem, hqi] at hy
    by_cases hlt : i < sc.E
    · rw [List.getElem?_map, List.getElem?_range (hE ▸ hlt)]; rfl
    · rw [List.getElem?_eq_none (by simpa using hlt)] at hy; cases hy
  rw [h1, h2, h3] at h
  rw [ha, hb, hc]
  simp only [bind, Except.bind] at h ⊢
  split_ifs at h ⊢
  · exact main _ _ h
  · exact main _ _ h
  · exact main _ _ h

/-- C129: the Chebyshev filter: the filters, the estimates and their errors. -/
theorem C129_chebyshev (lib lib' : NumLib) (series : ChebSeries) (sc : SC ℝ) (f : Fin sc.E → ℝ)
    (pChoice component : String) (L : ℕ) (k : Option ℕ) (cutOff steep : ℝ) (d : Design sc.E)
    (h : Cheb.applyDesign lib series sc f pChoice component L k cutOff steep = .ok d) :
    ∃ d', Cheb.applyDesign lib' series sc f pChoice component L k cutOff steep = .ok d' ∧
      d'.filter = d.filter ∧ d'.fEstimated = d.fEstimated ∧
      d'.extractedComponentError = d.extractedComponentError := by
  unfold Cheb.applyDesign at h ⊢
  rw [trueSignal_same lib lib'] at h
  simp only [bind, Except.bind] at h ⊢
  rcases eig_or lib lib' (symmPSD_L1 sc) with ⟨a, -⟩ | ⟨U, U', w, v, a, b, -, -⟩
  · rw [a] at h; cases h
  rw [a] at h
  rw [b]
  simp only at h ⊢
  rcases pMatrix_cases sc pChoice with hP | ⟨P, hP, hS⟩
  · rw [hP] at h; cases h
  rw [hP] at h ⊢
  simp only at h ⊢
  rcases eig_or lib lib' hS with ⟨a', -⟩ | ⟨V, V', w', v', a', b', -, -⟩
  · rw [a'] at h; cases h
  rw [a'] at h
  rw [b']
  simp only at h ⊢
  cases ht : sc.getTrueSignal lib' f component with
  | error x => rw [ht] at h; cases h
  | ok t =>
  rw [ht] at h
  simp only at h ⊢
  cases hm : sc.getComponentCoefficients lib component with
  | error x => rw [hm] at h; cases h
  | ok al =>
  obtain ⟨al', hm', hlen⟩ := mask_transfer lib lib' sc sc rfl
    (fun c e he => (C129_eigenpairs lib lib' sc c _ e he).imp fun _ hx => ⟨hx.1, hx.2.1⟩) component al hm
  rw [hm] at h
  rw [hm']
  simp only at h ⊢
  have hL1 : sc.getPMatrix "L1" = .ok sc.L1 := by simp [SC.getPMatrix]
  unfold Cheb.getIdealFrequency at h ⊢
  simp only [hL1, a, bind, Except.bind, pure, Except.pure] at h
  simp only [hL1, b, hlen, bind, Except.bind, pure, Except.pure]
  cases hα : Cheb.getAlpha sc pChoice with
  | error x => rw [hα] at h; cases h
  | ok p =>
  rw [hα] at h
  simp only at h ⊢
  cases hs : series (if k.getD 0 = 0 then L else k.getD 0) 0 p.2 cutOff steep with
  | error x => rw [hs] at h; cases h
  | ok co =>
  rw [hs] at h
  simp only at h ⊢
  split_ifs at h ⊢
  all_goals
    simp only at h ⊢
    cases hF : Cheb.frequencyApprox sc pChoice co p.1 L with
    | error x => rw [hF] at h; cases h
    | ok H =>
    rw [hF] at h
    cases h
    try exact ⟨_, rfl, rfl, rfl, rfl⟩


/-! ## The theorems compare libraries that do return different arrays -/

/-- a library that returns the eigenvectors of `lib` with the opposite sign -/
noncomputable def NumLib.flip (lib : NumLib) : NumLib where
  eigh n A := ((lib.eigh n A).1, -(lib.eigh n A).2)
  eigh_spec n A hA := by
    obtain ⟨h1, h2, h3⟩ := lib.eigh_spec n A hA
    refine ⟨h1, ?_, ?_⟩
    · rw [transpose_neg, neg_mul_neg, h2]
    · rw [mul_neg, neg_mul, h3]
  lstsq := lib.lstsq
  lstsq_min := lib.lstsq_min
  lstsq_least := lib.lstsq_least
  argsort := lib.argsort
  argsort_perm := lib.argsort_perm
  argsort_sorted := lib.argsort_sorted

/-- `lib` and `lib.flip` return different eigenvectors for every non-empty symmetric matrix -/
theorem NumLib.flip_ne (lib : NumLib) (hn : 0 < n) {A : Matrix (Fin n) (Fin n) ℝ} (hA : A.transpose = A) :
    (lib.flip.eigh n A).2 ≠ (lib.eigh n A).2 := by
  intro h
  have h1 : -(lib.eigh n A).2 = (lib.eigh n A).2 := h
  have h0 : (lib.eigh n A).2 = 0 := by
    ext i j
    have h3 : -((lib.eigh n A).2 i j) = (lib.eigh n A).2 i j := congrFun (congrFun h1 i) j
    have h4 : (lib.eigh n A).2 i j = 0 := by linarith
    exact h4
  have h2 := (lib.eigh_spec n A hA).2.1
  rw [h0, mul_zero] at h2
  have := congrFun (congrFun h2 ⟨0, hn⟩) ⟨0, hn⟩
  simp at this

/-- C129 is not vacuous: for two triangles that share no node two correct libraries return different
eigenvectors of the Hodge Laplacian, which has the same eigenvalue 3 for gradient and curl flows, and yet
the filters agree. -/
example : ∃ lib lib' : NumLib, twoTri.WellFormed ∧
    (lib.eigh twoTri.E twoTri.L1).2 ≠ (lib'.eigh twoTri.E twoTri.L1).2 ∧
    ∀ f, LSFilter.typeOne lib twoTri (initFilter _) f "gradient" 2 =
      LSFilter.typeOne lib' twoTri (initFilter _) f "gradient" 2 := by
  obtain ⟨lib⟩ := NumLib.exists
  exact ⟨lib.flip, lib, twoTri_wellFormed, lib.flip_ne (by decide) (symmPSD_L1 twoTri).1,
    fun f => C129_ls_type_one _ _ twoTri_wellFormed _ _ _ _⟩

end Pytspl
