import Verif.Lemmas.GpLib
import Verif.Props.Eigen
import Verif.Lemmas.ConcreteEig

/-!
# Properties of the Hodge Gaussian process: C72 to C76
-/

namespace Pytspl

open Matrix

variable {lib : NumLib} {sc : SC ℝ} {tol : ℝ} {E : ℕ}

private theorem bind_ok {α β : Type} {x : Py α} {f : α → Py β} {r : β} (h : (x >>= f) = .ok r) :
    ∃ a, x = .ok a ∧ f a = .ok r := by
  cases x with
  | error e => cases h
  | ok a => exact ⟨a, rfl, h⟩

private theorem forall2_mem {α β : Type} {R : α → β → Prop} {l : List α} {r : List β} (h : List.Forall₂ R l r)
    {a : α} (ha : a ∈ l) : ∃ b ∈ r, R a b := by
  induction h with
  | nil => cases ha
  | cons hab _ ih =>
    rcases List.mem_cons.1 ha with rfl | h
    · exact ⟨_, by simp, hab⟩
    · obtain ⟨b, hb, hr⟩ := ih h
      exact ⟨b, by simp [hb], hr⟩

/-! ## C75: parameters -/

/-- C75: every parameter reads as a positive number, whatever its raw value is. -/
theorem C75_positive (k : GpKernel E) (name : String) (h : name ∈ k.type.params) :
    ∃ v, k.get name = .ok v ∧ 0 < v :=
  ⟨_, by rw [GpKernel.get, if_pos h], softplus_pos _⟩

/-- C75: setting a parameter to `v > 0` makes it read `v`, and changes nothing else. -/
theorem C75_set_get (k : GpKernel E) (name : String) (h : name ∈ k.type.params) (v : ℝ) (hv : 0 < v) :
    ∃ k', k.set name v = .ok k' ∧ k'.get name = .ok v ∧
      (∀ other, other ≠ name → k'.get other = k.get other) ∧ k'.type = k.type ∧ k'.eig = k.eig := by
  refine ⟨{ k with raw := Function.update k.raw name (invSoftplus v) }, ?_, ?_, ?_, rfl, rfl⟩
  · rw [GpKernel.set, if_pos h, if_neg (by linarith), if_neg hv.ne']
  · simp only [GpKernel.get]
    rw [if_pos h, Function.update_self, softplus_invSoftplus hv]
  · intro other ho
    simp only [GpKernel.get]
    rw [Function.update_of_ne ho]

/-- C75: after any sequence of positive assignments every parameter reads the value last assigned to it, or
its previous value if there was none. -/
theorem C75_sequence (k : GpKernel E) (assignments : List (String × ℝ))
    (h : ∀ a ∈ assignments, a.1 ∈ k.type.params ∧ 0 < a.2) :
    ∃ k', assignments.foldlM (fun k a => k.set a.1 a.2) k = .ok k' ∧ k'.type = k.type ∧
      ∀ name ∈ k.type.params, k'.get name =
        match assignments.reverse.find? (fun a => a.1 = name) with
        | some a => .ok a.2
        | none => k.get name := by
  induction assignments using List.reverseRecOn with
  | nil => exact ⟨k, rfl, rfl, fun _ _ => rfl⟩
  | append_singleton l a ih =>
    obtain ⟨k1, e1, t1, g1⟩ := ih fun b hb => h b (by simp [hb])
    obtain ⟨hm, hv⟩ := h a (by simp)
    obtain ⟨k2, e2, g2, o2, t2, -⟩ := C75_set_get k1 a.1 (by rw [t1]; exact hm) a.2 hv
    refine ⟨k2, ?_, by rw [t2, t1], fun name hn => ?_⟩
    · rw [List.foldlM_append, e1]
      show (List.foldlM (fun (k : GpKernel E) a => k.set a.1 a.2) k1 [a] : Py _) = _
      rw [List.foldlM_cons, e2]
      rfl
    · rw [List.reverse_append, List.reverse_singleton, List.singleton_append, List.find?_cons]
      by_cases hna : a.1 = name
      · subst hna
        simp only [decide_true]
        exact g2
      · simp only [hna, decide_false]
        rw [o2 name (Ne.symm hna)]
        exact g1 name hn

/-- C75: negative values are refused; every parameter of a new kernel reads `log 2`. -/
theorem C75_refused_and_initial (k : GpKernel E) (type : KernelType) (eig : GpEigenpairs E) (name : String) :
    (name ∈ k.type.params → ∀ v, v < 0 → k.set name v = .error .runtimeError) ∧
    (name ∈ type.params → (GpKernel.create type eig).get name = .ok (Real.log 2)) ∧
    (name ∉ k.type.params → k.get name = .error .attributeError) := by
  refine ⟨fun h v hv => by rw [GpKernel.set, if_pos h, if_pos hv], fun h => ?_, fun h => by
    rw [GpKernel.get, if_neg h]⟩
  have e : (GpKernel.create type eig).get name = .ok (softplus 0) := by
    rw [GpKernel.get, if_pos (show name ∈ (GpKernel.create type eig).type.params from h)]
    rfl
  rw [e, softplus, Real.exp_zero]
  norm_num

/-- the parameters of the kernels, by the name a user asks for -/
def documentedParams (kernel : String) : List String :=
  if kernel = "laplacian" then ["kappa_down", "kappa_up", "mu"]
  else if kernel = "diffusion" ∨ kernel = "diffusion_non_hc" then ["kappa_down", "kappa_up", "h", "h_down", "h_up"]
  else ["kappa", "kappa_down", "kappa_up", "mu", "mu_down", "mu_up", "h", "h_down", "h_up"]

/-- C75: a kernel obtained by name has exactly the parameters of its family. -/
theorem C75_parameters (eig : GpEigenpairs E) (kernel data : String) (k : GpKernel E)
    (h : serialize eig kernel data = .ok k) (name : String) :
    (∃ v, k.get name = .ok v) ↔ name ∈ documentedParams kernel := by
  have hget : (∃ v, k.get name = .ok v) ↔ name ∈ k.type.params := by
    constructor
    · rintro ⟨v, hv⟩
      by_contra hn
      rw [GpKernel.get, if_neg hn] at hv
      cases hv
    · intro hn
      exact ⟨_, by rw [GpKernel.get, if_pos hn]⟩
  rw [hget]
  unfold serialize getSerializer at h
  split_ifs at h with h1 h2
  · simp only [kernelNames, List.mem_cons, List.not_mem_nil, or_false] at h1
    rcases h1 with rfl | rfl | rfl | rfl | rfl | rfl <;> first
      | (obtain rfl := (Except.ok.inj h).symm
         simp [documentedParams, GpKernel.create, KernelType.params]
         try tauto)
      | cases h
  · cases h
  · cases h

/-! ## C76: choosing a kernel -/

/-- C76, except for the advertised name `laplacian_non_hc`: kernels are built exactly for the data name
`forex` and the five other names, and every other combination raises `ValueError`.  Missing:
`laplacian_non_hc` (`C76_counterexample`). -/
theorem C76_table_partial (eig : GpEigenpairs E) (kernel data : String) (hn : kernel ≠ "laplacian_non_hc") :
    ((∃ k, serialize eig kernel data = .ok k) ↔ data = "forex" ∧
      kernel ∈ ["diffusion", "diffusion_non_hc", "matern", "matern_non_hc", "laplacian"]) ∧
    ((∀ k, serialize eig kernel data ≠ .ok k) → serialize eig kernel data = .error .valueError) := by
  by_cases h1 : kernel ∈ kernelNames
  · have h2 : kernel ∈ ["diffusion", "diffusion_non_hc", "matern", "matern_non_hc", "laplacian"] := by
      simp only [kernelNames, List.mem_cons, List.not_mem_nil, or_false] at h1 ⊢
      tauto
    by_cases hd : data = "forex"
    · have h3 : ∃ k, serialize eig kernel data = .ok k := by
        unfold serialize getSerializer
        rw [if_neg (not_not.2 h1), if_pos hd]
        simp only [List.mem_cons, List.not_mem_nil, or_false] at h2
        rcases h2 with rfl | rfl | rfl | rfl | rfl <;> exact ⟨_, rfl⟩
      exact ⟨⟨fun _ => ⟨hd, h2⟩, fun _ => h3⟩, fun h => by
        obtain ⟨k, hk⟩ := h3; exact absurd hk (h k)⟩
    · have h3 : serialize eig kernel data = .error .valueError := by
        unfold serialize getSerializer
        rw [if_neg (not_not.2 h1), if_neg hd]
        rfl
      refine ⟨⟨fun ⟨k, hk⟩ => ?_, fun h => absurd h.1 hd⟩, fun _ => h3⟩
      rw [h3] at hk; cases hk
  · have h3 : serialize eig kernel data = .error .valueError := by
      unfold serialize getSerializer
      rw [if_pos h1]
      rfl
    refine ⟨⟨fun ⟨k, hk⟩ => ?_, fun h => ?_⟩, fun _ => h3⟩
    · rw [h3] at hk; cases hk
    · exfalso
      apply h1
      have := h.2
      simp only [kernelNames, List.mem_cons, List.not_mem_nil, or_false] at this ⊢
      tauto

/-- C76 is false for `laplacian_non_hc`: it is among the names the package advertises, and asking for it
raises `KeyError`. -/
theorem C76_counterexample (eig : GpEigenpairs E) :
    "laplacian_non_hc" ∈ kernelNames ∧
    serialize eig "laplacian_non_hc" "forex" = .error .keyError := ⟨by decide, rfl⟩

/-- C76: each name builds its own kernel, over the eigenpairs given. -/
theorem C76_types (eig : GpEigenpairs E) :
    serialize eig "diffusion" "forex" = .ok (GpKernel.create .diffusion eig) ∧
    serialize eig "diffusion_non_hc" "forex" = .ok (GpKernel.create .diffusionNonHC eig) ∧
    serialize eig "matern" "forex" = .ok (GpKernel.create .matern eig) ∧
    serialize eig "matern_non_hc" "forex" = .ok (GpKernel.create .maternNonHC eig) ∧
    serialize eig "laplacian" "forex" = .ok (GpKernel.create .laplacian eig) :=
  ⟨rfl, rfl, rfl, rfl, rfl⟩

/-! ## The covariance matrix -/

/-- the kernel was built over the eigenpairs of the complex; its parameters may have any values -/
def GpKernel.FromComplex (k : GpKernel sc.E) (lib : NumLib) (tol : ℝ) : Prop :=
  sc.gpEigenpairs lib tol = .ok k.eig

private theorem edges_pos {eig : GpEigenpairs sc.E} (h : sc.gpEigenpairs lib tol = .ok eig) : 0 < sc.E := by
  by_contra h0
  have h0' : sc.E = 0 := by omega
  obtain ⟨a, h1, -⟩ := bind_ok h
  simp only [SC.getComponentEigenpair, if_true, getHarmonicEigenpair, getEigendecomposition, h0', bind,
    Except.bind] at h1
  cases h1

theorem fromComplex_eig {k : GpKernel sc.E} (hk : k.FromComplex lib tol) :
    0 < sc.E ∧ k.eig =
      ⟨selectPairs (lib.eigh _ sc.L1).2 (snapVals (lib.eigh _ sc.L1).1) (fun x => x ≤ tol),
        selectPairs (lib.eigh _ sc.L1l).2 (snapVals (lib.eigh _ sc.L1l).1) (fun x => tol < x),
        selectPairs (lib.eigh _ sc.L1u).2 (snapVals (lib.eigh _ sc.L1u).1) (fun x => tol ≤ x)⟩ := by
  have hE := edges_pos hk
  refine ⟨hE, ?_⟩
  have h := gpEigenpairs_eq lib sc hE tol
  rw [hk] at h
  exact Except.ok.inj h

theorem vals_pos {k : GpKernel sc.E} (hk : k.FromComplex lib tol) (ht : 0 < tol) :
    (∀ j, 0 ≤ k.eig.harm.vals j) ∧ (∀ j, 0 < k.eig.grad.vals j) ∧ (∀ j, 0 < k.eig.curl.vals j) := by
  obtain ⟨-, h⟩ := fromComplex_eig hk
  rw [h]
  refine ⟨fun j => ?_, fun j => ?_, fun j => ?_⟩
  · have : ∀ i, 0 ≤ snapVals (lib.eigh _ sc.L1).1 i := by
      intro i
      unfold snapVals
      split
      · exact le_rfl
      · exact (lib.isEig (symmPSD_L1 sc)).nonneg (symmPSD_L1 sc) i
    exact this _
  · exact ht.trans (sel_cond (cond := fun x => tol < x) j)
  · exact ht.trans_le (sel_cond (cond := fun x => tol ≤ x) j)

/-- the covariance between all pairs of edges -/
noncomputable def fullCov (k : GpKernel E) : Matrix (Fin E) (Fin E) ℝ :=
  k.weight 0 • sandwich k.eig.harm (fun j => k.kap 0 (k.eig.harm.vals j)) id id +
  k.weight 1 • sandwich k.eig.grad (fun j => k.kap 1 (k.eig.grad.vals j)) id id +
  k.weight 2 • sandwich k.eig.curl (fun j => k.kap 2 (k.eig.curl.vals j)) id id

theorem evalCovar_ok {k : GpKernel sc.E} (hk : k.FromComplex lib tol) (ht : 0 < tol) :
    k.evalCovar = .ok (fun j => k.kap 0 (k.eig.harm.vals j), fun j => k.kap 1 (k.eig.grad.vals j),
      fun j => k.kap 2 (k.eig.curl.vals j)) := by
  obtain ⟨h0, h1, h2⟩ := vals_pos hk ht
  unfold GpKernel.evalCovar
  rw [finiteVec_some fun j => (k.density_some 0 (h0 j) (.inl rfl)).1,
    finiteVec_some fun j => (k.density_some 1 (h1 j).le (.inr (h1 j))).1,
    finiteVec_some fun j => (k.density_some 2 (h2 j).le (.inr (h2 j))).1]
  rfl

theorem cov_ok {k : GpKernel sc.E} (hk : k.FromComplex lib tol) (ht : 0 < tol)
    (r1 r2 : List (Fin sc.E)) :
    k.cov r1 r2 = .ok (Matrix.of fun a b => fullCov k (r1.get a) (r2.get b)) := by
  unfold GpKernel.cov
  rw [evalCovar_ok hk ht]
  rfl

theorem rows_ok (xs : List ℚ) (n : ℕ)
    (h : ∀ a ∈ xs, -(n : Int) ≤ toLong a ∧ toLong a < n) :
    ∃ r, torchRows n xs = .ok r ∧ r.length = xs.length := by
  cases hr : torchRows n xs with
  | ok r =>
    refine ⟨r, rfl, ?_⟩
    exact (mapM_eq_ok hr).length_eq.symm
  | error e =>
    exfalso
    obtain ⟨a, ha, he⟩ := mapM_error hr
    obtain ⟨h1, h2⟩ := h a ha
    unfold npIdx at he
    split_ifs at he with h3 h4
    omega

/-- the tensor of the given edge numbers -/
def edgeTensor {n : ℕ} (r : List (Fin n)) : List ℚ := r.map fun i : Fin n => ((i : ℕ) : ℚ)

private theorem toLong_cast (i : ℕ) : toLong (i : ℚ) = i := by
  simp [toLong]

theorem rows_cast {n : ℕ} (r : List (Fin n)) :
    torchRows n (edgeTensor r) = .ok r := by
  unfold torchRows edgeTensor
  induction r with
  | nil => rfl
  | cons a r ih =>
    rw [List.map_cons, List.mapM_cons, ih]
    have : npIdx n (toLong ((a : ℕ) : ℚ)) = .ok a := by
      rw [toLong_cast, npIdx, dif_pos ⟨by omega, by have := a.2; omega⟩]
      simp
    rw [this]
    rfl

/-! ## C74: slices and diagonals -/

/-- C74: there is one matrix `K` over all edges, and the covariance between any two lists of edges is the
corresponding slice of it; with `diag` the diagonal of the slice is returned. -/
theorem C74_slices (k : GpKernel sc.E) (hk : k.FromComplex lib tol) (ht : 0 < tol) :
    ∃ K : Matrix (Fin sc.E) (Fin sc.E) ℝ, ∀ r1 r2 : List (Fin sc.E),
      k.forward (edgeTensor r1) (some (edgeTensor r2)) =
        .ok (.mat r1.length r2.length (Matrix.of fun a b => K r1[a] r2[b])) ∧
      k.forward (edgeTensor r1) (some (edgeTensor r2)) true =
        .ok (.diag ((r1.zip r2).map fun p => K p.1 p.2)) := by
  refine ⟨fullCov k, fun r1 r2 => ⟨?_, ?_⟩⟩
  · simp only [GpKernel.forward, rows_cast, bind, Except.bind, cov_ok hk ht]
    rfl
  · simp only [GpKernel.forward, rows_cast, bind, Except.bind, cov_ok hk ht, if_true]
    congr 2
    apply List.ext_getElem
    · simp [matDiag]
    · intro i h1 h2
      simp [matDiag]

/-- C74: for arbitrary inputs the diagonal agrees with the matrix. -/
theorem C74_diag (k : GpKernel E) (x1 x2 : List ℚ) (p q : ℕ) (K : Matrix (Fin p) (Fin q) ℝ)
    (h : k.forward x1 (some x2) = .ok (.mat p q K)) :
    ∃ v, k.forward x1 (some x2) true = .ok (.diag v) ∧ v.length = min p q ∧
      ∀ (i : ℕ) (h1 : i < p) (h2 : i < q), v[i]? = some (K ⟨i, h1⟩ ⟨i, h2⟩) := by
  simp only [GpKernel.forward] at h
  obtain ⟨r1, e1, h⟩ := bind_ok h
  obtain ⟨r2, e2, h⟩ := bind_ok h
  obtain ⟨K', e3, h⟩ := bind_ok h
  cases h
  refine ⟨matDiag K', ?_, by simp [matDiag], fun i h1 h2 => ?_⟩
  · simp only [GpKernel.forward, e1, e2, e3, bind, Except.bind]
    rfl
  · rw [matDiag, List.getElem?_ofFn, dif_pos (by omega)]

/-- C74: an edge index out of range (negative indices count from the end) raises `IndexError`; omitting the
second argument raises `AttributeError`. -/
theorem C74_failures (k : GpKernel E) (x1 x2 : List ℚ) (diag : Bool) :
    k.forward x1 none diag = .error .attributeError ∧
    ((∃ a ∈ x1 ++ x2, toLong a < -(E : Int) ∨ (E : Int) ≤ toLong a) →
      k.forward x1 (some x2) diag = .error .indexError) := by
  have herr : ∀ (xs : List ℚ) (e : PyErr), torchRows E xs = .error e → e = .indexError := by
    intro xs e h
    obtain ⟨a, -, he⟩ := mapM_error h
    unfold npIdx at he
    split_ifs at he
    exact (Except.error.inj he).symm
  have hbad : ∀ xs : List ℚ, (∃ a ∈ xs, toLong a < -(E : Int) ∨ (E : Int) ≤ toLong a) →
      torchRows E xs = .error .indexError := by
    rintro xs ⟨a, ha, hb⟩
    cases hr : torchRows E xs with
    | error e => rw [herr xs e hr]
    | ok r =>
      exfalso
      have hf := mapM_eq_ok hr
      obtain ⟨b, -, hab⟩ := forall2_mem hf ha
      unfold npIdx at hab
      split_ifs at hab with h1 h2 <;> omega
  refine ⟨rfl, ?_⟩
  rintro ⟨a, ha, hb⟩
  simp only [GpKernel.forward]
  rw [List.mem_append] at ha
  cases h1 : torchRows E x1 with
  | error e => rw [herr x1 e h1]; rfl
  | ok r1 =>
    rcases ha with ha | ha
    · rw [hbad x1 ⟨a, ha, hb⟩] at h1; cases h1
    · rw [hbad x2 ⟨a, ha, hb⟩]; rfl

/-! ## C72: valid covariances -/

theorem slice_psd (k : GpKernel sc.E) (hk : k.FromComplex lib tol) (ht : 0 < tol) {p : ℕ}
    (i : Fin p → Fin sc.E) : SymmPSD (Matrix.of fun a b => fullCov k (i a) (i b)) ∧
    ∀ x : Fin p → ℝ, x ⬝ᵥ (Matrix.of fun a b => fullCov k (i a) (i b)).mulVec x =
      k.weight 0 * ∑ j, k.kap 0 (k.eig.harm.vals j) * (∑ a, x a * k.eig.harm.vecs (i a) j) ^ 2 +
      k.weight 1 * ∑ j, k.kap 1 (k.eig.grad.vals j) * (∑ a, x a * k.eig.grad.vecs (i a) j) ^ 2 +
      k.weight 2 * ∑ j, k.kap 2 (k.eig.curl.vals j) * (∑ a, x a * k.eig.curl.vecs (i a) j) ^ 2 := by
  have e : (Matrix.of fun a b => fullCov k (i a) (i b)) =
      k.weight 0 • sandwich k.eig.harm (fun j => k.kap 0 (k.eig.harm.vals j)) i i +
      k.weight 1 • sandwich k.eig.grad (fun j => k.kap 1 (k.eig.grad.vals j)) i i +
      k.weight 2 • sandwich k.eig.curl (fun j => k.kap 2 (k.eig.curl.vals j)) i i := rfl
  have hq : ∀ x : Fin p → ℝ, x ⬝ᵥ (Matrix.of fun a b => fullCov k (i a) (i b)).mulVec x =
      k.weight 0 * ∑ j, k.kap 0 (k.eig.harm.vals j) * (∑ a, x a * k.eig.harm.vecs (i a) j) ^ 2 +
      k.weight 1 * ∑ j, k.kap 1 (k.eig.grad.vals j) * (∑ a, x a * k.eig.grad.vecs (i a) j) ^ 2 +
      k.weight 2 * ∑ j, k.kap 2 (k.eig.curl.vals j) * (∑ a, x a * k.eig.curl.vecs (i a) j) ^ 2 := by
    intro x
    rw [e, add_mulVec, add_mulVec, smul_mulVec, smul_mulVec, smul_mulVec, dotProduct_add, dotProduct_add,
      dotProduct_smul, dotProduct_smul, dotProduct_smul, sandwich_quad, sandwich_quad, sandwich_quad]
    rfl
  obtain ⟨h0, h1, h2⟩ := vals_pos hk ht
  refine ⟨⟨?_, fun x => ?_⟩, hq⟩
  · rw [e, transpose_add, transpose_add, transpose_smul, transpose_smul, transpose_smul, sandwich_symm,
      sandwich_symm, sandwich_symm]
  · rw [hq]
    refine add_nonneg (add_nonneg ?_ ?_) ?_
    · exact mul_nonneg (k.weight_pos 0).le (Finset.sum_nonneg fun j _ =>
        mul_nonneg (k.density_some 0 (h0 j) (.inl rfl)).2.le (sq_nonneg _))
    · exact mul_nonneg (k.weight_pos 1).le (Finset.sum_nonneg fun j _ =>
        mul_nonneg (k.density_some 1 (h1 j).le (.inr (h1 j))).2.le (sq_nonneg _))
    · exact mul_nonneg (k.weight_pos 2).le (Finset.sum_nonneg fun j _ =>
        mul_nonneg (k.density_some 2 (h2 j).le (.inr (h2 j))).2.le (sq_nonneg _))

/-- C72: for every kernel built over the eigenpairs of a complex, whatever its type and parameters, the
covariance matrix of every list of edges (repetitions allowed) is symmetric and positive
semidefinite. -/
theorem C72_psd (k : GpKernel sc.E) (hk : k.FromComplex lib tol) (ht : 0 < tol) (xs : List ℚ)
    (hx : ∀ a ∈ xs, -(sc.E : Int) ≤ toLong a ∧ toLong a < sc.E) :
    ∃ n K, k.forward xs (some xs) = .ok (.mat n n K) ∧ n = xs.length ∧ SymmPSD K := by
  obtain ⟨r, hr, hl⟩ := rows_ok xs sc.E hx
  refine ⟨r.length, Matrix.of fun a b => fullCov k (r.get a) (r.get b), ?_, hl, (slice_psd k hk ht r.get).1⟩
  simp only [GpKernel.forward, hr, bind, Except.bind, cov_ok hk ht]
  rfl

/-- C72: the prior covariance of the exact GP model is a valid covariance too, and its mean is constant
(zero if asked for). -/
theorem C72_prior (m : GpModel sc.E) (hk : m.kernel.FromComplex lib tol) (ht : 0 < tol) (xs : List ℚ)
    (hx : ∀ a ∈ xs, -(sc.E : Int) ≤ toLong a ∧ toLong a < sc.E) :
    ∃ mean n K, m.forward xs = .ok (mean, .mat n n K) ∧ n = xs.length ∧ SymmPSD K ∧
      mean = List.replicate xs.length (m.meanConst.getD 0) := by
  obtain ⟨r, hr, hl⟩ := rows_ok xs sc.E hx
  obtain ⟨hs, hp⟩ := (slice_psd m.kernel hk ht r.get).1
  refine ⟨xs.map fun _ => m.meanConst.getD 0, r.length,
    m.outputscale • Matrix.of fun a b => fullCov m.kernel (r.get a) (r.get b), ?_, hl, ⟨?_, fun x => ?_⟩, ?_⟩
  · simp only [GpModel.forward, hr, bind, Except.bind, cov_ok hk ht]
    rfl
  · rw [transpose_smul, hs]
  · rw [smul_mulVec, dotProduct_smul]
    exact mul_nonneg (softplus_pos _).le (hp x)
  · exact List.map_const' ..

/-- C72: on a consistently oriented complex the covariance of distinct edges is even positive definite. -/
theorem C72_positive_definite (hw : sc.WellFormed) (k : GpKernel sc.E) (hk : k.FromComplex lib tol)
    (ht : machineEps ≤ tol) (r : List (Fin sc.E)) (hr : r.Nodup) :
    ∃ K, k.forward (edgeTensor r) (some (edgeTensor r)) =
      .ok (.mat r.length r.length K) ∧ K.transpose = K ∧ ∀ x, x ≠ 0 → 0 < x ⬝ᵥ K.mulVec x := by
  have htp : 0 < tol := lt_of_lt_of_le machineEps_pos ht
  obtain ⟨⟨hs, -⟩, hq⟩ := slice_psd k hk htp r.get
  refine ⟨_, by simp only [GpKernel.forward, rows_cast, bind, Except.bind, cov_ok hk htp]; rfl, hs, fun x hx => ?_⟩
  rw [hq]
  obtain ⟨v0, v1, v2⟩ := vals_pos hk htp
  have d0 : ∀ j, 0 < k.kap 0 (k.eig.harm.vals j) := fun j => (k.density_some 0 (v0 j) (.inl rfl)).2
  have d1 : ∀ j, 0 < k.kap 1 (k.eig.grad.vals j) := fun j => (k.density_some 1 (v1 j).le (.inr (v1 j))).2
  have d2 : ∀ j, 0 < k.kap 2 (k.eig.curl.vals j) := fun j => (k.density_some 2 (v2 j).le (.inr (v2 j))).2
  have n0 := mul_nonneg (k.weight_pos 0).le (Finset.sum_nonneg fun j (_ : j ∈ Finset.univ) =>
    mul_nonneg (d0 j).le (sq_nonneg (∑ a, x a * k.eig.harm.vecs (r.get a) j)))
  have n1 := mul_nonneg (k.weight_pos 1).le (Finset.sum_nonneg fun j (_ : j ∈ Finset.univ) =>
    mul_nonneg (d1 j).le (sq_nonneg (∑ a, x a * k.eig.grad.vecs (r.get a) j)))
  have n2 := mul_nonneg (k.weight_pos 2).le (Finset.sum_nonneg fun j (_ : j ∈ Finset.univ) =>
    mul_nonneg (d2 j).le (sq_nonneg (∑ a, x a * k.eig.curl.vecs (r.get a) j)))
  rcases (add_nonneg (add_nonneg n0 n1) n2).lt_or_eq with hlt | heq
  · exact hlt
  exfalso
  have z0 := (add_eq_zero_iff_of_nonneg (add_nonneg n0 n1) n2).1 heq.symm
  have z1 := (add_eq_zero_iff_of_nonneg n0 n1).1 z0.1
  have coefs : ∀ {num : ℕ} (vecs : Matrix (Fin sc.E) (Fin num) ℝ) (d : Fin num → ℝ) (w : ℝ), 0 < w →
      (∀ j, 0 < d j) → w * ∑ j, d j * (∑ a, x a * vecs (r.get a) j) ^ 2 = 0 →
      ∀ j, ∑ a, x a * vecs (r.get a) j = 0 := by
    intro num vecs d w hw0 hd h j
    have h1 := (mul_eq_zero.1 h).resolve_left hw0.ne'
    have h2 := (Finset.sum_eq_zero_iff_of_nonneg fun j _ => mul_nonneg (hd j).le (sq_nonneg _)).1 h1 j
      (Finset.mem_univ j)
    exact pow_eq_zero_iff (two_ne_zero) |>.1 ((mul_eq_zero.1 h2).resolve_left (hd j).ne')
  have c0 := coefs _ _ _ (k.weight_pos 0) d0 z1.1
  have c1 := coefs _ _ _ (k.weight_pos 1) d1 z1.2
  have c2 := coefs _ _ _ (k.weight_pos 2) d2 z0.2
  -- the flow carried by the listed edges
  let f : Fin sc.E → ℝ := fun e => ∑ a, if r.get a = e then x a else 0
  have hf : ∀ u : Fin sc.E → ℝ, u ⬝ᵥ f = ∑ a, x a * u (r.get a) := by
    intro u
    have : u ⬝ᵥ f = ∑ e, u e * ∑ a, if r.get a = e then x a else 0 := rfl
    rw [this]
    simp only [Finset.mul_sum]
    rw [Finset.sum_comm]
    refine Finset.sum_congr rfl fun a _ => ?_
    simp [mul_comm]
  obtain ⟨hE, he⟩ := fromComplex_eig hk
  have sel : ∀ {A U : Matrix (Fin sc.E) (Fin sc.E) ℝ} {w : Fin sc.E → ℝ} (cond : ℝ → Prop)
      [DecidablePred cond], (∀ j, ∑ a, x a * (selectPairs U w cond).vecs (r.get a) j = 0) →
      ∀ i, cond (w i) → U.transpose.mulVec f i = 0 := by
    intro A U w cond _ h i hi
    have hm : i ∈ selIdx w cond := mem_selIdx.2 hi
    obtain ⟨j, hj, rfl⟩ := List.getElem_of_mem hm
    have := h ⟨j, hj⟩
    exact (hf fun b => U b (selIdx w cond)[j]).trans this
  rw [he] at c0 c1 c2
  have s0 := sel (A := sc.L1) _ c0
  have s1 := sel (A := sc.L1l) _ c1
  have s2 := sel (A := sc.L1u) _ c2
  have big : ∀ {w : Fin sc.E → ℝ} {i : Fin sc.E} {lam : ℝ}, w i = lam → tol < lam → snapVals w i = lam := by
    intro w i lam h h1
    rw [snapVals, if_neg, h]
    rw [h, abs_of_pos (htp.trans h1)]
    linarith
  -- an eigenvector of one part above the tolerance is orthogonal to the flow
  have kill : ∀ {A : Matrix (Fin sc.E) (Fin sc.E) ℝ} (hA : SymmPSD A) {lam : ℝ} {u : Fin sc.E → ℝ},
      (∀ i, (lib.eigh _ A).1 i = lam → (lib.eigh _ A).2.transpose.mulVec f i = 0) →
      A.mulVec u = lam • u → u ⬝ᵥ f = 0 := by
    intro A hA lam u h hu
    have hi := lib.isEig hA
    rw [← hi.expand_cols u, sum_dotProduct]
    refine Finset.sum_eq_zero fun i _ => ?_
    rw [smul_dotProduct]
    rcases hi.coef hA.1 hu i with h1 | h1
    · rw [h1, zero_smul]
    · have h2 : (fun k => (lib.eigh _ A).2 k i) ⬝ᵥ f = 0 := h i h1
      rw [h2, smul_zero]
  have hi := lib.isEig (symmPSD_L1 sc)
  have hz : f = 0 := by
    rw [← hi.expand_cols f]
    refine Finset.sum_eq_zero fun i _ => ?_
    by_cases hle : (lib.eigh _ sc.L1).1 i ≤ tol
    · have hs : snapVals (lib.eigh _ sc.L1).1 i ≤ tol := by
        unfold snapVals
        split_ifs
        · exact htp.le
        · exact hle
      rw [s0 i hs, zero_smul]
    push Not at hle
    have h12 := hw.b1_mul_b2
    have ul : sc.L1u * sc.L1l = 0 := by
      have h21 : sc.B2.transpose * sc.B1.transpose = 0 := by rw [← transpose_mul, h12, transpose_zero]
      rw [SC.L1u, SC.L1l, Matrix.mul_assoc, ← Matrix.mul_assoc sc.B2.transpose, h21, Matrix.zero_mul, Matrix.mul_zero]
    have lu : sc.L1l * sc.L1u = 0 := by
      rw [SC.L1u, SC.L1l, Matrix.mul_assoc, ← Matrix.mul_assoc sc.B1, h12, Matrix.zero_mul, Matrix.mul_zero]
    have hv := hi.col_eig i
    generalize hvv : (fun k => (lib.eigh _ sc.L1).2 k i) = v at hv
    have hl : sc.L1l.mulVec (sc.L1l.mulVec v) = (lib.eigh _ sc.L1).1 i • sc.L1l.mulVec v := by
      rw [← mulVec_smul, ← hv, SC.L1, add_mulVec, mulVec_add, mulVec_mulVec v sc.L1l sc.L1u, lu, zero_mulVec, add_zero]
    have hu : sc.L1u.mulVec (sc.L1u.mulVec v) = (lib.eigh _ sc.L1).1 i • sc.L1u.mulVec v := by
      rw [← mulVec_smul, ← hv, SC.L1, add_mulVec, mulVec_add, mulVec_mulVec v sc.L1u sc.L1l, ul, zero_mulVec, zero_add]
    have e1 := kill (symmPSD_L1l sc) (fun j hj => s1 j (by rw [big hj hle]; exact hle)) hl
    have e2 := kill (symmPSD_L1u sc) (fun j hj => s2 j (by rw [big hj hle]; exact hle.le)) hu
    have e3 : (lib.eigh _ sc.L1).1 i * (v ⬝ᵥ f) = 0 := by
      rw [← smul_eq_mul, ← smul_dotProduct, ← hv, SC.L1, add_mulVec, add_dotProduct, e1, e2, add_zero]
    have e4 : (lib.eigh _ sc.L1).2.transpose.mulVec f i = v ⬝ᵥ f := by rw [← hvv]; rfl
    rw [e4, (mul_eq_zero.1 e3).resolve_left (htp.trans hle).ne', zero_smul]
  apply hx
  funext a
  have := congrFun hz (r.get a)
  simp only [f, Pi.zero_apply] at this
  rw [Finset.sum_eq_single a] at this
  · simpa using this
  · intro b _ hb
    rw [if_neg]
    intro h
    exact hb (Fin.ext ((List.Nodup.getElem_inj_iff hr).1 h))
  · simp

/-! ## C73: spectral action -/

/-- the documented gain of a kernel on the harmonic (0), gradient (1) and curl (2) eigenvectors, in terms
of its parameters -/
noncomputable def docGain (type : KernelType) (p : String → ℝ) (part : Fin 3) (lam : ℝ) : ℝ :=
  match type, part with
  | .diffusion, 0 => p "h"
  | .diffusion, 1 => p "h_down" * Real.exp (-(p "kappa_down" * lam))
  | .diffusion, 2 => p "h_up" * Real.exp (-(p "kappa_up" * lam))
  | .diffusionNonHC, 0 => 1
  | .diffusionNonHC, _ => Real.exp (-(p "kappa_down" * lam))
  | .matern, 0 => p "h" * p "mu"
  | .matern, 1 => p "h_down" * (2 * p "mu_down" / p "kappa_down" ^ 2 + lam) ^ (-p "mu_down")
  | .matern, 2 => p "h_up" * (2 * p "mu_up" / p "kappa_up" ^ 2 + lam) ^ (-p "mu_up")
  | .maternNonHC, 0 => (2 * p "mu_down" / p "kappa_down" ^ 2) ^ (-p "mu_down")
  | .maternNonHC, _ => (2 * p "mu_down" / p "kappa_down" ^ 2 + lam) ^ (-p "mu_down")
  | .laplacian, 0 => p "mu" * 1000
  | .laplacian, 1 => p "kappa_down" / lam
  | .laplacian, 2 => p "kappa_up" / lam

private theorem gain_eq (k : GpKernel E) (p : String → ℝ) (hp : ∀ n ∈ k.type.params, k.get n = .ok (p n))
    (part : Fin 3) {lam : ℝ} (h0 : part = 0 ∧ lam = 0 ∨ 0 < lam) (h1 : part = 0 → lam = 0) :
    k.weight part * k.kap part lam = docGain k.type p part lam := by
  have hv : ∀ n ∈ k.type.params, k.val n = p n := by
    intro n hn
    have := hp n hn
    rw [GpKernel.get, if_pos hn] at this
    exact Except.ok.inj this
  have hpos : ∀ n, 0 < k.val n := k.val_pos
  have base : ∀ a b : String, 0 ≤ lam → 0 < 2 * k.val a / k.val b / k.val b + lam := fun a b h =>
    add_pos_of_pos_of_nonneg (div_pos (div_pos (mul_pos two_pos (hpos _)) (hpos _)) (hpos _)) h
  have sq : ∀ a b : ℝ, 2 * a / b / b = 2 * a / b ^ 2 := fun a b => by rw [div_div, pow_two]
  have hl : 0 ≤ lam := by
    rcases h0 with h | h
    · exact h.2.ge
    · exact h.le
  have e : docGain k.type p part lam = docGain k.type k.val part lam := by
    revert hv
    generalize k.val = q
    cases k.type <;> intro hv <;> fin_cases part <;> simp [docGain, KernelType.params] at hv ⊢ <;> simp [hv]
  rw [e]
  revert hpos base
  unfold GpKernel.weight GpKernel.kap GpKernel.density
  generalize k.val = q
  intro hpos base
  have hb : ∀ a b : String, torchPow (2 * q a / q b / q b + lam) (-q a) =
      some ((2 * q a / q b ^ 2 + lam) ^ (-q a)) := by
    intro a b
    rw [torchPow, if_neg (not_le.2 (base a b hl)), sq]
  have hd0 : fdiv 1 (1 / 1000 + 0) = some 1000 := by
    rw [fdiv, if_neg (by norm_num)]; norm_num
  rcases h0 with ⟨rfl, rfl⟩ | hlp
  · simp only [add_zero] at hb hd0
    cases k.type <;> simp only [docGain, hb, hd0, add_zero, neg_zero, Real.exp_zero, Option.getD_some, mul_one,
      one_mul]
  · have hp0 : part ≠ 0 := fun h => hlp.ne' (h1 h)
    have hd : fdiv 1 lam = some (1 / lam) := by rw [fdiv, if_neg hlp.ne']
    cases k.type <;> fin_cases part <;> simp [docGain, hb, hd] at hp0 ⊢ <;> rfl

/-- C73: the full covariance matrix multiplies gradient, curl and harmonic eigenvectors by the documented
gains. -/
theorem C73_spectral_action (hw : sc.WellFormed) (k : GpKernel sc.E) (hk : k.FromComplex lib tol)
    (ht : machineEps ≤ tol) (p : String → ℝ) (hp : ∀ n ∈ k.type.params, k.get n = .ok (p n)) :
    ∃ K : Matrix (Fin sc.E) (Fin sc.E) ℝ,
      (∀ r1 r2 : List (Fin sc.E),
        k.forward (edgeTensor r1) (some (edgeTensor r2)) =
          .ok (.mat r1.length r2.length (Matrix.of fun a b => K r1[a] r2[b]))) ∧
      (∀ f, sc.getDivergence f = 0 → sc.getCurl f = 0 → K.mulVec f = docGain k.type p 0 0 • f) ∧
      (∀ f lam, tol < lam → (sc.B1.transpose * sc.B1).mulVec f = lam • f →
        K.mulVec f = docGain k.type p 1 lam • f) ∧
      (∀ f lam, tol < lam → (sc.B2 * sc.B2.transpose).mulVec f = lam • f →
        K.mulVec f = docGain k.type p 2 lam • f) := by
  have htp : 0 < tol := lt_of_lt_of_le machineEps_pos ht
  obtain ⟨hE, he⟩ := fromComplex_eig hk
  obtain ⟨t12, t21⟩ := C12_lower_upper_annihilate sc hw
  refine ⟨fullCov k, fun r1 r2 => ?_, fun f hd hc => ?_, fun f lam hl hf => ?_, fun f lam hl hf => ?_⟩
  · simp only [GpKernel.forward, rows_cast, bind, Except.bind, cov_ok hk htp]
    rfl
  all_goals
    rw [fullCov, add_mulVec, add_mulVec, smul_mulVec, smul_mulVec, smul_mulVec, he]
  · have z1 : sc.L1l.mulVec f = (0 : ℝ) • f := by
      rw [SC.L1l, ← mulVec_mulVec, show sc.B1.mulVec f = 0 from hd, mulVec_zero, zero_smul]
    have z2 : sc.L1u.mulVec f = (0 : ℝ) • f := by
      rw [SC.L1u, ← mulVec_mulVec, show sc.B2.transpose.mulVec f = 0 from hc, mulVec_zero, zero_smul]
    have z0 : sc.L1.mulVec f = (0 : ℝ) • f := by
      rw [SC.L1, add_mulVec, z1, z2, zero_smul, add_zero]
    rw [sel_sandwich_keep (lib.isEig (symmPSD_L1 sc)) (symmPSD_L1 sc).1 (k.kap 0) z0 (.inl rfl) htp.le,
      sel_sandwich_drop (lib.isEig (symmPSD_L1l sc)) (symmPSD_L1l sc).1 (k.kap 1) z1 (.inl rfl) htp.le.not_gt,
      sel_sandwich_drop (lib.isEig (symmPSD_L1u sc)) (symmPSD_L1u sc).1 (k.kap 2) z2 (.inl rfl) htp.not_ge,
      smul_zero, smul_zero, add_zero, add_zero, smul_smul, gain_eq k p hp 0 (.inl ⟨rfl, rfl⟩) fun _ => rfl]
  · have hlp : 0 < lam := htp.trans hl
    have hl' : lam = 0 ∨ machineEps ≤ |lam| := .inr (by rw [abs_of_pos hlp]; linarith)
    have z1 : sc.L1l.mulVec f = lam • f := hf
    have z2 : sc.L1u.mulVec f = (0 : ℝ) • f := by
      have : lam • sc.L1u.mulVec f = 0 := by rw [← mulVec_smul, ← z1, mulVec_mulVec, t21, zero_mulVec]
      rw [(smul_eq_zero.1 this).resolve_left hlp.ne', zero_smul]
    have z0 : sc.L1.mulVec f = lam • f := by
      rw [SC.L1, add_mulVec, z1, z2, zero_smul, add_zero]
    rw [sel_sandwich_drop (lib.isEig (symmPSD_L1 sc)) (symmPSD_L1 sc).1 (k.kap 0) z0 hl' hl.not_ge,
      sel_sandwich_keep (lib.isEig (symmPSD_L1l sc)) (symmPSD_L1l sc).1 (k.kap 1) z1 hl' hl,
      sel_sandwich_drop (lib.isEig (symmPSD_L1u sc)) (symmPSD_L1u sc).1 (k.kap 2) z2 (.inl rfl) htp.not_ge,
      smul_zero, smul_zero, add_zero, zero_add, smul_smul, gain_eq k p hp 1 (.inr hlp) (by simp)]
  · have hlp : 0 < lam := htp.trans hl
    have hl' : lam = 0 ∨ machineEps ≤ |lam| := .inr (by rw [abs_of_pos hlp]; linarith)
    have z2 : sc.L1u.mulVec f = lam • f := hf
    have z1 : sc.L1l.mulVec f = (0 : ℝ) • f := by
      have : lam • sc.L1l.mulVec f = 0 := by rw [← mulVec_smul, ← z2, mulVec_mulVec, t12, zero_mulVec]
      rw [(smul_eq_zero.1 this).resolve_left hlp.ne', zero_smul]
    have z0 : sc.L1.mulVec f = lam • f := by
      rw [SC.L1, add_mulVec, z1, z2, zero_smul, zero_add]
    rw [sel_sandwich_drop (lib.isEig (symmPSD_L1 sc)) (symmPSD_L1 sc).1 (k.kap 0) z0 hl' hl.not_ge,
      sel_sandwich_drop (lib.isEig (symmPSD_L1l sc)) (symmPSD_L1l sc).1 (k.kap 1) z1 (.inl rfl) htp.le.not_gt,
      sel_sandwich_keep (lib.isEig (symmPSD_L1u sc)) (symmPSD_L1u sc).1 (k.kap 2) z2 hl' hl.le,
      smul_zero, smul_zero, add_zero, zero_add, smul_smul, gain_eq k p hp 2 (.inr hlp) (by simp)]

/-! ## The hypotheses can be met -/

/-- every complex with an edge has kernels of every type over its eigenpairs -/
theorem GpKernel.FromComplex.exists (lib : NumLib) (sc : SC ℝ) (hE : 0 < sc.E) (tol : ℝ) (type : KernelType) :
    ∃ k : GpKernel sc.E, k.type = type ∧ k.FromComplex lib tol :=
  ⟨GpKernel.create type _, rfl, gpEigenpairs_eq lib sc hE tol⟩

theorem twoTri_gap : NoSmallEigenvalue twoTri.L1 (1 / 1000) := by
  intro lam v hv h
  rcases twoTri_eigen hv h with h | h
  · rw [h]; norm_num
  · rw [h]; norm_num

private theorem twoTri_kernel : ∃ (lib : NumLib) (k : GpKernel twoTri.E), k.type = .matern ∧
    k.FromComplex lib (1 / 1000) := by
  obtain ⟨lib⟩ := NumLib.exists
  obtain ⟨k, h⟩ := GpKernel.FromComplex.exists lib twoTri (by decide) (1 / 1000) .matern
  exact ⟨lib, k, h⟩

/-- the covariance of three edges of the sample complex is positive definite -/
example : ∃ (k : GpKernel twoTri.E), ∃ K : Matrix (Fin 3) (Fin 3) ℝ,
    k.forward [0, 1, 3] (some [0, 1, 3]) = .ok (.mat 3 3 K) ∧
    K.transpose = K ∧ ∀ x, x ≠ 0 → 0 < x ⬝ᵥ K.mulVec x := by
  obtain ⟨lib, k, -, h⟩ := twoTri_kernel
  obtain ⟨K, hK⟩ := C72_positive_definite twoTri_wellFormed k h (by norm_num [machineEps])
    [(0 : Fin 6), (1 : Fin 6), (3 : Fin 6)] (by decide)
  exact ⟨k, K, hK⟩

/-- the flow `(1, 1, 0, 0, 0, 0)` of the sample complex is a lower eigenvector, so `C73` applies to it -/
example : ∃ (k : GpKernel twoTri.E) (K : Matrix (Fin twoTri.E) (Fin twoTri.E) ℝ) (g : ℝ) (f : Fin twoTri.E → ℝ),
    f ≠ 0 ∧ K.mulVec f = g • f ∧ k.type = .matern := by
  obtain ⟨lib, k, ht, h⟩ := twoTri_kernel
  obtain ⟨f, hf, hl⟩ := twoTri_lower_three
  obtain ⟨K, -, -, h3, -⟩ := C73_spectral_action twoTri_wellFormed k h (by norm_num [machineEps])
    (fun n => softplus (k.raw n)) fun n hn => by rw [GpKernel.get, if_pos hn]
  exact ⟨k, K, _, f, hf, h3 f 3 (by norm_num) hl, ht⟩

/-- setting two parameters of a Matern kernel of the sample complex -/
example : ∃ k k' : GpKernel twoTri.E, k.type = .matern ∧
    [("kappa_down", (2 : ℝ)), ("mu", 3)].foldlM (fun k a => k.set a.1 a.2) k = .ok k' ∧
    k'.get "mu" = .ok 3 := by
  obtain ⟨lib, k, ht, h⟩ := twoTri_kernel
  obtain ⟨k', h1, -, h2⟩ := C75_sequence k [("kappa_down", (2 : ℝ)), ("mu", 3)] (by
    rw [ht]
    intro a ha
    simp only [List.mem_cons, List.not_mem_nil, or_false] at ha
    rcases ha with rfl | rfl
    · exact ⟨by decide, by norm_num⟩
    · exact ⟨by decide, by norm_num⟩)
  exact ⟨k, k', ht, h1, h2 "mu" (by rw [ht]; decide)⟩

end Pytspl
