import Verif.Model.InexactEig
import Verif.Lemmas.Perturb
import Verif.Props.Accuracy
import Verif.Props.Eigen

/-!
# Property C127: an eigensolver with rounding errors
-/

namespace Pytspl

open Matrix

variable {lib : NumLib} {sc : SC ℝ} {n : ℕ}

/-! ## Specification -/

/-- The eigensolver reproduces the three edge Laplacians up to an error of `δ`. -/
structure SolvesUpTo (eigh : RawEigh) (sc : SC ℝ) (δ : ℝ) : Prop where
  hodge : Reconstructs δ sc.L1 (eigh _ sc.L1).2 (eigh _ sc.L1).1
  lower : Reconstructs δ sc.L1l (eigh _ sc.L1l).2 (eigh _ sc.L1l).1
  upper : Reconstructs δ sc.L1u (eigh _ sc.L1u).2 (eigh _ sc.L1u).1

/-- `eh`, `ec`, `eg` are what `get_component_eigenpair` returns for the three components with tolerance `tol`. -/
structure EigPartsOf (eigh : RawEigh) (sc : SC ℝ) (tol : ℝ) (eh ec eg : EigPairs sc.E) : Prop where
  harm : sc.getComponentEigenpairOf eigh "harmonic" tol = .ok eh
  curl : sc.getComponentEigenpairOf eigh "curl" tol = .ok ec
  grad : sc.getComponentEigenpairOf eigh "gradient" tol = .ok eg

/-! ## The blocks -/

private theorem snap_le (x tol : ℝ) (ht : machineEps ≤ tol) :
    ((if |x| < machineEps then 0 else x) ≤ tol ↔ x ≤ tol) ∧ (tol ≤ (if |x| < machineEps then 0 else x) ↔ tol ≤ x) ∧
    (tol < (if |x| < machineEps then 0 else x) ↔ tol < x) := by
  have hp := machineEps_pos
  split
  · rename_i h
    have := abs_lt.mp h
    refine ⟨⟨fun _ => by linarith, fun _ => by linarith⟩, ⟨fun _ => by linarith, fun _ => by linarith⟩,
      ⟨fun _ => by linarith, fun _ => by linarith⟩⟩
  · exact ⟨Iff.rfl, Iff.rfl, Iff.rfl⟩

/-- the values after small ones were replaced by 0 -/
private noncomputable def snap (w : Fin n → ℝ) : Fin n → ℝ := fun i => if |w i| < machineEps then 0 else w i

private structure BlocksOf (eigh : RawEigh) (sc : SC ℝ) (tol : ℝ) (eh ec eg : EigPairs sc.E) : Prop where
  harm : eh = selectPairs (eigh _ sc.L1).2 (snap (eigh _ sc.L1).1) (fun x => x ≤ tol)
  curl : ec = selectPairs (eigh _ sc.L1u).2 (snap (eigh _ sc.L1u).1) (fun x => tol ≤ x)
  grad : eg = selectPairs (eigh _ sc.L1l).2 (snap (eigh _ sc.L1l).1) (fun x => tol < x)

private theorem dense (eigh : RawEigh) (hn : 0 < n) (A : Matrix (Fin n) (Fin n) ℝ) :
    getEigendecompositionOf eigh (.ndarray A) = .ok ((eigh n A).2, snap (eigh n A).1) := by
  simp only [getEigendecompositionOf, if_neg hn.ne']
  rfl

private theorem EigPartsOf.blocks {eigh : RawEigh} {tol : ℝ} {eh ec eg : EigPairs sc.E}
    (hp : EigPartsOf eigh sc tol eh ec eg) : BlocksOf eigh sc tol eh ec eg := by
  have hE : 0 < sc.E := by
    by_contra h0
    have h0' : sc.E = 0 := by omega
    have := hp.harm
    simp only [SC.getComponentEigenpairOf, if_true, getHarmonicEigenpairOf, getEigendecompositionOf, h0',
      bind, Except.bind] at this
    cases this
  obtain ⟨h1, h2, h3⟩ := hp
  have h1' : getHarmonicEigenpairOf eigh (.ndarray sc.L1) tol = .ok eh := h1
  have h2' : getCurlEigenpairOf eigh (.ndarray sc.L1u) tol = .ok ec := h2
  have h3' : getGradientEigenpairOf eigh (.ndarray sc.L1l) tol = .ok eg := h3
  rw [getHarmonicEigenpairOf, dense eigh hE] at h1'
  rw [getCurlEigenpairOf, dense eigh hE] at h2'
  rw [getGradientEigenpairOf, dense eigh hE] at h3'
  exact ⟨(Except.ok.inj h1').symm, (Except.ok.inj h2').symm, (Except.ok.inj h3').symm⟩

private theorem sel_orth' {A U : Matrix (Fin n) (Fin n) ℝ} {w v : Fin n → ℝ} {δ : ℝ} {cond : ℝ → Prop}
    [DecidablePred cond] (h : Reconstructs δ A U w) :
    (selectPairs U v cond).vecs.transpose * (selectPairs U v cond).vecs = 1 :=
  sel_orth (A := U * diagonal v * U.transpose) (w := v)
    ⟨h.orth, by rw [Matrix.mul_assoc, h.orth, Matrix.mul_one]⟩

private theorem sel_proj' {U : Matrix (Fin n) (Fin n) ℝ} {v : Fin n → ℝ} {cond : ℝ → Prop}
    [DecidablePred cond] (f : Fin n → ℝ) :
    (selectPairs U v cond).vecs.mulVec ((selectPairs U v cond).vecs.transpose.mulVec f) =
      U.mulVec fun i => if cond (v i) then U.transpose.mulVec f i else 0 := by
  rw [sel_proj]
  funext k
  change _ = ∑ i : Fin n, U k i * (if cond (v i) then U.transpose.mulVec f i else 0)
  rw [Finset.sum_apply]
  refine Finset.sum_congr rfl fun i _ => ?_
  split <;> simp [mul_comm]

private theorem snap_cases (w : Fin n → ℝ) (tol : ℝ) (ht : machineEps ≤ tol) (i : Fin n) :
    (snap w i ≤ tol ↔ w i ≤ tol) ∧ (tol ≤ snap w i ↔ tol ≤ w i) ∧ (tol < snap w i ↔ tol < w i) :=
  snap_le (w i) tol ht

private theorem sel_col {U : Matrix (Fin n) (Fin n) ℝ} {v : Fin n → ℝ} {cond : ℝ → Prop}
    [DecidablePred cond] (e : EigPairs n) (j : Fin e.num) (h : e = selectPairs U v cond) :
    ∃ i, (fun k => e.vecs k j) = (fun k => U k i) ∧ e.vals j = v i ∧ cond (v i) := by
  subst h
  exact ⟨(selIdx v cond)[j], rfl, rfl, mem_selIdx.mp (List.getElem_mem _)⟩

/-! ## C127 -/

/-- C127: over an exact solver these are the functions of the other theorems. -/
theorem C127_exact (lib : NumLib) (sc : SC ℝ) (component : String) (tol : ℝ) (f : Fin sc.E → ℝ) :
    sc.getComponentEigenpairOf lib.eigh component tol = sc.getComponentEigenpair lib component tol ∧
    sc.getSimplicialEmbeddingsOf lib.eigh f = sc.getSimplicialEmbeddings lib f ∧ SolvesUpTo lib.eigh sc 0 := by
  refine ⟨rfl, rfl, ?_⟩
  have key : ∀ {m : ℕ} (A : Matrix (Fin m) (Fin m) ℝ), SymmPSD A →
      Reconstructs 0 A (lib.eigh _ A).2 (lib.eigh _ A).1 := by
    intro m A hA
    have h := lib.isEig hA
    refine ⟨h.orth, fun x => ?_⟩
    rw [← h.recon, sub_self, zero_mulVec]
    simp
  exact ⟨key _ (symmPSD_L1 sc), key _ (symmPSD_L1l sc), key _ (symmPSD_L1u sc)⟩

/-- C127: the calls succeed as soon as there is an edge. -/
theorem C127_ok (eigh : RawEigh) (sc : SC ℝ) (tol : ℝ) (hE : 0 < sc.edges.length) :
    ∃ eh ec eg, EigPartsOf eigh sc tol eh ec eg := by
  have hE' : 0 < sc.E := hE
  have h1 : ∃ eh, getHarmonicEigenpairOf eigh (.ndarray sc.L1) tol = .ok eh := by
    rw [getHarmonicEigenpairOf, dense eigh hE']; exact ⟨_, rfl⟩
  have h2 : ∃ ec, getCurlEigenpairOf eigh (.ndarray sc.L1u) tol = .ok ec := by
    rw [getCurlEigenpairOf, dense eigh hE']; exact ⟨_, rfl⟩
  have h3 : ∃ eg, getGradientEigenpairOf eigh (.ndarray sc.L1l) tol = .ok eg := by
    rw [getGradientEigenpairOf, dense eigh hE']; exact ⟨_, rfl⟩
  obtain ⟨eh, h1⟩ := h1
  obtain ⟨ec, h2⟩ := h2
  obtain ⟨eg, h3⟩ := h3
  exact ⟨eh, ec, eg, h1, h2, h3⟩

/-- C127, counts: with an error `δ` below the tolerance and no eigenvalue between 0 and `tol + δ`, the numbers of
harmonic, curl and gradient eigenvectors are those of the exact spaces. -/
theorem C127_counts (eigh : RawEigh) (hw : sc.WellFormed) (δ tol : ℝ) (hd : 0 ≤ δ) (hdt : δ < tol)
    (ht : machineEps ≤ tol) (hs : SolvesUpTo eigh sc δ) (hgap : NoSmallEigenvalue sc.L1 (tol + δ))
    (eh ec eg : EigPairs sc.E) (hp : EigPartsOf eigh sc tol eh ec eg) :
    eh.num + ec.num + eg.num = sc.E ∧
    eg.num = sc.B1.rank ∧ ec.num = sc.B2.rank ∧ eh.num = sc.E - sc.B1.rank - sc.B2.rank := by
  have hb := hp.blocks
  obtain ⟨hgl, hgu⟩ := lower_gap hw hgap
  have k1 := low_count (symmPSD_L1 sc) hs.hodge hd hdt hgap (fun i => snap (eigh _ sc.L1).1 i ≤ tol)
    (fun i h => (snap_cases _ tol ht i).1.mp h)
    (fun i h => (not_le.mp (mt (snap_cases _ tol ht i).1.mpr h)).le)
  have k2 := low_count (symmPSD_L1u sc) hs.upper hd hdt hgu (fun i => ¬ tol ≤ snap (eigh _ sc.L1u).1 i)
    (fun i h => (not_le.mp (mt (snap_cases _ tol ht i).2.1.mpr h)).le)
    (fun i h => (snap_cases _ tol ht i).2.1.mp (not_not.mp h))
  have k3 := low_count (symmPSD_L1l sc) hs.lower hd hdt hgl (fun i => ¬ tol < snap (eigh _ sc.L1l).1 i)
    (fun i h => not_lt.mp (mt (snap_cases _ tol ht i).2.2.mpr h))
    (fun i h => ((snap_cases _ tol ht i).2.2.mp (not_not.mp h)).le)
  have e1 : eh.num = sc.E - sc.L1.rank := by rw [hb.harm, sel_num]; exact k1.1
  have e2 : ec.num = sc.B2.rank := by
    rw [hb.curl, sel_num, ← rank_self_mul_transpose sc.B2]
    refine Eq.trans ?_ k2.2
    exact Fintype.card_congr (Equiv.subtypeEquivRight fun i => not_not.symm)
  have e3 : eg.num = sc.B1.rank := by
    rw [hb.grad, sel_num, ← rank_transpose_mul_self sc.B1]
    refine Eq.trans ?_ k3.2
    exact Fintype.card_congr (Equiv.subtypeEquivRight fun i => not_not.symm)
  obtain ⟨lib⟩ := NumLib.exists
  have hr := rank_add lib hw
  have hle : sc.L1.rank ≤ sc.E := by
    have := sc.L1.rank_le_card_height
    rwa [Fintype.card_fin] at this
  omega

private theorem proj_symm {m : ℕ} {A : Matrix (Fin n) (Fin m) ℝ} {f g : Fin n → ℝ} (h : IsProj A f g) :
    ∃ x, f = (A * A.transpose).mulVec x + (f - g) ∧ (A * A.transpose).mulVec (f - g) = 0 := by
  obtain ⟨⟨y, hy⟩, h2⟩ := h
  obtain ⟨lib⟩ := NumLib.exists
  obtain ⟨⟨x, hx⟩, hx2⟩ := lib.isProj A.transpose y
  refine ⟨lib.lstsq _ _ A.transpose y, ?_, ?_⟩
  · have e : (A * A.transpose).mulVec (lib.lstsq _ _ A.transpose y) = g := by
      rw [← mulVec_mulVec, ← hy]
      rw [transpose_transpose] at hx2
      exact hx2
    rw [e]; abel
  · rw [← mulVec_mulVec, mulVec_sub, h2, sub_self, mulVec_zero]

/-- C127, components: the columns returned are orthonormal, and projecting a flow on them gives its harmonic, curl
and gradient component up to `2 δ / tol` times the length of the flow. -/
theorem C127_components (eigh : RawEigh) (hw : sc.WellFormed) (δ tol : ℝ) (hd : 0 ≤ δ) (hdt : δ < tol)
    (ht : machineEps ≤ tol) (hs : SolvesUpTo eigh sc δ) (hgap : NoSmallEigenvalue sc.L1 (tol + δ))
    (eh ec eg : EigPairs sc.E) (hp : EigPartsOf eigh sc tol eh ec eg)
    (f g c h : Fin sc.E → ℝ) (hf : HodgeParts lib sc f g c h) :
    (eh.vecs.transpose * eh.vecs = 1 ∧ ec.vecs.transpose * ec.vecs = 1 ∧ eg.vecs.transpose * eg.vecs = 1) ∧
    (∀ h', h' = eh.vecs.mulVec (eh.vecs.transpose.mulVec f) →
      tol ^ 2 * ((h' - h) ⬝ᵥ (h' - h)) ≤ 4 * δ ^ 2 * (f ⬝ᵥ f)) ∧
    (∀ c', c' = ec.vecs.mulVec (ec.vecs.transpose.mulVec f) →
      tol ^ 2 * ((c' - c) ⬝ᵥ (c' - c)) ≤ 4 * δ ^ 2 * (f ⬝ᵥ f)) ∧
    (∀ g', g' = eg.vecs.mulVec (eg.vecs.transpose.mulVec f) →
      tol ^ 2 * ((g' - g) ⬝ᵥ (g' - g)) ≤ 4 * δ ^ 2 * (f ⬝ᵥ f)) := by
  have hb := hp.blocks
  obtain ⟨hgl, hgu⟩ := lower_gap hw hgap
  obtain ⟨pg, pc, ph⟩ := hf.proj
  refine ⟨⟨?_, ?_, ?_⟩, ?_, ?_, ?_⟩
  · rw [hb.harm]; exact sel_orth' hs.hodge
  · rw [hb.curl]; exact sel_orth' hs.upper
  · rw [hb.grad]; exact sel_orth' hs.lower
  · rintro h' rfl
    rw [hb.harm, sel_proj']
    -- the harmonic component is the kernel part
    have hker : sc.L1.mulVec h = 0 := by
      rw [C12_hodge_kernel]
      have h12 := hw.b1_mul_b2
      have h21 : sc.B2.transpose * sc.B1.transpose = 0 := by rw [← transpose_mul, h12, transpose_zero]
      obtain ⟨⟨p, hp1⟩, hp2⟩ := pg
      obtain ⟨⟨q, hq1⟩, hq2⟩ := pc
      rw [transpose_transpose] at hp2
      constructor
      · change sc.B1.mulVec h = 0
        rw [ph, mulVec_sub, mulVec_sub, hp2, ← hq1, mulVec_mulVec, h12, zero_mulVec]; simp
      · change sc.B2.transpose.mulVec h = 0
        rw [ph, mulVec_sub, mulVec_sub, hq2, ← hp1, mulVec_mulVec, h21, zero_mulVec]; simp
    obtain ⟨x, z, hz1, hz2⟩ := symm_split (symmPSD_L1 sc).1 f
    have hzh : z = h := by
      obtain ⟨⟨p, hp1⟩, -⟩ := pg
      obtain ⟨⟨q, hq1⟩, -⟩ := pc
      have k : sc.L1.mulVec (h - z) = 0 := by rw [mulVec_sub, hker, hz2, sub_self]
      obtain ⟨kd, kc⟩ := (C12_hodge_kernel sc _).mp k
      have e : h - z = sc.L1.mulVec x - g - c := by rw [ph, hz1]; abel
      have z1 : (h - z) ⬝ᵥ sc.L1.mulVec x = 0 := symm_orth (symmPSD_L1 sc).1 k
      have z2 : (h - z) ⬝ᵥ g = 0 := by
        rw [← hp1, dot_mulVec_transpose, transpose_transpose]
        have : sc.B1.mulVec (h - z) = 0 := kd
        rw [this, zero_dotProduct]
      have z3 : (h - z) ⬝ᵥ c = 0 := by
        rw [← hq1, dot_mulVec_transpose]
        have : sc.B2.transpose.mulVec (h - z) = 0 := kc
        rw [this, zero_dotProduct]
      have : (h - z) ⬝ᵥ (h - z) = 0 := by
        have e' : (h - z) ⬝ᵥ (h - z) = (h - z) ⬝ᵥ (sc.L1.mulVec x - g - c) := by rw [← e]
        rw [e', dotProduct_sub, dotProduct_sub, z1, z2, z3]; simp
      exact (sub_eq_zero.mp (dotProduct_self_eq_zero.mp this)).symm
    rw [← hzh]
    exact low_proj (symmPSD_L1 sc) hs.hodge hd hdt hgap (fun i => snap (eigh _ sc.L1).1 i ≤ tol)
      (fun i h => (snap_cases _ tol ht i).1.mp h)
      (fun i h => (not_le.mp (mt (snap_cases _ tol ht i).1.mpr h)).le) f x z hz1 hz2 _ rfl
  · rintro c' rfl
    obtain ⟨x, hx, hz⟩ := proj_symm pc
    have k := low_proj (symmPSD_L1u sc) hs.upper hd hdt hgu (fun i => ¬ tol ≤ snap (eigh _ sc.L1u).1 i)
      (fun i h => (not_le.mp (mt (snap_cases _ tol ht i).2.1.mpr h)).le)
      (fun i h => (snap_cases _ tol ht i).2.1.mp (not_not.mp h)) f x (f - c) hx hz _ rfl
    have hff : f = (eigh _ sc.L1u).2.mulVec ((eigh _ sc.L1u).2.transpose.mulVec f) := by
      rw [mulVec_mulVec, mul_eq_one_comm.mp hs.upper.orth, one_mulVec]
    have hneg : ec.vecs.mulVec (ec.vecs.transpose.mulVec f) - c = -(((eigh _ sc.L1u).2.mulVec fun i =>
        if ¬ tol ≤ snap (eigh _ sc.L1u).1 i then (eigh _ sc.L1u).2.transpose.mulVec f i else 0) - (f - c)) := by
      rw [hb.curl, sel_proj']
      have : (eigh _ sc.L1u).2.mulVec (fun i => if tol ≤ snap (eigh _ sc.L1u).1 i then
            (eigh _ sc.L1u).2.transpose.mulVec f i else 0) + (eigh _ sc.L1u).2.mulVec (fun i =>
          if ¬ tol ≤ snap (eigh _ sc.L1u).1 i then (eigh _ sc.L1u).2.transpose.mulVec f i else 0) = f := by
        conv_rhs => rw [hff]
        rw [← mulVec_add]
        congr 1
        funext i
        by_cases hi : tol ≤ snap (eigh _ sc.L1u).1 i <;> simp [hi]
      rw [eq_sub_of_add_eq this]; abel
    rw [hneg, neg_dotProduct_neg]
    exact k
  · rintro g' rfl
    obtain ⟨x, hx, hz⟩ := proj_symm pg
    rw [transpose_transpose] at hx hz
    have k := low_proj (symmPSD_L1l sc) hs.lower hd hdt hgl (fun i => ¬ tol < snap (eigh _ sc.L1l).1 i)
      (fun i h => not_lt.mp (mt (snap_cases _ tol ht i).2.2.mpr h))
      (fun i h => ((snap_cases _ tol ht i).2.2.mp (not_not.mp h)).le) f x (f - g) hx hz _ rfl
    have hff : f = (eigh _ sc.L1l).2.mulVec ((eigh _ sc.L1l).2.transpose.mulVec f) := by
      rw [mulVec_mulVec, mul_eq_one_comm.mp hs.lower.orth, one_mulVec]
    have hneg : eg.vecs.mulVec (eg.vecs.transpose.mulVec f) - g = -(((eigh _ sc.L1l).2.mulVec fun i =>
        if ¬ tol < snap (eigh _ sc.L1l).1 i then (eigh _ sc.L1l).2.transpose.mulVec f i else 0) - (f - g)) := by
      rw [hb.grad, sel_proj']
      have : (eigh _ sc.L1l).2.mulVec (fun i => if tol < snap (eigh _ sc.L1l).1 i then
            (eigh _ sc.L1l).2.transpose.mulVec f i else 0) + (eigh _ sc.L1l).2.mulVec (fun i =>
          if ¬ tol < snap (eigh _ sc.L1l).1 i then (eigh _ sc.L1l).2.transpose.mulVec f i else 0) = f := by
        conv_rhs => rw [hff]
        rw [← mulVec_add]
        congr 1
        funext i
        by_cases hi : tol < snap (eigh _ sc.L1l).1 i <;> simp [hi]
      rw [eq_sub_of_add_eq this]; abel
    rw [hneg, neg_dotProduct_neg]
    exact k

/-- C127, embeddings: so the coefficients of `get_simplicial_embeddings`, put back on the eigenvectors, give the
components up to `2000 δ` times the length of the flow. -/
theorem C127_embeddings (eigh : RawEigh) (hw : sc.WellFormed) (δ : ℝ) (hd : 0 ≤ δ) (hdt : δ < 1 / 1000)
    (hs : SolvesUpTo eigh sc δ) (hgap : NoSmallEigenvalue sc.L1 (1 / 1000 + δ))
    (eh ec eg : EigPairs sc.E) (hp : EigPartsOf eigh sc (1 / 1000) eh ec eg)
    (f g c h : Fin sc.E → ℝ) (hf : HodgeParts lib sc f g c h) :
    ∃ (ah : Fin eh.num → ℝ) (ac : Fin ec.num → ℝ) (ag : Fin eg.num → ℝ),
      sc.getSimplicialEmbeddingsOf eigh f = .ok (⟨_, ah⟩, ⟨_, ac⟩, ⟨_, ag⟩) ∧
      (eh.vecs.mulVec ah - h) ⬝ᵥ (eh.vecs.mulVec ah - h) ≤ (2000 * δ) ^ 2 * (f ⬝ᵥ f) ∧
      (ec.vecs.mulVec ac - c) ⬝ᵥ (ec.vecs.mulVec ac - c) ≤ (2000 * δ) ^ 2 * (f ⬝ᵥ f) ∧
      (eg.vecs.mulVec ag - g) ⬝ᵥ (eg.vecs.mulVec ag - g) ≤ (2000 * δ) ^ 2 * (f ⬝ᵥ f) := by
  obtain ⟨-, k1, k2, k3⟩ := C127_components eigh hw δ _ hd hdt (by unfold machineEps; norm_num) hs hgap eh ec eg hp
    f g c h hf
  have e1 : getHarmonicEigenpairOf eigh (.ndarray sc.L1) (1 / 1000) = .ok eh := hp.harm
  have e2 : getCurlEigenpairOf eigh (.ndarray sc.L1u) (1 / 1000) = .ok ec := hp.curl
  have e3 : getGradientEigenpairOf eigh (.ndarray sc.L1l) (1 / 1000) = .ok eg := hp.grad
  refine ⟨eh.vecs.transpose.mulVec f, ec.vecs.transpose.mulVec f, eg.vecs.transpose.mulVec f, ?_, ?_, ?_, ?_⟩
  · simp only [SC.getSimplicialEmbeddingsOf, e1, e2, e3, bind, Except.bind]
    rfl
  · have := k1 _ rfl; nlinarith
  · have := k2 _ rfl; nlinarith
  · have := k3 _ rfl; nlinarith

/-- C127, harmonic vectors: each harmonic eigenvector returned has a divergence and curl of at most `sqrt(2 δ)`. -/
theorem C127_nearly_harmonic (eigh : RawEigh) (δ tol : ℝ) (hd : 0 ≤ δ)
    (ht : machineEps ≤ tol) (hs : SolvesUpTo eigh sc δ) (hgap : NoSmallEigenvalue sc.L1 (tol + δ))
    (eh ec eg : EigPairs sc.E) (hp : EigPartsOf eigh sc tol eh ec eg) (j : Fin eh.num) (u : Fin sc.E → ℝ)
    (hu : u = fun k => eh.vecs k j) :
    sc.getDivergence u ⬝ᵥ sc.getDivergence u + sc.getCurl u ⬝ᵥ sc.getCurl u ≤ 2 * δ ∧
    |eh.vals j| ≤ δ := by
  obtain ⟨i, hi, hv, hc⟩ := sel_col eh j hp.blocks.harm
  have hle := (snap_cases _ tol ht i).1.mp hc
  have hw2 := small_of_low (symmPSD_L1 sc) hs.hodge hd hgap i hle
  have habs := abs_le_of_sq_le_sq hw2 hd
  have hq := col_quad hs.hodge hd i
  rw [← hi, ← hu] at hq
  refine ⟨?_, ?_⟩
  · have hquad : sc.getDivergence u ⬝ᵥ sc.getDivergence u + sc.getCurl u ⬝ᵥ sc.getCurl u = u ⬝ᵥ sc.L1.mulVec u := by
      change sc.B1.mulVec u ⬝ᵥ sc.B1.mulVec u + sc.B2.transpose.mulVec u ⬝ᵥ sc.B2.transpose.mulVec u =
        u ⬝ᵥ (sc.B1.transpose * sc.B1 + sc.B2 * sc.B2.transpose).mulVec u
      rw [add_mulVec, dotProduct_add, ← mulVec_mulVec, ← mulVec_mulVec, dot_mulVec_transpose sc.B1.transpose,
        dot_mulVec_transpose sc.B2, transpose_transpose]
    rw [hquad]
    have h1 := (abs_le.mp hq).2
    have h2 := (abs_le.mp habs).2
    linarith
  · rw [hv]
    unfold snap
    split
    · simpa using hd
    · exact habs

/-- C127 for small networks: up to 32 nodes without triangles, the default tolerance and a solver with an error of up
to `1/100000` give the right number of harmonic eigenvectors. -/
theorem C127_32_nodes (eigh : RawEigh) (sc : SC ℝ) (hs : sc.OnSimpleGraph) (hT : sc.triangles = [])
    (hE : 0 < sc.edges.length) (hN : sc.nodes.length ≤ 32) (hsol : SolvesUpTo eigh sc (1 / 100000)) :
    ∃ eh, sc.getComponentEigenpairOf eigh "harmonic" = .ok eh ∧ eh.num = sc.edges.length - sc.B1.rank := by
  have ho : Oriented sc.edges sc.triangles := by rw [hT]; intro t ht; simp at ht
  have hw : sc.WellFormed := ⟨hs.built, hs.inRange, hs.noLoops, ho⟩
  obtain ⟨eh, ec, eg, hp⟩ := C127_ok eigh sc (1 / 1000) hE
  have hgap : NoSmallEigenvalue sc.L1 (1 / 1000 + 1 / 100000) := by
    refine C121_gap sc hs ho (sc.nodes.length - 1) 0 (diameterLE_card _) ?_ _ ?_ ?_
    · rw [hT]; intro t; exact t.elim0
    · have h31 : sc.nodes.length - 1 ≤ 31 := by omega
      have : ((sc.nodes.length - 1 : ℕ) : ℝ) ≤ 31 := by exact_mod_cast h31
      have h0 : (0 : ℝ) ≤ ((sc.nodes.length - 1 : ℕ) : ℝ) := Nat.cast_nonneg _
      nlinarith
    · rw [hT]; simp
  have k := C127_counts eigh hw _ _ (by norm_num) (by norm_num) (by unfold machineEps; norm_num) hsol hgap eh ec eg hp
  refine ⟨eh, hp.harm, ?_⟩
  have hT0 : sc.triangles.length = 0 := by rw [hT]; rfl
  have hr : sc.B2.rank = 0 := by
    have := sc.B2.rank_le_card_width
    rw [Fintype.card_fin] at this
    exact Nat.le_zero.mp (this.trans hT0.le)
  rw [k.2.2.2, hr]; rfl

/-- Non-vacuity of C127: the sample complex, and a solver which is wrong: it returns eigenvalues which are all too
large by `1/100000`, so that none of them is 0. -/
example (lib : NumLib) : ∃ (sc : SC ℝ) (eigh : RawEigh), sc.WellFormed ∧ 0 < sc.edges.length ∧
    SolvesUpTo eigh sc (1 / 100000) ∧ NoSmallEigenvalue sc.L1 (1 / 1000 + 1 / 100000) ∧
    (∀ i, (eigh _ sc.L1).1 i ≠ 0) ∧ ∀ f, ∃ g c h, HodgeParts lib sc f g c h := by
  obtain ⟨sc, hw, hs, hn, he, ht⟩ := sample_wellFormed ℝ
  refine ⟨sc, fun m A => (fun i => (lib.eigh m A).1 i + 1 / 100000, (lib.eigh m A).2), hw, by rw [he]; decide, ?_, ?_,
    ?_, fun f => HodgeParts.exists lib sc f⟩
  · have key : ∀ {m : ℕ} (A : Matrix (Fin m) (Fin m) ℝ), SymmPSD A →
        Reconstructs (1 / 100000) A (lib.eigh _ A).2 (fun i => (lib.eigh m A).1 i + 1 / 100000) := by
      intro m A hA
      have h := lib.isEig hA
      refine ⟨h.orth, fun x => ?_⟩
      have e : A - (lib.eigh _ A).2 * diagonal (fun i => (lib.eigh m A).1 i + 1 / 100000) * (lib.eigh _ A).2.transpose =
          -((1 / 100000 : ℝ) • (1 : Matrix (Fin m) (Fin m) ℝ)) := by
        have hdg : diagonal (fun i => (lib.eigh m A).1 i + 1 / 100000) =
            diagonal (lib.eigh m A).1 + (1 / 100000 : ℝ) • (1 : Matrix (Fin m) (Fin m) ℝ) := by
          rw [← diagonal_one, ← diagonal_smul, diagonal_add]
          congr 1
          funext i
          simp
        rw [hdg, Matrix.mul_add, Matrix.add_mul, ← h.recon, Matrix.mul_smul, Matrix.mul_one, Matrix.smul_mul, h.orth']
        abel
      rw [e, neg_mulVec, smul_mulVec, one_mulVec, neg_dotProduct_neg, smul_dotProduct, dotProduct_smul, smul_eq_mul,
        smul_eq_mul]
      apply le_of_eq
      ring
    exact ⟨key _ (symmPSD_L1 sc), key _ (symmPSD_L1l sc), key _ (symmPSD_L1u sc)⟩
  · refine C121_gap sc hs hw.oriented (sc.nodes.length - 1) 1 (diameterLE_card _) ?_ _ ?_ ?_
    · rw [he, ht]
      intro t
      refine ⟨1, le_refl _, .free t ⟨0, by decide⟩ ?_ ?_⟩
      · have : t = ⟨0, by decide⟩ := by
          have := t.2
          simp [sampleTriangles] at this
          exact Fin.ext this
        subst this
        exact ⟨0, 1, 2, rfl, .inl (.inl rfl)⟩
      · intro t' _
        have h1 := t.2
        have h2 := t'.2
        simp [sampleTriangles] at h1 h2
        exact Fin.ext (h2.trans h1.symm)
    · rw [hn]; norm_num [sampleNodes]
    · rw [ht]; norm_num [sampleTriangles]
  · intro i
    have := (lib.isEig (symmPSD_L1 sc)).nonneg (symmPSD_L1 sc) i
    change (lib.eigh _ sc.L1).1 i + 1 / 100000 ≠ 0
    positivity

end Pytspl
