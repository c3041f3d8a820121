import Verif.Model.Eigendecomposition
import Verif.Lemmas.Spectral
import Verif.Props.Operators
import Verif.Spec.Spectrum

/-!
# What the eigenpair functions select
-/

namespace Pytspl

open Matrix

variable {n : ℕ}

theorem NumLib.isEig (lib : NumLib) {A : Matrix (Fin n) (Fin n) ℝ} (hA : SymmPSD A) :
    IsEig A (lib.eigh n A).2 (lib.eigh n A).1 :=
  ⟨(lib.eigh_spec n A hA.1).2.1, (lib.eigh_spec n A hA.1).2.2⟩

theorem IsEig.nonneg {A U : Matrix (Fin n) (Fin n) ℝ} {w : Fin n → ℝ} (h : IsEig A U w)
    (hA : SymmPSD A) (i : Fin n) : 0 ≤ w i := by
  rw [← h.quad i]
  exact hA.2 _

theorem machineEps_pos : 0 < machineEps := by unfold machineEps; positivity

/-- what `get_eigendecomposition` returns on a dense matrix -/
theorem getEigendecomposition_dense (lib : NumLib) (hn : 0 < n) (A : Matrix (Fin n) (Fin n) ℝ)
    (tol : ℝ) : getEigendecomposition lib (.ndarray A) tol =
      .ok ((lib.eigh n A).2, fun i => if |(lib.eigh n A).1 i| < tol then 0 else (lib.eigh n A).1 i) := by
  simp [getEigendecomposition, hn.ne']

/-- the values after snapping are the exact ones when no eigenvalue is small -/
theorem snap_eq (lib : NumLib) {A : Matrix (Fin n) (Fin n) ℝ} (hA : SymmPSD A) {tol : ℝ}
    (ht : machineEps ≤ tol) (hgap : NoSmallEigenvalue A tol) :
    (fun i => if |(lib.eigh n A).1 i| < machineEps then 0 else (lib.eigh n A).1 i) =
      (lib.eigh n A).1 := by
  ext i
  have h := lib.isEig hA
  have h0 := h.nonneg hA i
  split
  · rename_i hlt
    rw [abs_of_nonneg h0] at hlt
    by_contra hne
    exact hgap _ _ (h.col_ne_zero i) (h.col_eig i) ⟨lt_of_le_of_ne h0 hne, by linarith⟩
  · rfl

/-- exact eigenvalues are 0 or above the tolerance -/
theorem IsEig.gap {A U : Matrix (Fin n) (Fin n) ℝ} {w : Fin n → ℝ} (h : IsEig A U w)
    (hA : SymmPSD A) {tol : ℝ} (hgap : NoSmallEigenvalue A tol) (i : Fin n) :
    w i = 0 ∨ tol < w i := by
  by_cases h0 : w i = 0
  · exact .inl h0
  · right
    by_contra hle
    exact hgap _ _ (h.col_ne_zero i) (h.col_eig i)
      ⟨lt_of_le_of_ne (h.nonneg hA i) (Ne.symm h0), by linarith⟩

variable {U : Matrix (Fin n) (Fin n) ℝ} {w : Fin n → ℝ} {cond : ℝ → Prop} [DecidablePred cond]

/-- positions kept by `selectPairs` -/
noncomputable def selIdx (w : Fin n → ℝ) (cond : ℝ → Prop) [DecidablePred cond] : List (Fin n) :=
  (List.finRange n).filter fun i => decide (cond (w i))

theorem selIdx_nodup : (selIdx w cond).Nodup := (List.nodup_finRange n).filter _

theorem mem_selIdx {i : Fin n} : i ∈ selIdx w cond ↔ cond (w i) := by
  simp [selIdx]

theorem sel_cond (j : Fin (selectPairs U w cond).num) : cond ((selectPairs U w cond).vals j) := by
  have : (selIdx w cond)[j] ∈ selIdx w cond := List.getElem_mem _
  exact (mem_selIdx (w := w) (cond := cond)).mp this

theorem sum_list_fin {α : Type} (l : List α) (g : α → ℝ) :
    ∑ j : Fin l.length, g l[j] = (l.map g).sum := by
  induction l with
  | nil => simp
  | cons a t ih =>
    rw [List.map_cons, List.sum_cons, ← ih]
    exact Fin.sum_univ_succ (n := t.length) (fun j : Fin (t.length + 1) => g (a :: t)[j])

theorem sum_sel (g : Fin n → ℝ) :
    ∑ j : Fin (selIdx w cond).length, g (selIdx w cond)[j] = ∑ i, if cond (w i) then g i else 0 := by
  rw [sum_list_fin]
  have h1 : ((selIdx w cond).map g).sum = ∑ i ∈ (selIdx w cond).toFinset, g i :=
    (List.sum_toFinset g selIdx_nodup).symm
  rw [h1, ← Finset.sum_filter]
  apply Finset.sum_congr _ fun _ _ => rfl
  ext i
  simp [mem_selIdx]

theorem sel_num : (selectPairs U w cond).num = Fintype.card {i // cond (w i)} := by
  have h1 : (selectPairs U w cond).num = (selIdx w cond).length := rfl
  rw [h1, ← List.toFinset_card_of_nodup selIdx_nodup, Fintype.card_subtype]
  congr 1
  ext i
  simp [mem_selIdx]

/-- the selected values as a multiset -/
theorem sel_vals : (Finset.univ.val.map (selectPairs U w cond).vals : Multiset ℝ) =
    (Finset.univ.val.map w).filter cond := by
  have h1 : (Finset.univ.val.map (selectPairs U w cond).vals : Multiset ℝ) =
      ((selIdx w cond).map w : Multiset ℝ) := by
    have : List.ofFn (selectPairs U w cond).vals = (selIdx w cond).map w := by
      apply List.ext_getElem
      · simp; rfl
      · intro i h1 h2
        simp [selectPairs, selIdx]
    rw [← this]
    exact (Fin.univ_val_map _)
  rw [h1, Multiset.filter_map]
  have h2 : (Multiset.filter (cond ∘ w) (Finset.univ.val : Multiset (Fin n))) =
      ((selIdx w cond : List (Fin n)) : Multiset (Fin n)) := by
    have : (Finset.univ.val : Multiset (Fin n)) = (List.finRange n : Multiset (Fin n)) := rfl
    rw [this, Multiset.filter_coe]
    rfl
  rw [h2, Multiset.map_coe]

variable {A : Matrix (Fin n) (Fin n) ℝ}

theorem sel_orth (h : IsEig A U w) :
    (selectPairs U w cond).vecs.transpose * (selectPairs U w cond).vecs = 1 := by
  ext a b
  have e : ((selectPairs U w cond).vecs.transpose * (selectPairs U w cond).vecs) a b =
    (fun k => U k (selIdx w cond)[a]) ⬝ᵥ (fun k => U k (selIdx w cond)[b]) := rfl
  rw [e, h.col_dot, Matrix.one_apply]
  have : (selIdx w cond)[a] = (selIdx w cond)[b] ↔ a = b := by
    exact (selIdx_nodup (w := w) (cond := cond)).getElem_inj_iff.trans Fin.ext_iff.symm
  simp only [this]

theorem sel_eig (h : IsEig A U w) (j : Fin (selectPairs U w cond).num) :
    A.mulVec (fun k => (selectPairs U w cond).vecs k j) =
      (selectPairs U w cond).vals j • fun k => (selectPairs U w cond).vecs k j :=
  h.col_eig (selIdx w cond)[j]

/-- the projector onto the selected eigenvectors -/
theorem sel_proj (f : Fin n → ℝ) :
    (selectPairs U w cond).vecs.mulVec ((selectPairs U w cond).vecs.transpose.mulVec f) =
      ∑ i, if cond (w i) then (U.transpose.mulVec f i) • (fun k => U k i) else 0 := by
  ext k
  have e : ((selectPairs U w cond).vecs.mulVec ((selectPairs U w cond).vecs.transpose.mulVec f)) k =
    ∑ j : Fin (selIdx w cond).length,
      U k (selIdx w cond)[j] * U.transpose.mulVec f (selIdx w cond)[j] := rfl
  rw [e, sum_sel (fun i => U k i * U.transpose.mulVec f i), Finset.sum_apply]
  apply Finset.sum_congr rfl
  intro i _
  split
  · simp [mul_comm]
  · simp

end Pytspl
