import Verif.Model.SimplicialComplex
import Verif.Spec.Complex
import Mathlib.Tactic.Linarith
import Mathlib.Tactic.Ring

/-!
Lemmas about the construction loops of `SimplicialComplex`.
-/

namespace Pytspl

section fold
variable {m n : ℕ} {K : Type}

/-- one step of a loop that rewrites only column `j` -/
def colStep (g : Fin n → Py (Fin m → K → K)) (B : Matrix (Fin m) (Fin n) K) (j : Fin n) :
    Py (Matrix (Fin m) (Fin n) K) := do
  let c ← g j
  pure (Matrix.of fun i' j' => if j' = j then c i' (B i' j') else B i' j')

theorem foldlM_colStep_ok (g : Fin n → Py (Fin m → K → K)) (c : Fin n → Fin m → K → K)
    (l : List (Fin n)) (hl : l.Nodup) (hg : ∀ j ∈ l, g j = .ok (c j))
    (B : Matrix (Fin m) (Fin n) K) :
    l.foldlM (colStep g) B = .ok (Matrix.of fun i j => if j ∈ l then c j i (B i j) else B i j) := by
  induction l generalizing B with
  | nil => simp [pure, Except.pure]; rfl
  | cons a l ih =>
    have ha : g a = .ok (c a) := hg a (by simp)
    have hnd := List.nodup_cons.mp hl
    rw [List.foldlM_cons]
    have : colStep g B a = .ok (Matrix.of fun i' j' => if j' = a then c a i' (B i' j') else B i' j') := by
      simp [colStep, ha, bind, Except.bind, pure, Except.pure]
    rw [this]
    show List.foldlM (colStep g) _ l = _
    rw [ih hnd.2 (fun j hj => hg j (by simp [hj]))]
    congr 1
    ext i j
    by_cases hj : j = a
    · subst hj
      simp [hnd.1]
    · simp [hj]

theorem foldlM_colStep_error (g : Fin n → Py (Fin m → K → K)) (e : PyErr)
    (l : List (Fin n)) (hg : ∀ j ∈ l, ∀ e', g j = .error e' → e' = e)
    (hex : ∃ j ∈ l, ∃ e', g j = .error e')
    (B : Matrix (Fin m) (Fin n) K) :
    l.foldlM (colStep g) B = .error e := by
  induction l generalizing B with
  | nil => simp at hex
  | cons a l ih =>
    rw [List.foldlM_cons]
    cases ha : g a with
    | error e' =>
      have := hg a (by simp) e' ha
      subst this
      simp [colStep, ha, bind, Except.bind]
    | ok c =>
      have : colStep g B a = .ok (Matrix.of fun i' j' => if j' = a then c i' (B i' j') else B i' j') := by
        simp [colStep, ha, bind, Except.bind, pure, Except.pure]
      rw [this]
      refine ih (fun j hj => hg j (by simp [hj])) ?_ _
      obtain ⟨j, hj, e', he⟩ := hex
      rcases List.mem_cons.mp hj with rfl | hj
      · rw [ha] at he; cases he
      · exact ⟨j, hj, e', he⟩

end fold

section npIdx

theorem npIdx_ok_iff {n : ℕ} {i : Int} {k : Fin n} :
    npIdx n i = .ok k ↔ (i = (k : ℕ) ∨ i = (k : ℕ) - (n : Int)) := by
  unfold npIdx
  split
  · rename_i h
    constructor
    · intro hk
      cases hk
      left; simp; omega
    · intro hk
      congr 1
      ext
      simp
      have := k.2
      omega
  · split
    · rename_i h
      constructor
      · intro hk
        cases hk
        right; simp; omega
      · intro hk
        congr 1
        ext
        simp
        have := k.2
        omega
    · constructor
      · intro h; cases h
      · intro h
        have := k.2
        omega

theorem npIdx_ok_of_range {n : ℕ} {i : Int} (h0 : 0 ≤ i) (h1 : i < n) :
    npIdx n i = .ok ⟨i.toNat, by omega⟩ := by
  rw [npIdx_ok_iff]; left; simp; omega

theorem npIdx_error_iff {n : ℕ} {i : Int} {e : PyErr} :
    npIdx n i = .error e ↔ (e = .indexError ∧ ¬ (-(n : Int) ≤ i ∧ i < n)) := by
  unfold npIdx
  split
  · simp; omega
  · split
    · simp; omega
    · constructor
      · intro h; cases h; refine ⟨rfl, ?_⟩; omega
      · rintro ⟨rfl, _⟩; rfl

theorem npIdx_exists {n : ℕ} {i : Int} (h : -(n : Int) ≤ i ∧ i < n) : ∃ k, npIdx n i = .ok k := by
  cases hk : npIdx n i with
  | ok k => exact ⟨k, rfl⟩
  | error e => exact absurd h (npIdx_error_iff.mp hk).2

end npIdx

section listIndex
variable {α : Type} [DecidableEq α]

theorem getElem_ne_of_lt_idxOf {l : List α} {x : α} {i : ℕ} (h : i < l.idxOf x)
    (hi : i < l.length) : l[i] ≠ x := by
  have := List.not_of_lt_findIdx (p := (· == x)) (xs := l) (i := i) h
  simpa using this

theorem listIndex_ok_iff {l : List α} {x : α} {k : Fin l.length} :
    listIndex l x = .ok k ↔ (l[k] = x ∧ ∀ j : Fin l.length, j < k → l[j] ≠ x) := by
  unfold listIndex
  split
  · rename_i h
    constructor
    · intro hk
      cases hk
      refine ⟨by simp, ?_⟩
      intro j hj
      exact getElem_ne_of_lt_idxOf (Fin.lt_def.mp hj) j.2
    · rintro ⟨h1, h2⟩
      congr 1
      ext
      simp only
      apply le_antisymm
      · by_contra hlt
        push Not at hlt
        exact getElem_ne_of_lt_idxOf hlt k.2 h1
      · by_contra hlt
        push Not at hlt
        exact h2 ⟨l.idxOf x, h⟩ (Fin.lt_def.mpr hlt) (by simp)
  · rename_i h
    constructor
    · intro hk; cases hk
    · rintro ⟨h1, _⟩
      exact absurd (List.idxOf_lt_length_iff.mpr (h1 ▸ List.getElem_mem _)) h

theorem listIndex_error_iff {l : List α} {x : α} {e : PyErr} :
    listIndex l x = .error e ↔ (e = .valueError ∧ x ∉ l) := by
  unfold listIndex
  split
  · rename_i h
    simp only [List.idxOf_lt_length_iff] at h
    simp [h]
  · rename_i h
    simp only [List.idxOf_lt_length_iff] at h
    constructor
    · intro h'; cases h'; exact ⟨rfl, h⟩
    · rintro ⟨rfl, _⟩; rfl

theorem listIndex_of_mem {l : List α} {x : α} (h : x ∈ l) : ∃ k, listIndex l x = .ok k := by
  cases hk : listIndex l x with
  | ok k => exact ⟨k, rfl⟩
  | error e => exact absurd h (listIndex_error_iff.mp hk).2

theorem listIndexOr_error_iff {l : List α} {x y : α} {e : PyErr} :
    listIndexOr l x y = .error e ↔ (e = .valueError ∧ x ∉ l ∧ y ∉ l) := by
  unfold listIndexOr
  cases hk : listIndex l x with
  | ok k =>
    have := (listIndex_ok_iff.mp hk).1
    have hm : x ∈ l := this ▸ List.getElem_mem _
    simp [hm]
  | error e' =>
    obtain ⟨_, hx⟩ := listIndex_error_iff.mp hk
    simp [hx, listIndex_error_iff]

theorem listIndexOr_ok_spec {l : List α} {x y : α} {k : Fin l.length}
    (h : listIndexOr l x y = .ok k) :
    (listIndex l x = .ok k) ∨ (x ∉ l ∧ listIndex l y = .ok k) := by
  unfold listIndexOr at h
  cases hk : listIndex l x with
  | ok k' => rw [hk] at h; left; exact h
  | error e' =>
    rw [hk] at h
    right
    exact ⟨(listIndex_error_iff.mp hk).2, h⟩

theorem listIndexOr_get {l : List α} {x y : α} {k : Fin l.length}
    (h : listIndexOr l x y = .ok k) : l[k] = x ∨ (x ∉ l ∧ l[k] = y) := by
  rcases listIndexOr_ok_spec h with h | ⟨hx, h⟩
  · exact .inl (listIndex_ok_iff.mp h).1
  · exact .inr ⟨hx, (listIndex_ok_iff.mp h).1⟩

end listIndex

section B1
variable {K : Type} [CommRing K]

/-- column writer of `edgesToB1` -/
def b1Col (edges : List Edge) (n : ℕ) (j : Fin edges.length) : Py (Fin n → K → K) := do
  let u ← npIdx n edges[j].1
  let v ← npIdx n edges[j].2
  pure (fun i x => if i = v then 1 else if i = u then -1 else x)

theorem edgesToB1_eq (edges : List Edge) (n : ℕ) :
    edgesToB1 (K := K) edges n =
      (List.finRange edges.length).foldlM (colStep (b1Col edges n)) 0 := by
  unfold edgesToB1
  congr 1
  funext B j
  unfold colStep b1Col
  cases h1 : npIdx n edges[j].1 with
  | error e => rfl
  | ok u =>
    cases h2 : npIdx n edges[j].2 with
    | error e => rfl
    | ok v =>
      simp only [bind, Except.bind, pure, Except.pure]
      congr 1
      ext i' j'
      simp only [setEntry]
      by_cases hj : j' = j <;> by_cases hv : i' = v <;> by_cases hu : i' = u <;> simp [hj, hv, hu]

theorem edgesToB1_ok_entry {edges : List Edge} {n : ℕ} {B : Matrix (Fin n) (Fin edges.length) K}
    (h : edgesToB1 edges n = .ok B) (j : Fin edges.length) :
    ∃ u v, npIdx n edges[j].1 = .ok u ∧ npIdx n edges[j].2 = .ok v ∧
      ∀ i, B i j = if i = v then 1 else if i = u then -1 else 0 := by
  rw [edgesToB1_eq] at h
  by_cases hex : ∃ j ∈ List.finRange edges.length, ∃ e', b1Col (K := K) edges n j = .error e'
  · rw [foldlM_colStep_error _ .indexError _ ?_ hex] at h
    · cases h
    · intro j _ e' he
      unfold b1Col at he
      cases h1 : npIdx n edges[j].1 with
      | error e => rw [h1] at he; cases he; exact (npIdx_error_iff.mp h1).1
      | ok u =>
        cases h2 : npIdx n edges[j].2 with
        | error e => rw [h1, h2] at he; cases he; exact (npIdx_error_iff.mp h2).1
        | ok v => rw [h1, h2] at he; cases he
  · have hok : ∀ j ∈ List.finRange edges.length, ∃ c, b1Col (K := K) edges n j = .ok c := by
      intro j hj
      cases hc : b1Col (K := K) edges n j with
      | ok c => exact ⟨c, rfl⟩
      | error e => exact absurd ⟨j, hj, e, hc⟩ hex
    choose c hc using fun j => hok j (List.mem_finRange j)
    rw [foldlM_colStep_ok _ c _ (List.nodup_finRange _) (fun j _ => hc j)] at h
    cases h
    have hcj := hc j
    unfold b1Col at hcj
    cases h1 : npIdx n edges[j].1 with
    | error e => rw [h1] at hcj; cases hcj
    | ok u =>
      cases h2 : npIdx n edges[j].2 with
      | error e => rw [h1, h2] at hcj; cases hcj
      | ok v =>
        rw [h1, h2] at hcj
        refine ⟨u, v, rfl, rfl, ?_⟩
        intro i
        have : c j = fun i x => if i = v then 1 else if i = u then -1 else x := by
          exact (Except.ok.inj hcj).symm
        simp [this]

theorem edgesToB1_error_iff {edges : List Edge} {n : ℕ} {e : PyErr} :
    edgesToB1 (K := K) edges n = .error e ↔
      (e = .indexError ∧ ∃ ed ∈ edges,
        ¬ (-(n : Int) ≤ ed.1 ∧ ed.1 < n) ∨ ¬ (-(n : Int) ≤ ed.2 ∧ ed.2 < n)) := by
  constructor
  · intro h
    by_contra hne
    rw [edgesToB1_eq] at h
    have hcol : ∀ j, ∀ e', b1Col (K := K) edges n j = .error e' → e' = .indexError ∧
        (¬ (-(n : Int) ≤ edges[j].1 ∧ edges[j].1 < n) ∨
          ¬ (-(n : Int) ≤ edges[j].2 ∧ edges[j].2 < n)) := by
      intro j e' he
      unfold b1Col at he
      cases h1 : npIdx n edges[j].1 with
      | error e =>
        rw [h1] at he; cases he
        have := npIdx_error_iff.mp h1
        exact ⟨this.1, .inl this.2⟩
      | ok u =>
        cases h2 : npIdx n edges[j].2 with
        | error e =>
          rw [h1, h2] at he; cases he
          have := npIdx_error_iff.mp h2
          exact ⟨this.1, .inr this.2⟩
        | ok v => rw [h1, h2] at he; cases he
    by_cases hex : ∃ j ∈ List.finRange edges.length, ∃ e', b1Col (K := K) edges n j = .error e'
    · rw [foldlM_colStep_error _ .indexError _ (fun j _ e' he => (hcol j e' he).1) hex] at h
      cases h
      obtain ⟨j, _, e', he⟩ := hex
      exact hne ⟨rfl, edges[j], List.getElem_mem _, (hcol j e' he).2⟩
    · have hok : ∀ j, ∃ c, b1Col (K := K) edges n j = .ok c := by
        intro j
        cases hc : b1Col (K := K) edges n j with
        | ok c => exact ⟨c, rfl⟩
        | error e => exact absurd ⟨j, List.mem_finRange j, e, hc⟩ hex
      choose c hc using hok
      rw [foldlM_colStep_ok _ c _ (List.nodup_finRange _) (fun j _ => hc j)] at h
      cases h
  · rintro ⟨rfl, ed, hed, hbad⟩
    cases h : edgesToB1 (K := K) edges n with
    | ok B =>
      exfalso
      obtain ⟨k, hk, rfl⟩ := List.getElem_of_mem hed
      obtain ⟨u, v, hu, hv, _⟩ := edgesToB1_ok_entry h ⟨k, hk⟩
      simp only [Fin.getElem_fin] at hu hv
      have hu' := npIdx_ok_iff.mp hu
      have hv' := npIdx_ok_iff.mp hv
      have := u.2
      have := v.2
      omega
    | error e =>
      -- only IndexError is possible
      rw [edgesToB1_eq] at h
      by_cases hex : ∃ j ∈ List.finRange edges.length, ∃ e', b1Col (K := K) edges n j = .error e'
      · rw [foldlM_colStep_error _ .indexError _ ?_ hex] at h
        · rw [← h]
        · intro j _ e' he
          unfold b1Col at he
          cases h1 : npIdx n edges[j].1 with
          | error e => rw [h1] at he; cases he; exact (npIdx_error_iff.mp h1).1
          | ok u =>
            cases h2 : npIdx n edges[j].2 with
            | error e => rw [h1, h2] at he; cases he; exact (npIdx_error_iff.mp h2).1
            | ok v => rw [h1, h2] at he; cases he
      · have hok : ∀ j, ∃ c, b1Col (K := K) edges n j = .ok c := by
          intro j
          cases hc : b1Col (K := K) edges n j with
          | ok c => exact ⟨c, rfl⟩
          | error e => exact absurd ⟨j, List.mem_finRange j, e, hc⟩ hex
        choose c hc using hok
        rw [foldlM_colStep_ok _ c _ (List.nodup_finRange _) (fun j _ => hc j)] at h
        cases h

end B1

section B2
variable {K : Type} [CommRing K]

/-- the three row lookups of one triangle, in the order of the code -/
def triIdx (edges : List Edge) (t : List Int) :
    Py (Fin edges.length × Fin edges.length × Fin edges.length) := do
  let (a, b, c) ← unpack3 t
  let ia ← listIndexOr edges (a, b) (b, a)
  let ib ← listIndexOr edges (b, c) (c, b)
  let ic ← listIndexOr edges (a, c) (c, a)
  pure (ia, ib, ic)

/-- column writer of `trianglesToB2` -/
def b2Col (triangles : List (List Int)) (edges : List Edge) (j : Fin triangles.length) :
    Py (Fin edges.length → K → K) := do
  let (ia, ib, ic) ← triIdx edges triangles[j]
  pure (fun i x => if i = ib then 1 else if i = ic then -1 else if i = ia then 1 else x)

theorem trianglesToB2_eq (triangles : List (List Int)) (edges : List Edge) :
    trianglesToB2 (K := K) triangles edges =
      (List.finRange triangles.length).foldlM (colStep (b2Col triangles edges)) 0 := by
  unfold trianglesToB2
  congr 1
  funext B j
  unfold colStep b2Col triIdx
  cases h0 : unpack3 triangles[j] with
  | error e => rfl
  | ok abc =>
    obtain ⟨a, b, c⟩ := abc
    cases h1 : listIndexOr edges (a, b) (b, a) with
    | error e => simp [h1, bind, Except.bind]
    | ok ia =>
      cases h2 : listIndexOr edges (b, c) (c, b) with
      | error e => simp [h1, h2, bind, Except.bind]
      | ok ib =>
        cases h3 : listIndexOr edges (a, c) (c, a) with
        | error e => simp [h1, h2, h3, bind, Except.bind]
        | ok ic =>
          simp only [h1, h2, h3, bind, Except.bind, pure, Except.pure]
          congr 1
          ext i' j'
          simp only [setEntry]
          by_cases hj : j' = j <;> simp [hj]

theorem triIdx_error_iff {edges : List Edge} {t : List Int} {e : PyErr} :
    triIdx edges t = .error e ↔ (e = .valueError ∧
      ¬ ∃ a b c, t = [a, b, c] ∧ Joined edges a b ∧ Joined edges b c ∧ Joined edges a c) := by
  unfold triIdx Joined
  match t with
  | [] => simp [unpack3, bind, Except.bind]; exact eq_comm
  | [_] => simp [unpack3, bind, Except.bind]; exact eq_comm
  | [_, _] => simp [unpack3, bind, Except.bind]; exact eq_comm
  | (_ :: _ :: _ :: _ :: _) => simp [unpack3, bind, Except.bind]; exact eq_comm
  | [a, b, c] =>
    simp only [unpack3, bind, Except.bind]
    cases h1 : listIndexOr edges (a, b) (b, a) with
    | error e' =>
      have := listIndexOr_error_iff.mp h1
      simp [this]; exact eq_comm
    | ok ia =>
      have hab : (a, b) ∈ edges ∨ (b, a) ∈ edges := by
        by_contra hn; push Not at hn
        rw [listIndexOr_error_iff.mpr ⟨rfl, hn⟩] at h1; cases h1
      cases h2 : listIndexOr edges (b, c) (c, b) with
      | error e' =>
        have := listIndexOr_error_iff.mp h2
        simp [this]; exact eq_comm
      | ok ib =>
        have hbc : (b, c) ∈ edges ∨ (c, b) ∈ edges := by
          by_contra hn; push Not at hn
          rw [listIndexOr_error_iff.mpr ⟨rfl, hn⟩] at h2; cases h2
        cases h3 : listIndexOr edges (a, c) (c, a) with
        | error e' =>
          have := listIndexOr_error_iff.mp h3
          simp [this]; exact eq_comm
        | ok ic =>
          have hac : (a, c) ∈ edges ∨ (c, a) ∈ edges := by
            by_contra hn; push Not at hn
            rw [listIndexOr_error_iff.mpr ⟨rfl, hn⟩] at h3; cases h3
          simp [pure, Except.pure, hab, hbc, hac]

theorem triIdx_ok {edges : List Edge} {t : List Int} {ia ib ic : Fin edges.length}
    (h : triIdx edges t = .ok (ia, ib, ic)) :
    ∃ a b c, t = [a, b, c] ∧ listIndexOr edges (a, b) (b, a) = .ok ia ∧
      listIndexOr edges (b, c) (c, b) = .ok ib ∧ listIndexOr edges (a, c) (c, a) = .ok ic := by
  unfold triIdx at h
  match t with
  | [] | [_] | [_, _] | (_ :: _ :: _ :: _ :: _) => simp [unpack3, bind, Except.bind] at h
  | [a, b, c] =>
    simp only [unpack3, bind, Except.bind] at h
    cases h1 : listIndexOr edges (a, b) (b, a) with
    | error e' => rw [h1] at h; cases h
    | ok ia' =>
      cases h2 : listIndexOr edges (b, c) (c, b) with
      | error e' => rw [h1, h2] at h; cases h
      | ok ib' =>
        cases h3 : listIndexOr edges (a, c) (c, a) with
        | error e' => rw [h1, h2, h3] at h; cases h
        | ok ic' =>
          rw [h1, h2, h3] at h
          cases h
          exact ⟨a, b, c, rfl, h1, h2, h3⟩

theorem b2Col_error {triangles : List (List Int)} {edges : List Edge} {j : Fin triangles.length}
    {e : PyErr} : b2Col (K := K) triangles edges j = .error e ↔
      triIdx edges triangles[j] = .error e := by
  unfold b2Col
  cases h : triIdx edges triangles[j] with
  | error e' => simp [bind, Except.bind]
  | ok x => obtain ⟨ia, ib, ic⟩ := x; simp [bind, Except.bind, pure, Except.pure]

theorem trianglesToB2_ok_entry {triangles : List (List Int)} {edges : List Edge}
    {B : Matrix (Fin edges.length) (Fin triangles.length) K}
    (h : trianglesToB2 triangles edges = .ok B) (j : Fin triangles.length) :
    ∃ a b c ia ib ic, triangles[j] = [a, b, c] ∧ listIndexOr edges (a, b) (b, a) = .ok ia ∧
      listIndexOr edges (b, c) (c, b) = .ok ib ∧ listIndexOr edges (a, c) (c, a) = .ok ic ∧
      ∀ i, B i j = if i = ib then 1 else if i = ic then -1 else if i = ia then 1 else 0 := by
  rw [trianglesToB2_eq] at h
  have hcol : ∀ j, ∃ c, b2Col (K := K) triangles edges j = .ok c := by
    by_contra hn
    push Not at hn
    obtain ⟨j, hj⟩ := hn
    rw [foldlM_colStep_error _ .valueError _ ?_ ?_] at h
    · cases h
    · intro j _ e' he
      exact (triIdx_error_iff.mp (b2Col_error.mp he)).1
    · refine ⟨j, List.mem_finRange j, ?_⟩
      cases hc : b2Col (K := K) triangles edges j with
      | ok c => exact absurd hc (hj c)
      | error e => exact ⟨e, rfl⟩
  choose c hc using hcol
  rw [foldlM_colStep_ok _ c _ (List.nodup_finRange _) (fun j _ => hc j)] at h
  cases h
  have hcj := hc j
  unfold b2Col at hcj
  cases ht : triIdx edges triangles[j] with
  | error e => rw [ht] at hcj; cases hcj
  | ok x =>
    obtain ⟨ia, ib, ic⟩ := x
    rw [ht] at hcj
    obtain ⟨a, b, c', h0, h1, h2, h3⟩ := triIdx_ok ht
    refine ⟨a, b, c', ia, ib, ic, h0, h1, h2, h3, ?_⟩
    intro i
    have : c j = fun i x => if i = ib then 1 else if i = ic then -1 else if i = ia then 1 else x := by
      exact (Except.ok.inj hcj).symm
    simp [this]

theorem trianglesToB2_error_iff {triangles : List (List Int)} {edges : List Edge} {e : PyErr} :
    trianglesToB2 (K := K) triangles edges = .error e ↔ (e = .valueError ∧ ∃ t ∈ triangles,
      ¬ ∃ a b c, t = [a, b, c] ∧ Joined edges a b ∧ Joined edges b c ∧ Joined edges a c) := by
  rw [trianglesToB2_eq]
  by_cases hex : ∃ j ∈ List.finRange triangles.length, ∃ e', b2Col (K := K) triangles edges j = .error e'
  · rw [foldlM_colStep_error _ .valueError _
      (fun j _ e' he => (triIdx_error_iff.mp (b2Col_error.mp he)).1) hex]
    obtain ⟨j, _, e', he⟩ := hex
    have hj := triIdx_error_iff.mp (b2Col_error.mp he)
    constructor
    · intro h; cases h
      exact ⟨rfl, triangles[j], List.getElem_mem _, hj.2⟩
    · rintro ⟨rfl, _⟩; rfl
  · have hok : ∀ j, ∃ c, b2Col (K := K) triangles edges j = .ok c := by
      intro j
      cases hc : b2Col (K := K) triangles edges j with
      | ok c => exact ⟨c, rfl⟩
      | error e => exact absurd ⟨j, List.mem_finRange j, e, hc⟩ hex
    choose c hc using hok
    rw [foldlM_colStep_ok _ c _ (List.nodup_finRange _) (fun j _ => hc j)]
    constructor
    · intro h; cases h
    · rintro ⟨rfl, t, ht, hbad⟩
      obtain ⟨k, hk, rfl⟩ := List.getElem_of_mem ht
      exfalso
      have := (triIdx_error_iff (e := .valueError)).mpr ⟨rfl, hbad⟩
      have h2 := (b2Col_error (K := K) (j := ⟨k, hk⟩)).mpr this
      rw [hc] at h2
      cases h2

end B2

section init
variable {K : Type} [CommRing K]

theorem SC.init_ok {nodes edges triangles nf ef} {sc : SC K}
    (h : SC.init nodes edges triangles nf ef = .ok sc) :
    sc.nodes = nodes ∧ sc.edges = edges ∧ sc.triangles = triangles ∧
      sc.nodeFeatures = nf ∧ sc.edgeFeatures = ef ∧ sc.Built := by
  have h' := h
  unfold SC.init at h
  cases h1 : edgesToB1 (K := K) edges nodes.length with
  | error e => rw [h1] at h; cases h
  | ok B1 =>
    cases h2 : trianglesToB2 (K := K) triangles edges with
    | error e => rw [h1, h2] at h; cases h
    | ok B2 =>
      rw [h1, h2] at h
      cases h
      exact ⟨rfl, rfl, rfl, rfl, rfl, h'⟩

theorem SC.Built.b1 {sc : SC K} (h : sc.Built) : edgesToB1 sc.edges sc.nodes.length = .ok sc.B1 := by
  unfold SC.Built SC.init at h
  cases h1 : edgesToB1 (K := K) sc.edges sc.nodes.length with
  | error e => rw [h1] at h; cases h
  | ok B1 =>
    cases h2 : trianglesToB2 (K := K) sc.triangles sc.edges with
    | error e => rw [h1, h2] at h; cases h
    | ok B2 =>
      rw [h1, h2] at h
      simp only [bind, Except.bind, pure, Except.pure, Except.ok.injEq] at h
      obtain ⟨_, _, _, _, _, _, _⟩ := sc
      simp only [SC.mk.injEq, heq_eq_eq, true_and] at h
      rw [h.1]

theorem SC.Built.b2 {sc : SC K} (h : sc.Built) : trianglesToB2 sc.triangles sc.edges = .ok sc.B2 := by
  unfold SC.Built SC.init at h
  cases h1 : edgesToB1 (K := K) sc.edges sc.nodes.length with
  | error e => rw [h1] at h; cases h
  | ok B1 =>
    cases h2 : trianglesToB2 (K := K) sc.triangles sc.edges with
    | error e => rw [h1, h2] at h; cases h
    | ok B2 =>
      rw [h1, h2] at h
      simp only [bind, Except.bind, pure, Except.pure, Except.ok.injEq] at h
      obtain ⟨_, _, _, _, _, _, _⟩ := sc
      simp only [SC.mk.injEq, heq_eq_eq, true_and] at h
      rw [h.2]

end init

end Pytspl
