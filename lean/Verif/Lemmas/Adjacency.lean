import Verif.Lemmas.Incidence
import Mathlib.Data.List.Perm.Basic
import Mathlib.Data.List.Nodup
import Mathlib.Data.List.NodupEquivFin

namespace Pytspl

variable {K : Type} [CommRing K]

/-- the non-zero rows of a column with two marked rows -/
theorem nz_pair {n : ℕ} (p : Fin n → Bool) {u v : Fin n} (huv : u ≠ v)
    (hp : ∀ i, p i = true ↔ i = u ∨ i = v) :
    (List.finRange n).filter p = [u, v] ∨ (List.finRange n).filter p = [v, u] := by
  have hperm : ((List.finRange n).filter p).Perm [u, v] := by
    rw [List.perm_ext_iff_of_nodup ((List.nodup_finRange n).filter _) (by simp [huv])]
    intro a
    simp [hp]
  generalize (List.finRange n).filter p = l at hperm
  have hlen := hperm.length_eq
  match l, hlen with
  | [x, y], _ =>
    have hx : x ∈ [u, v] := hperm.subset (by simp)
    have hy : y ∈ [u, v] := hperm.subset (by simp)
    have hnd : ([x, y] : List (Fin n)).Nodup := hperm.nodup_iff.mpr (by simp [huv])
    simp only [List.mem_cons, List.not_mem_nil, or_false] at hx hy
    have hxy : x ≠ y := by simpa using hnd
    rcases hx with rfl | rfl <;> rcases hy with rfl | rfl
    · exact absurd rfl hxy
    · exact .inl rfl
    · exact .inr rfl
    · exact absurd rfl hxy

theorem nz_single {n : ℕ} (p : Fin n → Bool) {u : Fin n} (hp : ∀ i, p i = true ↔ i = u) :
    (List.finRange n).filter p = [u] := by
  have hperm : ((List.finRange n).filter p).Perm [u] := by
    rw [List.perm_ext_iff_of_nodup ((List.nodup_finRange n).filter _) (by simp)]
    intro a
    simp [hp]
  exact List.perm_singleton.mp hperm

/-- one iteration of the adjacency loop -/
def adjStep [DecidableEq K] (sc : SC K) (A : Matrix (Fin sc.N) (Fin sc.N) K) (col : Fin sc.E) :
    Py (Matrix (Fin sc.N) (Fin sc.N) K) := do
  let nz := (List.finRange sc.N).filter fun i => decide (sc.B1 i col ≠ 0)
  let fromNode ← (nz[0]?).elim (.error .indexError) .ok
  let toNode ← (nz[1]?).elim (.error .indexError) .ok
  pure (setEntry (setEntry A fromNode toNode 1) toNode fromNode 1)

theorem adjStep_pair [DecidableEq K] [Nontrivial K] {sc : SC K} (hb : sc.Built) (col : Fin sc.E)
    {u v : Fin sc.N} (hu : npIdx sc.nodes.length sc.edges[col].1 = .ok u)
    (hv : npIdx sc.nodes.length sc.edges[col].2 = .ok v) (huv : u ≠ v)
    (A : Matrix (Fin sc.N) (Fin sc.N) K) :
    adjStep sc A col = .ok (Matrix.of fun i j =>
      if (i = u ∧ j = v) ∨ (i = v ∧ j = u) then 1 else A i j) := by
  obtain ⟨u', v', hu', hv', hB⟩ := edgesToB1_ok_entry hb.b1 col
  rw [hu] at hu'; rw [hv] at hv'
  cases hu'; cases hv'
  have hp : ∀ i, (decide (sc.B1 i col ≠ 0)) = true ↔ i = u ∨ i = v := by
    intro i
    rw [hB i]
    by_cases h1 : i = v
    · simp [h1]
    · by_cases h2 : i = u <;> simp [h1, h2, huv]
  unfold adjStep
  rcases nz_pair _ huv hp with h | h <;> rw [h] <;>
    simp only [List.getElem?_cons_zero, List.getElem?_cons_succ, Option.elim, bind, Except.bind,
      pure, Except.pure] <;> congr 1 <;> ext i j <;> simp only [setEntry, Matrix.of_apply]
  · by_cases h1 : i = u ∧ j = v <;> by_cases h2 : i = v ∧ j = u <;> simp [h1, h2]
  · by_cases h1 : i = u ∧ j = v <;> by_cases h2 : i = v ∧ j = u <;> simp [h1, h2]

theorem adjStep_loop [DecidableEq K] [Nontrivial K] {sc : SC K} (hb : sc.Built) (col : Fin sc.E)
    {u : Fin sc.N} (hu : npIdx sc.nodes.length sc.edges[col].1 = .ok u)
    (hv : npIdx sc.nodes.length sc.edges[col].2 = .ok u)
    (A : Matrix (Fin sc.N) (Fin sc.N) K) :
    adjStep sc A col = .error .indexError := by
  obtain ⟨u', v', hu', hv', hB⟩ := edgesToB1_ok_entry hb.b1 col
  rw [hu] at hu'; rw [hv] at hv'
  cases hu'; cases hv'
  have hp : ∀ i, (decide (sc.B1 i col ≠ 0)) = true ↔ i = u := by
    intro i
    rw [hB i]
    by_cases h1 : i = u <;> simp [h1]
  unfold adjStep
  rw [nz_single _ hp]
  simp [bind, Except.bind]

theorem adjFold_ok [DecidableEq K] [Nontrivial K] {sc : SC K} (hb : sc.Built)
    (u v : Fin sc.E → Fin sc.N)
    (hu : ∀ c, npIdx sc.nodes.length sc.edges[c].1 = .ok (u c))
    (hv : ∀ c, npIdx sc.nodes.length sc.edges[c].2 = .ok (v c))
    (huv : ∀ c, u c ≠ v c) (l : List (Fin sc.E)) (A : Matrix (Fin sc.N) (Fin sc.N) K) :
    ∃ A', l.foldlM (adjStep sc) A = .ok A' ∧
      (∀ i j, (∃ c ∈ l, (i = u c ∧ j = v c) ∨ (i = v c ∧ j = u c)) → A' i j = 1) ∧
      (∀ i j, (¬ ∃ c ∈ l, (i = u c ∧ j = v c) ∨ (i = v c ∧ j = u c)) → A' i j = A i j) := by
  induction l generalizing A with
  | nil => exact ⟨A, rfl, by simp, by simp⟩
  | cons c l ih =>
    rw [List.foldlM_cons, adjStep_pair hb c (hu c) (hv c) (huv c)]
    obtain ⟨A', h1, h2, h3⟩ := ih (Matrix.of fun i j =>
      if (i = u c ∧ j = v c) ∨ (i = v c ∧ j = u c) then 1 else A i j)
    refine ⟨A', h1, ?_, ?_⟩
    · rintro i j ⟨d, hd, hij⟩
      by_cases hl : ∃ c ∈ l, (i = u c ∧ j = v c) ∨ (i = v c ∧ j = u c)
      · exact h2 i j hl
      · rw [h3 i j hl]
        rcases List.mem_cons.mp hd with rfl | hd
        · simp [hij]
        · exact absurd ⟨d, hd, hij⟩ hl
    · intro i j hn
      rw [h3 i j (fun ⟨d, hd, hij⟩ => hn ⟨d, by simp [hd], hij⟩)]
      have : ¬ ((i = u c ∧ j = v c) ∨ (i = v c ∧ j = u c)) := fun h => hn ⟨c, by simp, h⟩
      simp [this]

theorem adjFold_loop [DecidableEq K] [Nontrivial K] {sc : SC K} (hb : sc.Built)
    (l : List (Fin sc.E)) (A : Matrix (Fin sc.N) (Fin sc.N) K)
    (hex : ∃ c ∈ l, ∃ r, npIdx sc.nodes.length sc.edges[c].1 = .ok r ∧
      npIdx sc.nodes.length sc.edges[c].2 = .ok r) :
    l.foldlM (adjStep sc) A = .error .indexError := by
  induction l generalizing A with
  | nil => simp at hex
  | cons c l ih =>
    rw [List.foldlM_cons]
    obtain ⟨u, v, hu, hv, -⟩ := edgesToB1_ok_entry hb.b1 c
    by_cases huv : u = v
    · subst huv
      rw [adjStep_loop hb c hu hv]; rfl
    · rw [adjStep_pair hb c hu hv huv]
      apply ih
      obtain ⟨d, hd, r, h1, h2⟩ := hex
      rcases List.mem_cons.mp hd with rfl | hd
      · rw [h1] at hu; rw [h2] at hv; cases hu; cases hv; exact absurd rfl huv
      · exact ⟨d, hd, r, h1, h2⟩

end Pytspl
