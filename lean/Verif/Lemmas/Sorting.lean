import Verif.Model.Py
import Mathlib.Data.List.Lex

/-!
# Facts about `sorted`, `set.add` and `itertools.combinations`
-/

namespace Pytspl

open List

theorem sortedInts_perm (l : List Int) : (sortedInts l).Perm l := perm_insertionSort _ _

theorem sortedInts_pairwise (l : List Int) : (sortedInts l).Pairwise (· ≤ ·) := by
  exact pairwise_insertionSort (fun a b : Int => a ≤ b) l

theorem sortedInts_lt {l : List Int} (h : l.Nodup) : (sortedInts l).Pairwise (· < ·) := by
  have h1 := sortedInts_pairwise l
  have h2 : (sortedInts l).Nodup := (sortedInts_perm l).nodup_iff.mpr h
  exact h1.imp₂ (fun a b hab hne => lt_of_le_of_ne hab hne) h2

/-- two sorted arrangements of the same elements are equal -/
theorem sorted_unique {l₁ l₂ : List Int} (h1 : l₁.Pairwise (· ≤ ·)) (h2 : l₂.Pairwise (· ≤ ·))
    (hp : l₁.Perm l₂) : l₁ = l₂ :=
  Perm.eq_of_pairwise (fun _ _ _ _ => le_antisymm) h1 h2 hp

theorem sortedInts_eq_of_perm {l₁ l₂ : List Int} (hp : l₁.Perm l₂) : sortedInts l₁ = sortedInts l₂ :=
  sorted_unique (sortedInts_pairwise _) (sortedInts_pairwise _)
    ((sortedInts_perm _).trans (hp.trans (sortedInts_perm _).symm))

theorem sortedTuples_perm (l : List (List Int)) : (sortedTuples l).Perm l := perm_insertionSort _ _

theorem sortedTuples_pairwise (l : List (List Int)) : (sortedTuples l).Pairwise (· ≤ ·) := by
  exact pairwise_insertionSort (fun a b : List Int => a ≤ b) l

theorem pairLe_iff (a b : Int × Int) : pairLe a b = true ↔ a.1 < b.1 ∨ (a.1 = b.1 ∧ a.2 ≤ b.2) := by
  simp [pairLe]

theorem sortedPairs_perm (l : List (Int × Int)) : (sortedPairs l).Perm l := perm_insertionSort _ _

theorem sortedPairs_pairwise (l : List (Int × Int)) :
    (sortedPairs l).Pairwise (fun a b => a.1 < b.1 ∨ (a.1 = b.1 ∧ a.2 ≤ b.2)) := by
  have : Std.Total fun a b : Int × Int => pairLe a b = true :=
    ⟨fun a b => by simp only [pairLe_iff]; omega⟩
  have : IsTrans (Int × Int) fun a b => pairLe a b = true :=
    ⟨fun a b c h1 h2 => by simp only [pairLe_iff] at *; omega⟩
  have := pairwise_insertionSort (fun a b : Int × Int => pairLe a b = true) l
  exact this.imp fun {a b} h => (pairLe_iff a b).mp h

theorem mem_setAdd {α : Type} [DecidableEq α] (s : List α) (x y : α) :
    y ∈ setAdd s x ↔ y ∈ s ∨ y = x := by
  unfold setAdd
  split
  · constructor
    · exact .inl
    · rintro (h | rfl) <;> assumption
  · simp

theorem nodup_setAdd {α : Type} [DecidableEq α] {s : List α} (h : s.Nodup) (x : α) :
    (setAdd s x).Nodup := by
  unfold setAdd
  split
  · exact h
  · rename_i hx
    rw [List.nodup_append]
    refine ⟨h, by simp, ?_⟩
    intro a ha b hb
    simp only [mem_singleton] at hb
    subst hb
    rintro rfl
    exact hx ha

theorem foldl_setAdd {α β : Type} [DecidableEq β] (g : α → β) (l : List α) (s : List β)
    (hs : s.Nodup) :
    (l.foldl (fun s x => setAdd s (g x)) s).Nodup ∧
    ∀ y, y ∈ l.foldl (fun s x => setAdd s (g x)) s ↔ y ∈ s ∨ ∃ x ∈ l, y = g x := by
  induction l generalizing s with
  | nil => simp [hs]
  | cons a l ih =>
    obtain ⟨h1, h2⟩ := ih (setAdd s (g a)) (nodup_setAdd hs _)
    refine ⟨h1, fun y => ?_⟩
    rw [List.foldl_cons, h2, mem_setAdd]
    simp only [mem_cons]
    constructor
    · rintro ((h | h) | ⟨x, hx, rfl⟩)
      · exact .inl h
      · exact .inr ⟨a, .inl rfl, h⟩
      · exact .inr ⟨x, .inr hx, rfl⟩
    · rintro (h | ⟨x, rfl | hx, rfl⟩)
      · exact .inl (.inl h)
      · exact .inl (.inr rfl)
      · exact .inr ⟨x, hx, rfl⟩

/-- `combinations l r` lists the sublists of length `r`. -/
theorem mem_combinations {α : Type} (l : List α) (r : ℕ) (t : List α) :
    t ∈ combinations l r ↔ t.Sublist l ∧ t.length = r := by
  induction l generalizing r t with
  | nil =>
    cases r with
    | zero =>
      simp only [combinations, mem_singleton, sublist_nil]
      exact ⟨fun h => ⟨h, by simp [h]⟩, fun h => h.1⟩
    | succ r =>
      simp only [combinations, not_mem_nil, sublist_nil, false_iff]
      rintro ⟨rfl, h⟩; simp at h
  | cons x xs ih =>
    cases r with
    | zero =>
      simp only [combinations, mem_singleton]
      exact ⟨fun h => by simp [h], fun h => List.length_eq_zero_iff.mp h.2⟩
    | succ r =>
      simp only [combinations, mem_append, mem_map, ih]
      constructor
      · rintro (⟨t', ⟨h1, h2⟩, rfl⟩ | ⟨h1, h2⟩)
        · exact ⟨h1.cons_cons x, by simp [h2]⟩
        · exact ⟨h1.cons x, h2⟩
      · rintro ⟨h1, h2⟩
        cases h1 with
        | cons _ h => exact .inr ⟨h, h2⟩
        | cons_cons _ h => exact .inl ⟨_, ⟨h, by simpa using h2⟩, rfl⟩

/-- a sublist one shorter is obtained by dropping one element, up to order -/
theorem sublist_drop_one {α : Type} [DecidableEq α] {t s : List α} (h : t.Sublist s)
    (hl : t.length + 1 = s.length) : ∃ v ∈ s, t.Perm (s.erase v) := by
  obtain ⟨a, ha⟩ := h.subperm.exists_of_length_lt (by omega)
  have hp : (a :: t).Perm s := ha.perm_of_length_le (by simp; omega)
  refine ⟨a, hp.subset (by simp), ?_⟩
  have := hp.erase a
  simpa using this

end Pytspl
