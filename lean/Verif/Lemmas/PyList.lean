import Verif.Model.Py

/-!
# Lists of Python computations
-/

namespace Pytspl

theorem mapM_ok {α β : Type} (l : List α) (f : α → Py β) (g : α → β) (h : ∀ a ∈ l, f a = .ok (g a)) :
    l.mapM f = .ok (l.map g) := by
  induction l with
  | nil => rfl
  | cons a l ih =>
    rw [List.mapM_cons, h a (by simp), ih fun b hb => h b (by simp [hb])]
    rfl

/-- a loop of computations succeeds exactly when every one of them does -/
theorem mapM_eq_ok {α β : Type} {l : List α} {f : α → Py β} {r : List β} (h : l.mapM f = .ok r) :
    List.Forall₂ (fun a b => f a = .ok b) l r := by
  induction l generalizing r with
  | nil =>
    rw [List.mapM_nil] at h
    rw [← Except.ok.inj h]
    exact .nil
  | cons a l ih =>
    rw [List.mapM_cons] at h
    cases hb : f a with
    | error e => rw [hb] at h; cases h
    | ok b =>
      rw [hb] at h
      cases hr : l.mapM f with
      | error e => rw [hr] at h; cases h
      | ok r' =>
        rw [hr] at h
        rw [← Except.ok.inj h]
        exact .cons hb (ih hr)

theorem mapM_error {α β : Type} {l : List α} {f : α → Py β} {e : PyErr} (h : l.mapM f = .error e) :
    ∃ a ∈ l, f a = .error e := by
  induction l with
  | nil => cases h
  | cons a l ih =>
    rw [List.mapM_cons] at h
    cases hb : f a with
    | error e' =>
      rw [hb] at h
      refine ⟨a, by simp, ?_⟩
      cases h
      exact hb
    | ok b =>
      rw [hb] at h
      cases hr : l.mapM f with
      | error e' =>
        rw [hr] at h
        cases h
        obtain ⟨a', h1, h2⟩ := ih hr
        exact ⟨a', by simp [h1], h2⟩
      | ok r' => rw [hr] at h; cases h

end Pytspl
