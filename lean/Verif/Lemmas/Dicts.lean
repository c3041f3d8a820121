import Verif.Lemmas.FilterHeap
import Verif.Lemmas.PyList

/-!
# Dictionaries built from lists of pairs
-/

namespace Pytspl

namespace Dict
variable {κ ν : Type} [DecidableEq κ]

theorem mem_keys_set (d : Dict κ ν) (k k' : κ) (v : ν) :
    k' ∈ keys (d.set k v) ↔ k' ∈ keys d ∨ k' = k := by
  induction d with
  | nil => simp [set, keys]
  | cons p d ih =>
    obtain ⟨q, w⟩ := p
    unfold set
    by_cases h : q = k
    · subst h
      rw [if_pos rfl]
      simp only [keys, List.map_cons, List.mem_cons]
      constructor
      · exact .inl
      · rintro (h | h)
        · exact h
        · exact .inl h
    · rw [if_neg h]
      simp only [keys, List.map_cons, List.mem_cons] at ih ⊢
      rw [ih]
      tauto

theorem nodup_keys_set {d : Dict κ ν} (h : (keys d).Nodup) (k : κ) (v : ν) :
    (keys (d.set k v)).Nodup := by
  induction d with
  | nil => simp [set, keys]
  | cons p d ih =>
    obtain ⟨q, w⟩ := p
    simp only [keys, List.map_cons, List.nodup_cons] at h
    unfold set
    by_cases hq : q = k
    · rw [if_pos hq]
      simp only [keys, List.map_cons, List.nodup_cons]
      exact h
    · rw [if_neg hq]
      have hm := mem_keys_set d k q v
      simp only [keys, List.map_cons, List.nodup_cons] at ih hm ⊢
      refine ⟨fun hx => ?_, ih h.2⟩
      rcases hm.mp hx with h' | h'
      · exact h.1 h'
      · exact hq h'

theorem set_of_not_mem {d : Dict κ ν} {k : κ} (h : k ∉ keys d) (v : ν) :
    d.set k v = d ++ [(k, v)] := by
  induction d with
  | nil => rfl
  | cons p d ih =>
    obtain ⟨q, w⟩ := p
    simp only [keys, List.map_cons, List.mem_cons, not_or] at h
    unfold set
    rw [if_neg fun hq => h.1 hq.symm, ih h.2]
    rfl

theorem foldl_set_nodup (l : List (κ × ν)) (d : Dict κ ν) (h : (keys d).Nodup) :
    (keys (l.foldl (fun d p => d.set p.1 p.2) d)).Nodup := by
  induction l generalizing d with
  | nil => exact h
  | cons p l ih => exact ih _ (nodup_keys_set h _ _)

/-- a dict never has a key twice -/
theorem nodup_keys_ofPairs (l : List (κ × ν)) : (keys (ofPairs l)).Nodup :=
  foldl_set_nodup l [] (by simp [keys])

theorem foldl_set_append (l : List (κ × ν)) (d : Dict κ ν) (h : (d.map Prod.fst ++ l.map Prod.fst).Nodup) :
    l.foldl (fun d p => d.set p.1 p.2) d = d ++ l := by
  induction l generalizing d with
  | nil => simp
  | cons p l ih =>
    obtain ⟨k, v⟩ := p
    rw [List.foldl_cons, set_of_not_mem, ih]
    · simp
    · simpa using h
    · intro hk
      rw [List.nodup_append] at h
      exact h.2.2 k hk k (by simp) rfl

/-- pairs with distinct keys are the dict they make -/
theorem ofPairs_of_nodup {l : List (κ × ν)} (h : (l.map Prod.fst).Nodup) : ofPairs l = l := by
  unfold ofPairs
  rw [foldl_set_append l [] (by simpa using h)]
  rfl

theorem mem_keys_foldl (l : List (κ × ν)) (d : Dict κ ν) (k : κ) :
    k ∈ keys (l.foldl (fun d p => d.set p.1 p.2) d) ↔ k ∈ keys d ∨ k ∈ l.map Prod.fst := by
  induction l generalizing d with
  | nil => simp
  | cons p l ih =>
    rw [List.foldl_cons, ih, mem_keys_set]
    simp only [List.map_cons, List.mem_cons]
    tauto

theorem mem_keys_ofPairs (l : List (κ × ν)) (k : κ) : k ∈ keys (ofPairs l) ↔ k ∈ l.map Prod.fst := by
  unfold ofPairs
  rw [mem_keys_foldl]
  simp [keys]

theorem get?_foldl (l : List (κ × ν)) (d : Dict κ ν) (k : κ) (v : ν) :
    (l.foldl (fun d p => d.set p.1 p.2) d).get? k = some v ↔
      (∃ pre post, l = pre ++ (k, v) :: post ∧ k ∉ post.map Prod.fst) ∨
      (d.get? k = some v ∧ k ∉ l.map Prod.fst) := by
  induction l generalizing d with
  | nil => simp
  | cons p l ih =>
    obtain ⟨k', v'⟩ := p
    rw [List.foldl_cons, ih]
    by_cases hk : k' = k
    · subst hk
      rw [get?_set_self]
      constructor
      · rintro (⟨pre, post, h, hp⟩ | ⟨h, hp⟩)
        · exact .inl ⟨(k', v') :: pre, post, by simp [h], hp⟩
        · simp only [Option.some.injEq] at h
          subst h
          exact .inl ⟨[], l, rfl, hp⟩
      · rintro (⟨pre, post, h, hp⟩ | ⟨h, hp⟩)
        · cases pre with
          | nil =>
            simp only [List.nil_append, List.cons.injEq, Prod.mk.injEq, true_and] at h
            obtain ⟨rfl, rfl⟩ := h
            exact .inr ⟨rfl, hp⟩
          | cons q pre =>
            simp only [List.cons_append, List.cons.injEq] at h
            exact .inl ⟨pre, post, h.2, hp⟩
        · exact absurd (by simp) hp
    · rw [get?_set_ne _ (fun h => hk h.symm)]
      constructor
      · rintro (⟨pre, post, h, hp⟩ | ⟨h, hp⟩)
        · exact .inl ⟨(k', v') :: pre, post, by simp [h], hp⟩
        · refine .inr ⟨h, ?_⟩
          simp only [List.map_cons, List.mem_cons, not_or]
          exact ⟨fun h => hk h.symm, hp⟩
      · rintro (⟨pre, post, h, hp⟩ | ⟨h, hp⟩)
        · cases pre with
          | nil =>
            simp only [List.nil_append, List.cons.injEq, Prod.mk.injEq] at h
            exact absurd h.1.1 hk
          | cons q pre =>
            simp only [List.cons_append, List.cons.injEq] at h
            exact .inl ⟨pre, post, h.2, hp⟩
        · simp only [List.map_cons, List.mem_cons, not_or] at hp
          exact .inr ⟨h, hp.2⟩

/-- looking a key up gives the value of its last pair -/
theorem get?_ofPairs (l : List (κ × ν)) (k : κ) (v : ν) :
    (ofPairs l).get? k = some v ↔ ∃ pre post, l = pre ++ (k, v) :: post ∧ k ∉ post.map Prod.fst := by
  unfold ofPairs
  rw [get?_foldl]
  simp [get?]

theorem get?_eq_none {d : Dict κ ν} {k : κ} : d.get? k = none ↔ k ∉ keys d := by
  induction d with
  | nil => simp [get?, keys]
  | cons p d ih =>
    obtain ⟨q, w⟩ := p
    simp only [get?, keys, List.map_cons, List.mem_cons, not_or] at ih ⊢
    by_cases h : q = k
    · simp [h]
    · rw [if_neg h, ih]
      exact ⟨fun h' => ⟨fun h'' => h h''.symm, h'⟩, fun h' => h'.2⟩

theorem get?_of_mem {d : Dict κ ν} (h : (keys d).Nodup) {k : κ} {v : ν} (hm : (k, v) ∈ d) :
    d.get? k = some v := by
  induction d with
  | nil => simp at hm
  | cons p d ih =>
    obtain ⟨q, w⟩ := p
    simp only [keys, List.map_cons, List.nodup_cons] at h
    rw [get?]
    rcases List.mem_cons.mp hm with h' | h'
    · cases h'
      rw [if_pos rfl]
    · rw [if_neg, ih h.2 h']
      rintro rfl
      exact h.1 (List.mem_map.mpr ⟨_, h', rfl⟩)

theorem mem_of_get? {d : Dict κ ν} {k : κ} {v : ν} (h : d.get? k = some v) : (k, v) ∈ d := by
  induction d with
  | nil => simp [get?] at h
  | cons p d ih =>
    obtain ⟨q, w⟩ := p
    rw [get?] at h
    split at h
    · rename_i hq
      subst hq
      cases h
      simp
    · exact List.mem_cons_of_mem _ (ih h)

theorem getItem_eq (d : Dict κ ν) (k : κ) :
    d.getItem k = match d.get? k with
      | some v => .ok v
      | none => .error .keyError := rfl

theorem getItem_ok {d : Dict κ ν} {k : κ} {v : ν} : d.getItem k = .ok v ↔ d.get? k = some v := by
  rw [getItem_eq]
  cases d.get? k <;> simp

theorem getItem_error {d : Dict κ ν} {k : κ} {e : PyErr} :
    d.getItem k = .error e ↔ e = .keyError ∧ d.get? k = none := by
  rw [getItem_eq]
  cases d.get? k <;> simp [eq_comm]

end Dict

end Pytspl
