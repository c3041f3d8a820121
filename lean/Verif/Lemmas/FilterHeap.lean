import Verif.Model.PolyFilter

/-!
# The history heap
-/

namespace Pytspl

namespace Dict
variable {κ ν : Type} [DecidableEq κ]

theorem get?_set_self (d : Dict κ ν) (k : κ) (v : ν) : (d.set k v).get? k = some v := by
  induction d with
  | nil => simp [set, get?]
  | cons p d ih =>
    obtain ⟨k', v'⟩ := p
    by_cases h : k' = k
    · simp [set, get?, h]
    · simp [set, get?, h, ih]

theorem get?_set_ne (d : Dict κ ν) {k k' : κ} (h : k' ≠ k) (v : ν) :
    (d.set k v).get? k' = d.get? k' := by
  induction d with
  | nil => simp [set, get?, Ne.symm h]
  | cons p d ih =>
    obtain ⟨k₀, v₀⟩ := p
    by_cases h0 : k₀ = k
    · subst h0; simp [set, get?, Ne.symm h]
    · by_cases h1 : k₀ = k'
      · subst h1; simp [set, get?, h]
      · simp [set, get?, h0, h1, ih]

end Dict

namespace FilterSt
variable {E : ℕ}

/-- `self.history` refers to an allocated dictionary -/
def Valid (st : FilterSt E) : Prop := st.cur < st.heap.length

theorem deref_setKey_self {st : FilterSt E} {a : ℕ} (h : a < st.heap.length) (k : String) (v : HVal E) :
    (st.setKey a k v).deref a = (st.deref a).set k v := by
  simp [deref, setKey, h]

theorem deref_setKey_ne {st : FilterSt E} {a b : ℕ} (h : b ≠ a) (k : String) (v : HVal E) :
    (st.setKey a k v).deref b = st.deref b := by
  simp [deref, setKey, Ne.symm h]

@[simp] theorem cur_setKey (st : FilterSt E) (a : ℕ) (k : String) (v : HVal E) :
    (st.setKey a k v).cur = st.cur := rfl

@[simp] theorem length_setKey (st : FilterSt E) (a : ℕ) (k : String) (v : HVal E) :
    (st.setKey a k v).heap.length = st.heap.length := by simp [setKey]

theorem alloc_fst (st : FilterSt E) (d : HDict E) : (st.alloc d).1 = st.heap.length := rfl

@[simp] theorem alloc_cur (st : FilterSt E) (d : HDict E) : (st.alloc d).2.cur = st.cur := rfl

@[simp] theorem alloc_length (st : FilterSt E) (d : HDict E) :
    (st.alloc d).2.heap.length = st.heap.length + 1 := by simp [alloc]

theorem alloc_deref_new (st : FilterSt E) (d : HDict E) :
    (st.alloc d).2.deref st.heap.length = d := by simp [alloc, deref]

theorem alloc_deref_old (st : FilterSt E) (d : HDict E) {a : ℕ} (h : a < st.heap.length) :
    (st.alloc d).2.deref a = st.deref a := by
  simp [alloc, deref, List.getElem?_append_left h]

end FilterSt

variable {E : ℕ}

@[simp] theorem setHistory_cur (st : FilterSt E) (d : Design E) : (setHistory st d).cur = st.cur := rfl

@[simp] theorem setHistory_length (st : FilterSt E) (d : Design E) :
    (setHistory st d).heap.length = st.heap.length := by simp [setHistory]

theorem setHistory_deref (st : FilterSt E) (h : st.Valid) (d : Design E) :
    (setHistory st d).deref st.cur =
      (((((st.deref st.cur).set "filter" d.filter).set "f_estimated" d.fEstimated).set
        "frequency_responses" d.frequencyResponses).set
        "extracted_component_error" d.extractedComponentError).set "filter_error" d.filterError := by
  unfold FilterSt.Valid at h
  unfold setHistory
  iterate 5 rw [FilterSt.deref_setKey_self (by simpa using h)]

theorem setHistory_deref_ne (st : FilterSt E) (d : Design E) {a : ℕ} (h : a ≠ st.cur) :
    (setHistory st d).deref a = st.deref a := by
  unfold setHistory
  iterate 5 rw [FilterSt.deref_setKey_ne h]

/-- the five entries after `set_history` -/
theorem setHistory_get (st : FilterSt E) (h : st.Valid) (d : Design E) :
    ((setHistory st d).deref st.cur).get? "filter" = some d.filter ∧
    ((setHistory st d).deref st.cur).get? "f_estimated" = some d.fEstimated ∧
    ((setHistory st d).deref st.cur).get? "frequency_responses" = some d.frequencyResponses ∧
    ((setHistory st d).deref st.cur).get? "extracted_component_error" =
      some d.extractedComponentError ∧
    ((setHistory st d).deref st.cur).get? "filter_error" = some d.filterError := by
  rw [setHistory_deref st h]
  refine ⟨?_, ?_, ?_, ?_, ?_⟩
  · rw [Dict.get?_set_ne _ (by decide), Dict.get?_set_ne _ (by decide), Dict.get?_set_ne _ (by decide),
      Dict.get?_set_ne _ (by decide), Dict.get?_set_self]
  · rw [Dict.get?_set_ne _ (by decide), Dict.get?_set_ne _ (by decide), Dict.get?_set_ne _ (by decide),
      Dict.get?_set_self]
  · rw [Dict.get?_set_ne _ (by decide), Dict.get?_set_ne _ (by decide), Dict.get?_set_self]
  · rw [Dict.get?_set_ne _ (by decide), Dict.get?_set_self]
  · rw [Dict.get?_set_self]

theorem resetHistory_valid (st : FilterSt E) : (resetHistory st).Valid := by
  simp [resetHistory, FilterSt.Valid, FilterSt.alloc]

theorem resetHistory_cur (st : FilterSt E) : (resetHistory st).cur = st.heap.length := rfl

@[simp] theorem resetHistory_length (st : FilterSt E) :
    (resetHistory st).heap.length = st.heap.length + 1 := by simp [resetHistory, FilterSt.alloc]

theorem resetHistory_deref_old (st : FilterSt E) {a : ℕ} (h : a < st.heap.length) :
    (resetHistory st).deref a = st.deref a := by
  simp [resetHistory, FilterSt.alloc, FilterSt.deref, List.getElem?_append_left h]

theorem resetHistory_history (st : FilterSt E) : (resetHistory st).history =
    [("filter", .none), ("f_estimated", .none), ("extracted_component_error", .none),
      ("filter_error", .none)] := by
  simp [resetHistory, FilterSt.history, FilterSt.deref, FilterSt.alloc]

end Pytspl
