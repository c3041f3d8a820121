import Verif.Props.GpTrainer

/-!
# C194: splits with the same seed are nested
-/

namespace Pytspl

theorem split_parts {sc : SC ℝ} {sh : Shuffler} {t t' : Trainer sc} {size : TrainSize} {norm : Bool} {seed : Int}
    {xTr xTe x : List ℚ} {yTr yTe y : FTensor}
    (h : t.split sh size norm seed = (.ok (xTr, yTr, xTe, yTe, x, y), t')) :
    ∃ m ≤ sc.E, xTr = ((sh.perm seed sc.E).drop m).map (fun i : ℕ => (i : ℚ)) ∧
      xTe = ((sh.perm seed sc.E).take m).map (fun i : ℕ => (i : ℚ)) ∧
      x = (List.range sc.E).map fun i : ℕ => (i : ℚ) := by
  have hlen : (sh.perm seed sc.E).length = sc.E := by rw [(sh.isPerm seed sc.E).length_eq, List.length_range]
  unfold Trainer.split at h
  split at h
  · simp at h
  · next xTr' xTe' yTr' yTe' hk =>
    unfold sklearnSplit at hk
    split_ifs at hk
    simp only at hk
    split_ifs at hk
    simp only [Except.ok.injEq, Prod.mk.injEq] at hk h
    obtain ⟨rfl, rfl, -, -⟩ := hk
    obtain ⟨⟨rfl, -, rfl, -, rfl, -⟩, -⟩ := h
    refine ⟨sc.E - size.number sh.R sc.E, Nat.sub_le _ _, ?_, rfl, rfl⟩
    rw [List.take_of_length_le]
    rw [List.length_drop, hlen]
    omega

/-- C194: two calls of `train_test_split` with the same seed, on trainers of complexes with the same number of edges, whatever
the complexes, the targets, and whether they are normalised: the smaller training set is the end of the larger one, and the
smaller test set the beginning of the larger one. -/
theorem C194_nested {sc sc2 : SC ℝ} (hE : sc.E = sc2.E) (sh : Shuffler) (t t' : Trainer sc) (t2 t2' : Trainer sc2)
    (size size2 : TrainSize) (norm norm2 : Bool) (seed : Int) (xTr xTe x xTr2 xTe2 x2 : List ℚ)
    (yTr yTe y yTr2 yTe2 y2 : FTensor)
    (h : t.split sh size norm seed = (.ok (xTr, yTr, xTe, yTe, x, y), t'))
    (h2 : t2.split sh size2 norm2 seed = (.ok (xTr2, yTr2, xTe2, yTe2, x2, y2), t2'))
    (hle : xTr.length ≤ xTr2.length) : xTr <:+ xTr2 ∧ xTe2 <+: xTe ∧ x = x2 := by
  obtain ⟨m, hm, rfl, rfl, rfl⟩ := split_parts h
  obtain ⟨m2, hm2, rfl, rfl, rfl⟩ := split_parts h2
  have hlen : ∀ n, (sh.perm seed n).length = n := fun n => by rw [(sh.isPerm seed n).length_eq, List.length_range]
  rw [hE] at hm hle ⊢
  simp only [List.length_map, List.length_drop, hlen] at hle
  exact ⟨(List.drop_suffix_drop_left _ (by omega)).map _, (List.take_prefix_take_left (by omega)).map _, rfl⟩

/-- C194: so equal numbers give equal splits. -/
theorem C194_same {sc sc2 : SC ℝ} (hE : sc.E = sc2.E) (sh : Shuffler) (t t' : Trainer sc) (t2 t2' : Trainer sc2)
    (size size2 : TrainSize) (norm norm2 : Bool) (seed : Int) (xTr xTe x xTr2 xTe2 x2 : List ℚ)
    (yTr yTe y yTr2 yTe2 y2 : FTensor)
    (h : t.split sh size norm seed = (.ok (xTr, yTr, xTe, yTe, x, y), t'))
    (h2 : t2.split sh size2 norm2 seed = (.ok (xTr2, yTr2, xTe2, yTe2, x2, y2), t2'))
    (hle : xTr.length = xTr2.length) : xTr = xTr2 ∧ xTe = xTe2 := by
  obtain ⟨h3, h4, -⟩ := C194_nested hE sh t t' t2 t2' size size2 norm norm2 seed _ _ _ _ _ _ _ _ _ _ _ _ h h2 hle.le
  obtain ⟨-, h5, -⟩ := C194_nested hE.symm sh t2 t2' t t' size2 size norm2 norm seed _ _ _ _ _ _ _ _ _ _ _ _ h2 h hle.ge
  exact ⟨h3.eq_of_length hle, h5.eq_of_length_le h4.length_le⟩

/-- The hypotheses are met: on the complex of the sample, whatever the permutations, with two and with three items for
training, the second time with other targets. -/
example (sh : Shuffler) : ∃ (sc : SC ℝ) (t t2 : Trainer sc) (xTr xTe x xTr2 xTe2 x2 : List ℚ)
    (yTr yTe y yTr2 yTe2 y2 : FTensor) (t' t2' : Trainer sc), t.y ≠ t2.y ∧
    t.split sh (.count 2) false 4 = (.ok (xTr, yTr, xTe, yTe, x, y), t') ∧
    t2.split sh (.count 3) false 4 = (.ok (xTr2, yTr2, xTe2, yTe2, x2, y2), t2') ∧ xTr.length < xTr2.length := by
  obtain ⟨sc, hw, hs, hn, he, ht⟩ := sample_wellFormed ℝ
  have hE : 3 < sc.E := by simp only [SC.E]; rw [he]; decide
  obtain ⟨tr, te, t', h1, -, h2, -⟩ := C77_count sh (⟨List.replicate sc.E 0, none, none⟩ : Trainer sc) 2 4 (by simp) (by norm_num)
    (by omega) (by norm_num)
  obtain ⟨tr2, te2, t2', h1', -, h2', -⟩ := C77_count sh (⟨List.replicate sc.E 1, none, none⟩ : Trainer sc) 3 4 (by simp)
    (by norm_num) hE (by norm_num)
  refine ⟨sc, _, _, _, _, _, _, _, _, _, _, _, _, _, _, _, _, ?_, h1, h1', by simp [h2, h2']⟩
  intro h
  have := congrArg (·[0]?) h
  simp [show 0 < sc.E by omega] at this

end Pytspl
