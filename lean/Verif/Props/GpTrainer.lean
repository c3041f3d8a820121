import Verif.Props.GaussianProcess
import Verif.Lemmas.RoundFloor
import Verif.Lemmas.Double

/-!
# Properties of the Gaussian process trainer: C77, C78, C79, C80
-/

namespace Pytspl

open Matrix

variable {lib : NumLib} {sc : SC ℝ} {tol : ℝ} {E : ℕ}

private theorem bind_ok {α β : Type} {x : Py α} {f : α → Py β} {r : β} (h : (x >>= f) = .ok r) :
    ∃ a, x = .ok a ∧ f a = .ok r := by
  cases x with
  | error e => cases h
  | ok a => exact ⟨a, rfl, h⟩

/-! ## C77: the split -/

/-- C77, what holds for every accepted size: training and test indices together are all edge indices, each once; every
index comes with its own target; the trainer remembers what was returned. -/
private theorem split_ok (sh : Shuffler) (t : Trainer sc) (size : TrainSize) (seed : Int) (hy : t.y.length = sc.E)
    (hr : size.InRange sc.E) (f0 : size.number sh.R sc.E ≠ 0) (f1 : size.number sh.R sc.E ≤ sc.E)
    (hs : 0 ≤ seed ∧ seed < 2 ^ 32) :
    ∃ (train test : List ℕ) (t' : Trainer sc),
      t.split sh size false seed = (.ok (train.map fun i : ℕ => (i : ℚ), train.map (t.y[·]?),
        test.map fun i : ℕ => (i : ℚ), test.map (t.y[·]?),
        (List.range sc.E).map fun i : ℕ => (i : ℚ), t.y.map some), t') ∧
      (train ++ test).Perm (List.range sc.E) ∧ train.length = size.number sh.R sc.E ∧
      t'.data = some (train.map fun i : ℕ => (i : ℚ), train.map (t.y[·]?),
        test.map fun i : ℕ => (i : ℚ), test.map (t.y[·]?)) ∧
      t'.y = t.y ∧ t'.model = t.model := by
  set nTr := size.number sh.R sc.E with hnTr
  set p := sh.perm seed sc.E with hp
  have hperm : p.Perm (List.range sc.E) := sh.isPerm seed sc.E
  have hlen : p.length = sc.E := by rw [hperm.length_eq, List.length_range]
  have htake : (p.drop (sc.E - nTr)).take nTr = p.drop (sc.E - nTr) := by
    apply List.take_of_length_le
    rw [List.length_drop]; omega
  have hval : ∀ l : List ℕ, (∀ i ∈ l, i < sc.E) →
      (l.map fun i => t.y[i]?.getD 0).map some = l.map (t.y[·]?) := by
    intro l hl
    rw [List.map_map]
    refine List.map_congr_left fun i hi => ?_
    have : i < t.y.length := by rw [hy]; exact hl i hi
    simp [this]
  have hmem : ∀ i ∈ p, i < sc.E := fun i hi => List.mem_range.1 (hperm.mem_iff.1 hi)
  have hsk : sklearnSplit sh sc.E t.y size seed = .ok (p.drop (sc.E - nTr), p.take (sc.E - nTr),
      (p.drop (sc.E - nTr)).map fun i => t.y[i]?.getD 0, (p.take (sc.E - nTr)).map fun i => t.y[i]?.getD 0) := by
    unfold sklearnSplit
    rw [if_neg (by
      rintro (h | h | h | h)
      · exact h hy
      · exact h hr
      · omega
      · omega)]
    simp only
    rw [← hnTr, if_neg f0, htake]
  refine ⟨p.drop (sc.E - nTr), p.take (sc.E - nTr), ⟨t.y, some
    ((p.drop (sc.E - nTr)).map fun i : ℕ => (i : ℚ), (p.drop (sc.E - nTr)).map (t.y[·]?),
      (p.take (sc.E - nTr)).map fun i : ℕ => (i : ℚ), (p.take (sc.E - nTr)).map (t.y[·]?)), t.model⟩,
    ?_, ?_, ?_, rfl, rfl, rfl⟩
  rotate_left
  · exact (List.perm_append_comm.trans (by rw [List.take_append_drop])).trans hperm
  · rw [List.length_drop, hlen]
    omega
  · unfold Trainer.split
    rw [hsk]
    simp only [Bool.false_eq_true, if_false]
    rw [hval _ fun i hi => hmem i (List.mem_of_mem_drop hi), hval _ fun i hi => hmem i (List.mem_of_mem_take hi)]

/-- C77: for a target per edge, a ratio strictly between 0 and 1 (the largest double below 1 is `1 - 2^-53`) that leaves a
training sample and a valid seed, the split succeeds: training and test indices together are all edge indices, each once;
the floating point product of ratio and number of edges, rounded down, is the number of those for training, which is the
exact product rounded down or up; both parts have members; every index comes with its own target; the trainer remembers
what was returned. -/
theorem C77_partition (sh : Shuffler) (t : Trainer sc) (ratio : ℝ) (seed : Int) (hy : t.y.length = sc.E)
    (h0 : 0 < ratio) (h1 : ratio ≤ 1 - 1 / 2 ^ 53) (h2 : 1 ≤ sh.R.rnd (ratio * sc.E)) (hE : sc.E ≤ 2 ^ 53)
    (hs : 0 ≤ seed ∧ seed < 2 ^ 32) :
    ∃ (train test : List ℕ) (t' : Trainer sc),
      t.split sh (.ratio ratio) false seed = (.ok (train.map fun i : ℕ => (i : ℚ), train.map (t.y[·]?),
        test.map fun i : ℕ => (i : ℚ), test.map (t.y[·]?),
        (List.range sc.E).map fun i : ℕ => (i : ℚ), t.y.map some), t') ∧
      (train ++ test).Perm (List.range sc.E) ∧ (train.length : Int) = ⌊sh.R.rnd (ratio * sc.E)⌋ ∧
      ⌊ratio * sc.E⌋ ≤ train.length ∧ train.length ≤ ⌈ratio * sc.E⌉ ∧ train ≠ [] ∧ test ≠ [] ∧
      t'.data = some (train.map fun i : ℕ => (i : ℚ), train.map (t.y[·]?),
        test.map fun i : ℕ => (i : ℚ), test.map (t.y[·]?)) ∧
      t'.y = t.y ∧ t'.model = t.model := by
  have hE' : (sc.E : ℝ) ≤ 2 ^ 53 := by exact_mod_cast hE
  have hn0 : (0 : ℝ) ≤ sc.E := Nat.cast_nonneg _
  have hx0 : 0 ≤ ratio * sc.E := mul_nonneg h0.le hn0
  have hx1 : ratio * sc.E ≤ 2 ^ 53 := by
    refine le_trans ?_ hE'
    have : ratio ≤ 1 := h1.trans (by norm_num)
    nlinarith
  have hn : 0 < (sc.E : ℝ) := by
    rcases hn0.lt_or_eq with h | h
    · exact h
    · rw [← h, mul_zero] at h2
      have := sh.R.rel 0
      rw [abs_zero, mul_zero, sub_zero] at this
      have := abs_nonpos_iff.1 this
      rw [this] at h2
      norm_num at h2
  have hrel := (abs_le.1 (sh.R.rel (ratio * sc.E))).2
  rw [abs_of_nonneg hx0] at hrel
  have hlt : sh.R.rnd (ratio * sc.E) < sc.E := by
    have a1 : ratio * (1 + 1 / 2 ^ 53) < 1 := by
      have : ratio * (1 + 1 / 2 ^ 53) ≤ (1 - 1 / 2 ^ 53) * (1 + 1 / 2 ^ 53) :=
        mul_le_mul_of_nonneg_right h1 (by positivity)
      refine this.trans_lt ?_
      norm_num
    nlinarith
  have a1 : (1 : Int) ≤ ⌊sh.R.rnd (ratio * sc.E)⌋ := by rw [Int.le_floor]; exact_mod_cast h2
  have a2 : ⌊sh.R.rnd (ratio * sc.E)⌋ < (sc.E : Int) := by
    rw [Int.floor_lt]
    push_cast
    exact hlt
  have a3 := sh.R.floor_rnd hx0 hx1
  have hnum : ((TrainSize.ratio ratio).number sh.R sc.E : Int) = ⌊sh.R.rnd (ratio * sc.E)⌋ :=
    Int.toNat_of_nonneg (by omega)
  obtain ⟨train, test, t', e1, e2, e3, e4⟩ := split_ok sh t (.ratio ratio) seed hy
    ⟨h0, h1.trans_lt (by norm_num)⟩ (by omega) (by omega) hs
  have hl : train.length + test.length = sc.E := by
    have := e2.length_eq
    rwa [List.length_append, List.length_range] at this
  refine ⟨train, test, t', e1, e2, by rw [e3, hnum], by rw [e3, hnum]; exact a3.1, by rw [e3, hnum]; exact a3.2, ?_, ?_, e4⟩
  · rintro rfl
    simp only [List.length_nil] at e3
    omega
  · rintro rfl
    simp only [List.length_nil] at hl
    omega

/-- C77: a ratio given as a whole number (an `int`) is the number of training samples: `train_ratio=1` trains on a single
edge. -/
theorem C77_count (sh : Shuffler) (t : Trainer sc) (k : ℕ) (seed : Int) (hy : t.y.length = sc.E)
    (h0 : 0 < k) (h1 : k < sc.E) (hs : 0 ≤ seed ∧ seed < 2 ^ 32) :
    ∃ (train test : List ℕ) (t' : Trainer sc),
      t.split sh (.count k) false seed = (.ok (train.map fun i : ℕ => (i : ℚ), train.map (t.y[·]?),
        test.map fun i : ℕ => (i : ℚ), test.map (t.y[·]?),
        (List.range sc.E).map fun i : ℕ => (i : ℚ), t.y.map some), t') ∧
      (train ++ test).Perm (List.range sc.E) ∧ train.length = k ∧ test.length = sc.E - k ∧
      t'.data = some (train.map fun i : ℕ => (i : ℚ), train.map (t.y[·]?),
        test.map fun i : ℕ => (i : ℚ), test.map (t.y[·]?)) ∧
      t'.y = t.y ∧ t'.model = t.model := by
  have hnum : (TrainSize.count k).number sh.R sc.E = k := Int.toNat_natCast k
  obtain ⟨train, test, t', e1, e2, e3, e4⟩ := split_ok sh t (.count k) seed hy
    ⟨by exact_mod_cast h0, by exact_mod_cast h1⟩ (by omega) (by omega) hs
  have hl : train.length + test.length = sc.E := by
    have := e2.length_eq
    rwa [List.length_append, List.length_range] at this
  exact ⟨train, test, t', e1, e2, by rw [e3, hnum], by omega, e4⟩

/-- C77: in every other case the split raises `ValueError` and leaves the trainer as it was. -/
theorem C77_fails (sh : Shuffler) (t : Trainer sc) (size : TrainSize) (seed : Int) (normalize : Bool)
    (h : t.y.length ≠ sc.E ∨ seed < 0 ∨ 2 ^ 32 ≤ seed ∨
      (∃ r : ℝ, size = .ratio r ∧ (r ≤ 0 ∨ 1 ≤ r ∨ sh.R.rnd (r * sc.E) < 1)) ∨
      ∃ k : Int, size = .count k ∧ (k ≤ 0 ∨ sc.E ≤ k)) :
    t.split sh size normalize seed = (.error .valueError, t) := by
  have hsk : sklearnSplit sh sc.E t.y size seed = .error .valueError := by
    unfold sklearnSplit
    split_ifs with h1
    · rfl
    · simp only
      rw [if_pos]
      push Not at h1
      obtain ⟨a1, a2, a4, a5⟩ := h1
      rcases h with h | h | h | ⟨r, rfl, h⟩ | ⟨k, rfl, h⟩
      · exact absurd a1 h
      · omega
      · omega
      · have a3 : 0 < r ∧ r < 1 := a2
        have h3 : sh.R.rnd (r * sc.E) < 1 := by
          rcases h with h | h | h
          · linarith
          · linarith
          · exact h
        have : ⌊sh.R.rnd (r * (sc.E : ℝ))⌋ < 1 := by
          rw [Int.floor_lt]; exact_mod_cast h3
        show ⌊sh.R.rnd (r * (sc.E : ℝ))⌋.toNat = 0
        omega
      · have a3 : 0 < k ∧ k < sc.E := a2
        omega
  unfold Trainer.split
  rw [hsk]

/-- a permutation oracle exists -/
noncomputable example : Shuffler := ⟨double, fun _ n => List.range n, fun _ _ => List.Perm.refl _⟩

/-- C77, the documented default: without arguments four fifths of the edges (rounded down) are for training, and the
targets are returned as they are. -/
theorem C77_default (sh : Shuffler) (t : Trainer sc) (hy : t.y.length = sc.E) (hE : 2 ≤ sc.E) (hE' : sc.E ≤ 2 ^ 50) :
    ∃ (train test : List ℕ) (t' : Trainer sc),
      t.split sh = (.ok (train.map fun i : ℕ => (i : ℚ), train.map (t.y[·]?),
        test.map fun i : ℕ => (i : ℚ), test.map (t.y[·]?),
        (List.range sc.E).map fun i : ℕ => (i : ℚ), t.y.map some), t') ∧
      (train ++ test).Perm (List.range sc.E) ∧ train.length = 4 * sc.E / 5 := by
  have h2 : (2 : ℝ) ≤ (sc.E : ℝ) := by exact_mod_cast hE
  have h50 : (sc.E : ℝ) ≤ 2 ^ 50 := by exact_mod_cast hE'
  have b1 : (4 / 5 : ℝ) ≤ fourFifths := by unfold fourFifths; norm_num
  have b2 : fourFifths ≤ 4 / 5 + 1 / 2 ^ 54 := by unfold fourFifths; norm_num
  have h4 := Nat.div_add_mod (4 * sc.E) 5
  have h5 := Nat.mod_lt (4 * sc.E) (show 0 < 5 by norm_num)
  have h6 : (5 : ℝ) * ((4 * sc.E / 5 : ℕ) : ℝ) + ((4 * sc.E % 5 : ℕ) : ℝ) = 4 * (sc.E : ℝ) := by exact_mod_cast h4
  have h7 : ((4 * sc.E % 5 : ℕ) : ℝ) ≤ 4 := by exact_mod_cast (show 4 * sc.E % 5 ≤ 4 by omega)
  have h8 : (0 : ℝ) ≤ ((4 * sc.E % 5 : ℕ) : ℝ) := Nat.cast_nonneg _
  have hx1 : (4 / 5 : ℝ) * sc.E ≤ fourFifths * sc.E := mul_le_mul_of_nonneg_right b1 (by linarith)
  have hx2 : fourFifths * sc.E ≤ 4 / 5 * sc.E + 1 / 16 := by
    have := mul_le_mul_of_nonneg_right b2 (show (0 : ℝ) ≤ sc.E by linarith)
    have h : (1 / 2 ^ 54 : ℝ) * sc.E ≤ 1 / 2 ^ 54 * 2 ^ 50 := mul_le_mul_of_nonneg_left h50 (by positivity)
    have e : (1 / 2 ^ 54 * 2 ^ 50 : ℝ) = 1 / 16 := by norm_num
    linarith
  have hx0 : 0 ≤ fourFifths * sc.E := by linarith
  have hx53 : fourFifths * sc.E ≤ 2 ^ 53 := by
    have : (2 : ℝ) ^ 53 = 8 * 2 ^ 50 := by norm_num
    linarith
  have hfl : ⌊fourFifths * (sc.E : ℝ)⌋ = ((4 * sc.E / 5 : ℕ) : Int) := by
    rw [Int.floor_eq_iff, Int.cast_natCast]
    constructor <;> linarith
  have hround : ⌊sh.R.rnd (fourFifths * sc.E)⌋ = ((4 * sc.E / 5 : ℕ) : Int) := by
    rw [← hfl]
    refine sh.R.floor_rnd_eq hx0 hx53 ?_
    rw [hfl, Int.cast_natCast]
    have h : fourFifths * sc.E * (1 / 2 ^ 53) ≤ 1 / 8 := by
      have : fourFifths * sc.E ≤ 2 ^ 50 := by linarith
      have h := mul_le_mul_of_nonneg_right this (show (0 : ℝ) ≤ 1 / 2 ^ 53 by positivity)
      have e : ((2 : ℝ) ^ 50 * (1 / 2 ^ 53)) = 1 / 8 := by norm_num
      linarith
    linarith
  have hone : 1 ≤ sh.R.rnd (fourFifths * sc.E) := by
    have : (1 : Int) ≤ ⌊sh.R.rnd (fourFifths * sc.E)⌋ := by rw [hround]; omega
    have := Int.le_floor.1 this
    exact_mod_cast this
  obtain ⟨train, test, t', e1, e2, e3, -⟩ := C77_partition sh t fourFifths 4 hy (by linarith)
    (b2.trans (by norm_num)) hone (hE'.trans (by norm_num)) (by norm_num)
  refine ⟨train, test, t', e1, e2, ?_⟩
  rw [hround] at e3
  exact_mod_cast e3

example (sh : Shuffler) : ∃ train test : List ℕ, ∃ t', (Trainer.create twoTri [1, 2, 3, 4, 5, 6]).split sh =
    (.ok (train.map fun i : ℕ => (i : ℚ), train.map (([1, 2, 3, 4, 5, 6] : List ℝ)[·]?),
      test.map fun i : ℕ => (i : ℚ), test.map (([1, 2, 3, 4, 5, 6] : List ℝ)[·]?),
      (List.range twoTri.E).map fun i : ℕ => (i : ℚ), [1, 2, 3, 4, 5, 6].map some), t') ∧ train.length = 4 := by
  obtain ⟨a, b, c, h1, -, h3⟩ := C77_default sh (Trainer.create twoTri [1, 2, 3, 4, 5, 6]) rfl (by decide)
    (by show 6 ≤ 2 ^ 50; norm_num)
  exact ⟨a, b, c, h1, h3⟩

/-- a split of the sample complex succeeds -/
example (sh : Shuffler) : ∃ train test : List ℕ, ∃ t',
    (Trainer.create twoTri [1, 2, 3, 4, 5, 6]).split sh (.ratio (1 / 2)) false 4 = (.ok (train.map fun i : ℕ => (i : ℚ),
      train.map ([1, 2, 3, 4, 5, 6][·]?), test.map fun i : ℕ => (i : ℚ), test.map ([1, 2, 3, 4, 5, 6][·]?),
      (List.range twoTri.E).map fun i : ℕ => (i : ℚ), [1, 2, 3, 4, 5, 6].map some), t') ∧
    (train ++ test).Perm (List.range 6) := by
  have hE : twoTri.E = 6 := rfl
  obtain ⟨a, b, t', h1, h2, -⟩ := C77_partition (sc := twoTri) sh (Trainer.create twoTri [1, 2, 3, 4, 5, 6]) (1 / 2) 4
    rfl (by norm_num) (by norm_num) (by
      rw [hE, show (1 / 2 * ((6 : ℕ) : ℝ)) = ((3 : ℤ) : ℝ) by norm_num, sh.R.int 3 (by norm_num)]
      norm_num) (by rw [hE]; norm_num) (by norm_num)
  exact ⟨a, b, t', h1, h2⟩

/-- training on two of the six edges of the sample complex -/
example (sh : Shuffler) : ∃ train test : List ℕ, ∃ t',
    (Trainer.create twoTri [1, 2, 3, 4, 5, 6]).split sh (.count 2) false 4 = (.ok (train.map fun i : ℕ => (i : ℚ),
      train.map ([1, 2, 3, 4, 5, 6][·]?), test.map fun i : ℕ => (i : ℚ), test.map ([1, 2, 3, 4, 5, 6][·]?),
      (List.range twoTri.E).map fun i : ℕ => (i : ℚ), [1, 2, 3, 4, 5, 6].map some), t') ∧ test.length = 4 := by
  obtain ⟨a, b, t', h1, -, -, h4, -⟩ := C77_count (sc := twoTri) sh (Trainer.create twoTri [1, 2, 3, 4, 5, 6]) 2 4
    rfl (by norm_num) (by decide) (by norm_num)
  exact ⟨a, b, t', h1, h4⟩

/-! ## C78: normalisation -/

/-- C78: with normalisation the same split is returned with all targets transformed by
`normalize_data`. -/
theorem C78_split (sh : Shuffler) (t : Trainer sc) (size : TrainSize) (seed : Int) (xTr xTe x : List ℚ)
    (yTr yTe y : List ℝ) (t' : Trainer sc)
    (h : t.split sh size false seed = (.ok (xTr, yTr.map some, xTe, yTe.map some, x, y.map some), t')) :
    ∃ t'', t.split sh size true seed = (.ok (xTr, (normalizeData yTr yTe y).1, xTe, (normalizeData yTr yTe y).2.1,
      x, (normalizeData yTr yTe y).2.2), t'') := by
  unfold Trainer.split at h ⊢
  cases hs : sklearnSplit sh sc.E t.y size seed with
  | error e => rw [hs] at h; cases h
  | ok r =>
    obtain ⟨a, b, c, d⟩ := r
    rw [hs] at h
    simp only [Bool.false_eq_true, if_false, Prod.mk.injEq, Except.ok.injEq] at h
    obtain ⟨⟨h1, h2, h3, h4, h5, h6⟩, -⟩ := h
    have inj : Function.Injective (List.map (some : ℝ → Option ℝ)) :=
      List.map_injective_iff.2 (Option.some_injective ℝ)
    have e2 := inj h2
    have e4 := inj h4
    have e6 := inj h6
    subst e2 e4 h1 h3 h5
    refine ⟨{ t with data := some (a.map fun i : ℕ => (i : ℚ), (normalizeData c d y).1,
      b.map fun i : ℕ => (i : ℚ), (normalizeData c d y).2.1) }, ?_⟩
    simp only [if_true, e6]

private theorem std_pos {l : List ℝ} (h : ∃ a ∈ l, ∃ b ∈ l, a ≠ b) :
    ∃ s, torchStd l = some s ∧ 0 < s ∧ s ^ 2 = (l.map fun v => (v - torchMean l) ^ 2).sum / (l.length - 1) ∧
      1 < l.length := by
  obtain ⟨a, ha, b, hb, hab⟩ := h
  have hlen : 1 < l.length := by
    match l, ha, hb with
    | [c], ha, hb =>
      simp only [List.mem_singleton] at ha hb
      exact absurd (ha.trans hb.symm) hab
    | c :: d :: l, _, _ => simp
  have hpos : 0 < (l.map fun v => (v - torchMean l) ^ 2).sum := by
    have hnn : ∀ x ∈ l.map (fun v => (v - torchMean l) ^ 2), 0 ≤ x := by
      intro x hx
      obtain ⟨v, -, rfl⟩ := List.mem_map.1 hx
      exact sq_nonneg _
    rcases (List.sum_nonneg hnn).lt_or_eq with h | h
    · exact h
    · exfalso
      have hz := fun v (hv : v ∈ l) => List.all_zero_of_le_zero_le_of_sum_eq_zero hnn h.symm
        (List.mem_map.2 ⟨v, hv, rfl⟩)
      have h1 := pow_eq_zero_iff (two_ne_zero) |>.1 (hz a ha)
      have h2 := pow_eq_zero_iff (two_ne_zero) |>.1 (hz b hb)
      exact hab (by linarith)
  have hd : (0 : ℝ) < (l.length : ℝ) - 1 := by
    have : (1 : ℝ) < l.length := by exact_mod_cast hlen
    linarith
  refine ⟨_, by rw [torchStd, if_neg (by omega)], Real.sqrt_pos.2 (div_pos hpos hd),
    Real.sq_sqrt (div_pos hpos hd).le, hlen⟩

private theorem sum_sub_mean (l : List ℝ) (h : l ≠ []) : (l.map fun v => v - torchMean l).sum = 0 := by
  have hn : (l.length : ℝ) ≠ 0 := by
    have := List.length_pos_iff.2 h
    exact_mod_cast this.ne'
  have key : ∀ (l : List ℝ) (c : ℝ), (l.map fun v => v - c).sum = l.sum - l.length * c := by
    intro l c
    induction l with
    | nil => simp
    | cons a l ih => simp only [List.map_cons, List.sum_cons, ih, List.length_cons]; push_cast; ring
  rw [key, torchMean]
  field_simp
  ring

/-- C78: if the training targets are not all equal, one affine map `v ↦ (v - m) / s` with `s > 0` is applied
to all three lists, so different targets stay different; the transformed training targets have mean
0 and unbiased variance 1. -/
theorem C78_affine (yTrain yTest y : List ℝ) (h : ∃ a ∈ yTrain, ∃ b ∈ yTrain, a ≠ b) :
    ∃ m s : ℝ, 0 < s ∧
      normalizeData yTrain yTest y = (yTrain.map fun v => some ((v - m) / s), yTest.map fun v => some ((v - m) / s),
        y.map fun v => some ((v - m) / s)) ∧
      (yTrain.map fun v => (v - m) / s).sum = 0 ∧
      (yTrain.map fun v => ((v - m) / s) ^ 2).sum / ((yTrain.length : ℝ) - 1) = 1 := by
  obtain ⟨s, h1, h2, h3, h4⟩ := std_pos h
  have hn : normEntry yTrain = fun v => some ((v - torchMean yTrain) / s) := by
    funext v
    simp only [normEntry, h1, fdiv]
    rw [if_neg h2.ne']
  refine ⟨torchMean yTrain, s, h2, ?_, ?_, ?_⟩
  · unfold normalizeData
    rw [hn]
  · have : (yTrain.map fun v => (v - torchMean yTrain) / s) =
        (yTrain.map fun v => v - torchMean yTrain).map fun v => v * s⁻¹ := by
      rw [List.map_map]; rfl
    rw [this, List.sum_map_mul_right, List.map_id', sum_sub_mean _ (by
      intro h0; subst h0; simp at h4), zero_mul]
  · have : (yTrain.map fun v => ((v - torchMean yTrain) / s) ^ 2) =
        (yTrain.map fun v => (v - torchMean yTrain) ^ 2).map fun v => v * (s ^ 2)⁻¹ := by
      rw [List.map_map]
      refine List.map_congr_left fun v _ => ?_
      simp only [Function.comp_apply, div_pow]
      rfl
    rw [this, List.sum_map_mul_right, List.map_id', mul_comm, mul_div_assoc, ← h3, inv_mul_cancel₀ (by positivity)]

/-- C78: if the training targets are all equal (or there is only one), nothing finite comes out. -/
theorem C78_degenerate (yTrain yTest y : List ℝ) (h : ∀ a ∈ yTrain, ∀ b ∈ yTrain, a = b) :
    normalizeData yTrain yTest y =
      (yTrain.map fun _ => none, yTest.map fun _ => none, y.map fun _ => none) := by
  have hn : normEntry yTrain = fun _ => none := by
    funext v
    unfold normEntry torchStd
    split_ifs with h1
    · rfl
    · have hz : (yTrain.map fun v => (v - torchMean yTrain) ^ 2).sum = 0 := by
        obtain ⟨a, l, rfl⟩ : ∃ a l, yTrain = a :: l := by
          cases yTrain with
          | nil => simp at h1
          | cons a l => exact ⟨a, l, rfl⟩
        have hr : a :: l = List.replicate (a :: l).length a :=
          List.eq_replicate_of_mem fun b hb => h b hb a (by simp)
        have hm : torchMean (a :: l) = a := by
          unfold torchMean
          rw [hr, List.sum_replicate, List.length_replicate, nsmul_eq_mul]
          have : ((a :: l).length : ℝ) ≠ 0 := by simp only [List.length_cons]; positivity
          field_simp
        rw [hm, hr, List.map_replicate, List.sum_replicate]
        simp
      simp only [hz, zero_div, Real.sqrt_zero, fdiv, if_true]
  unfold normalizeData
  rw [hn]

example : ∃ m s : ℝ, 0 < s ∧ normalizeData [1, 2, 4] [7] [1, 2, 4, 7] =
    ([1, 2, 4].map fun v => some ((v - m) / s), [7].map fun v => some ((v - m) / s),
      [1, 2, 4, 7].map fun v => some ((v - m) / s)) := by
  obtain ⟨m, s, h1, h2, -⟩ := C78_affine [1, 2, 4] [7] [1, 2, 4, 7] ⟨1, by simp, 2, by simp, by norm_num⟩
  exact ⟨m, s, h1, h2⟩

/-! ## C80: the life of a trainer -/

/-- C80 as the code behaves: before training both exports fail, with `AttributeError`.  The
`ValueError` the code means to raise never occurs. -/
theorem C80_before_training_partial (t : Trainer sc) (h : t.model = none) :
    t.modelParameters = .error .attributeError ∧ t.buildMaternKernel lib = .error .attributeError ∧
    t.modelParameters ≠ .error .valueError := by
  have h1 : t.modelParameters = .error .attributeError := by
    unfold Trainer.modelParameters
    rw [h]
  refine ⟨h1, ?_, by rw [h1]; intro hh; cases hh⟩
  unfold Trainer.buildMaternKernel
  rw [h1]
  rfl

/-- C80: no sequence of splits and failed trainings of a new trainer changes this; only a training that runs
to its end does, and then the exports report the parameters the training ended with. -/
theorem C80_training (t : Trainer sc) (step : TrainStep sc.E) (model : GpModel sc.E) (iters : ℕ) :
    (∀ sh ratio nrm seed, (t.split sh ratio nrm seed).2.model = t.model) ∧
    (∀ e m t', t.train step model iters = (.error e, m, t') → t' = t) ∧
    (∀ m t', t.train step model iters = (.ok (), m, t') → t'.model = some m ∧ t'.y = t.y ∧ t'.data = t.data) ∧
    (t.train step model 0 = (.ok (), model, { t with model := some model })) := by
  refine ⟨fun sh ratio nrm seed => ?_, fun e m t' h => ?_, fun m t' h => ?_, rfl⟩
  · unfold Trainer.split
    split <;> rfl
  · unfold Trainer.train at h
    split at h
    · cases h; rfl
    · cases h
  · unfold Trainer.train at h
    split at h
    · cases h
    · cases h; exact ⟨rfl, rfl, rfl⟩

private theorem trainLoop_states {E : ℕ} (step : TrainStep E) (n i : ℕ) (m m' : GpModel E) (r : Py Unit)
    (h : trainLoop step n i m = (r, m')) :
    ∃ (k : ℕ) (ms : ℕ → GpModel E), ms 0 = m ∧ ms k = m' ∧ k ≤ n ∧
      (∀ j < k, step (i + j) (ms j) = .ok (ms (j + 1))) ∧
      (r = .ok () → k = n) ∧ (∀ e, r = .error e → k < n ∧ step (i + k) m' = .error e) := by
  induction n generalizing i m with
  | zero =>
    simp only [trainLoop, Prod.mk.injEq] at h
    obtain ⟨rfl, rfl⟩ := h
    exact ⟨0, fun _ => m, rfl, rfl, le_refl _, fun j hj => absurd hj (Nat.not_lt_zero _), fun _ => rfl,
      fun e he => by cases he⟩
  | succ n ih =>
    rw [trainLoop] at h
    cases hs : step i m with
    | error e =>
      rw [hs] at h
      simp only [Prod.mk.injEq] at h
      obtain ⟨rfl, rfl⟩ := h
      exact ⟨0, fun _ => m, rfl, rfl, Nat.zero_le _, fun j hj => absurd hj (Nat.not_lt_zero _),
        fun he => (by cases he), fun e' he => ⟨Nat.succ_pos _, by cases he; exact hs⟩⟩
    | ok m1 =>
      rw [hs] at h
      obtain ⟨k, ms, h0, h1, h2, h3, h4, h5⟩ := ih (i + 1) m1 h
      refine ⟨k + 1, fun j => if j = 0 then m else ms (j - 1), rfl, by simpa using h1, by omega, ?_, ?_, ?_⟩
      · intro j hj
        cases j with
        | zero => simpa [h0] using hs
        | succ j =>
          have := h3 j (by omega)
          simpa [show i + (j + 1) = i + 1 + j by omega] using this
      · intro hr
        rw [h4 hr]
      · intro e he
        obtain ⟨a, b⟩ := h5 e he
        exact ⟨by omega, by rw [show i + (k + 1) = i + 1 + k by omega]; exact b⟩

/-- C80: a training that returns has made exactly the requested optimiser passes, numbered from 0 and each starting
from the result of the one before; one that raises has made the passes before the failing one, and leaves the caller's
model in the state they reached. -/
theorem C80_iterations (t : Trainer sc) (step : TrainStep sc.E) (model m : GpModel sc.E) (iters : ℕ) (r : Py Unit)
    (t' : Trainer sc) (h : t.train step model iters = (r, m, t')) :
    ∃ (passes : ℕ) (ms : ℕ → GpModel sc.E), ms 0 = model ∧ ms passes = m ∧
      (∀ j < passes, step j (ms j) = .ok (ms (j + 1))) ∧
      (r = .ok () → passes = iters) ∧ (∀ e, r = .error e → passes < iters ∧ step passes m = .error e) := by
  have hl : trainLoop step iters 0 model = (r, m) := by
    unfold Trainer.train at h
    split at h
    · rename_i e m1 h1; cases h; exact h1
    · rename_i m1 h1; cases h; exact h1
  obtain ⟨k, ms, h0, h1, -, h3, h4, h5⟩ := trainLoop_states step iters 0 model m r hl
  exact ⟨k, ms, h0, h1, by simpa using h3, h4, by simpa using h5⟩

/-- C80: after training, the parameters can be read for the two Matern kernels only, and then each entry is
the current value of the parameter it names. -/
theorem C80_after_training (t : Trainer sc) (m : GpModel sc.E) (h : t.model = some m) :
    (m.kernel.type = .matern ∨ m.kernel.type = .maternNonHC →
      ∃ p, t.modelParameters = .ok p ∧ m.kernel.get "mu" = .ok p.mu ∧ m.kernel.get "mu_down" = .ok p.muDown ∧
        m.kernel.get "mu_up" = .ok p.muUp ∧ m.kernel.get "kappa" = .ok p.kappa ∧
        m.kernel.get "kappa_down" = .ok p.kappaDown ∧ m.kernel.get "kappa_up" = .ok p.kappaUp ∧
        m.kernel.get "h" = .ok p.h ∧ m.kernel.get "h_down" = .ok p.hDown ∧ m.kernel.get "h_up" = .ok p.hUp ∧
        p.outputscale = m.outputscale ∧ p.noise = m.noise) ∧
    (m.kernel.type ≠ .matern ∧ m.kernel.type ≠ .maternNonHC →
      t.modelParameters = .error .attributeError ∧ t.buildMaternKernel lib = .error .attributeError) := by
  constructor
  · intro ht
    have hp : m.kernel.type.params =
        ["kappa_down", "kappa_up", "kappa", "mu", "mu_down", "mu_up", "h", "h_down", "h_up"] := by
      rcases ht with ht | ht <;> rw [ht] <;> rfl
    have hg : ∀ n ∈ m.kernel.type.params, m.kernel.get n = .ok (m.kernel.val n) := fun n hn => by
      rw [GpKernel.get, if_pos hn]; rfl
    rw [hp] at hg
    refine ⟨⟨m.noise, m.kernel.val "mu", m.kernel.val "mu_down", m.kernel.val "mu_up", m.kernel.val "kappa",
      m.kernel.val "kappa_down", m.kernel.val "kappa_up", m.kernel.val "h", m.kernel.val "h_down",
      m.kernel.val "h_up", m.outputscale⟩, ?_, hg _ (by decide), hg _ (by decide), hg _ (by decide),
      hg _ (by decide), hg _ (by decide), hg _ (by decide), hg _ (by decide), hg _ (by decide),
      hg _ (by decide), rfl, rfl⟩
    unfold Trainer.modelParameters
    rw [h]
    simp only [hg "mu" (by decide), hg "mu_down" (by decide), hg "mu_up" (by decide), hg "kappa" (by decide),
      hg "kappa_down" (by decide), hg "kappa_up" (by decide), hg "h" (by decide), hg "h_down" (by decide),
      hg "h_up" (by decide), bind, Except.bind]
    rfl
  · rintro ⟨h1, h2⟩
    have hno : "mu_down" ∉ m.kernel.type.params := by
      cases ht : m.kernel.type <;> simp_all [KernelType.params]
    have hp : t.modelParameters = .error .attributeError := by
      unfold Trainer.modelParameters
      rw [h]
      have e2 : m.kernel.get "mu_down" = .error .attributeError := by rw [GpKernel.get, if_neg hno]
      by_cases hmu : "mu" ∈ m.kernel.type.params
      · have e1 : m.kernel.get "mu" = .ok (softplus (m.kernel.raw "mu")) := by rw [GpKernel.get, if_pos hmu]
        simp only [e1, e2, bind, Except.bind]
      · have e1 : m.kernel.get "mu" = .error .attributeError := by rw [GpKernel.get, if_neg hmu]
        simp only [e1, bind, Except.bind]
    refine ⟨hp, ?_⟩
    unfold Trainer.buildMaternKernel
    rw [hp]
    rfl

/-! ## C79: the exported covariance -/

private theorem minmax {n : ℕ} (v : Fin n → ℝ) (hn : 0 < n) : ∃ i j, (List.ofFn v).min? = some (v i) ∧
    (List.ofFn v).max? = some (v j) ∧ (∀ k, v i ≤ v k) ∧ ∀ k, v k ≤ v j := by
  obtain ⟨m, rfl⟩ : ∃ m, n = m + 1 := ⟨n - 1, by omega⟩
  have hne : List.ofFn v ≠ [] := by simp
  obtain ⟨a, ha⟩ : ∃ a, (List.ofFn v).min? = some a := by
    cases h : (List.ofFn v).min? with
    | none => simp at h
    | some a => exact ⟨a, rfl⟩
  obtain ⟨b, hb⟩ : ∃ b, (List.ofFn v).max? = some b := by
    cases h : (List.ofFn v).max? with
    | none => simp at h
    | some a => exact ⟨a, rfl⟩
  obtain ⟨ha1, ha2⟩ := List.min?_eq_some_iff.1 ha
  obtain ⟨hb1, hb2⟩ := List.max?_eq_some_iff.1 hb
  obtain ⟨i, rfl⟩ := List.mem_ofFn.1 ha1
  obtain ⟨j, rfl⟩ := List.mem_ofFn.1 hb1
  exact ⟨i, j, ha, hb, fun k => ha2 _ (List.mem_ofFn.2 ⟨k, rfl⟩), fun k => hb2 _ (List.mem_ofFn.2 ⟨k, rfl⟩)⟩

private theorem variance_spec (K : Matrix (Fin E) (Fin E) ℝ) (hE : 0 < E) :
    ∃ v, varianceOut K = .ok v ∧ (v = .zero ∨ v = .vec fun i => K i i) ∧
      (v = .zero ↔ ∃ i j, (∀ a, K i i ≤ K a a) ∧ (∀ a, K a a ≤ K j j) ∧
        |K i i - K j j| ≤ 1 / 10 ^ 8 + 1 / 10 ^ 5 * |K j j|) := by
  obtain ⟨i, j, h1, h2, h3, h4⟩ := minmax (fun i => K i i) hE
  have hu : ∀ i' j', (∀ a, K i' i' ≤ K a a) → (∀ a, K a a ≤ K j' j') → K i' i' = K i i ∧ K j' j' = K j j :=
    fun i' j' g1 g2 => ⟨le_antisymm (g1 i) (h3 i'), le_antisymm (h4 j') (g2 j)⟩
  unfold varianceOut
  simp only [h1, h2]
  by_cases hc : npIsClose (K i i) (K j j)
  · refine ⟨.zero, by rw [if_pos hc], .inl rfl, ⟨fun _ => ⟨i, j, h3, h4, hc⟩, fun _ => rfl⟩⟩
  · refine ⟨.vec fun i => K i i, by rw [if_neg hc], .inr rfl, ⟨fun h => ?_, ?_⟩⟩
    · cases h
    · rintro ⟨i', j', g1, g2, g3⟩
      obtain ⟨e1, e2⟩ := hu i' j' g1 g2
      rw [e1, e2] at g3
      exact absurd g3 hc

/-- C79: for a trained Matern model over the default eigenpairs of the complex, `build_matern_kernel` returns
the output scale times the kernel's covariance of all edges, which is the prior covariance of the
model; the variance is its diagonal, or `0.0` exactly if smallest and largest variance are close. -/
theorem C79_export (t : Trainer sc) (m : GpModel sc.E) (hm : t.model = some m) (hty : m.kernel.type = .matern)
    (hk : m.kernel.FromComplex lib (1 / 1000)) :
    ∃ (K K' : Matrix (Fin sc.E) (Fin sc.E) ℝ) (v : VarOut sc.E),
      t.buildMaternKernel lib = .ok (K, v) ∧ K = m.outputscale • K' ∧
      (∀ r1 r2 : List (Fin sc.E), m.kernel.forward (edgeTensor r1) (some (edgeTensor r2)) =
        .ok (.mat r1.length r2.length (Matrix.of fun a b => K' r1[a] r2[b]))) ∧
      (∀ r : List (Fin sc.E), m.forward (edgeTensor r) =
        .ok ((edgeTensor r).map fun _ => m.meanConst.getD 0, .mat r.length r.length (Matrix.of fun a b => K r[a] r[b]))) ∧
      (v = .zero ∨ v = .vec fun i => K i i) ∧
      (v = .zero ↔ ∃ i j, (∀ a, K i i ≤ K a a) ∧ (∀ a, K a a ≤ K j j) ∧
        |K i i - K j j| ≤ 1 / 10 ^ 8 + 1 / 10 ^ 5 * |K j j|) := by
  have ht : (0 : ℝ) < 1 / 1000 := by norm_num
  obtain ⟨hE, -⟩ := fromComplex_eig hk
  obtain ⟨v0, v1, v2⟩ := vals_pos hk ht
  obtain ⟨p, hp, p1, p2, p3, p4, p5, p6, p7, p8, p9, p10, p11⟩ :=
    (C80_after_training (lib := lib) t m hm).1 (.inl hty)
  obtain ⟨v, hv1, hv2, hv3⟩ := variance_spec (m.outputscale • fullCov m.kernel) hE
  refine ⟨m.outputscale • fullCov m.kernel, fullCov m.kernel, v, ?_, rfl, fun r1 r2 => ?_, fun r => ?_, hv2, hv3⟩
  · have hk' : sc.gpEigenpairs lib (1 / 1000) = .ok m.kernel.eig := hk
    unfold SC.gpEigenpairs at hk'
    obtain ⟨eh, e1, hk'⟩ := bind_ok hk'
    obtain ⟨eg, e2, hk'⟩ := bind_ok hk'
    obtain ⟨ec, e3, hk'⟩ := bind_ok hk'
    have he := (Except.ok.inj hk').symm
    have gv : ∀ n x, m.kernel.get n = .ok x → m.kernel.val n = x := by
      intro n x hx
      unfold GpKernel.get at hx
      split_ifs at hx
      exact Except.ok.inj hx
    have q1 := gv _ _ p1
    have q2 := gv _ _ p2
    have q3 := gv _ _ p3
    have q5 := gv _ _ p5
    have q6 := gv _ _ p6
    have q7 := gv _ _ p7
    have q8 := gv _ _ p8
    have q9 := gv _ _ p9
    have d1 : ∀ lam, m.kernel.density 1 lam = torchPow (2 * p.muDown / p.kappaDown / p.kappaDown + lam) (-p.muDown) := by
      intro lam
      simp only [GpKernel.density, hty, q2, q5]
    have d2 : ∀ lam, m.kernel.density 2 lam = torchPow (2 * p.muUp / p.kappaUp / p.kappaUp + lam) (-p.muUp) := by
      intro lam
      simp only [GpKernel.density, hty, q3, q6]
    have d0 : ∀ lam, m.kernel.kap 0 lam = p.mu := by
      intro lam
      simp only [GpKernel.kap, GpKernel.density, hty, q1, Option.getD_some]
    have w0 : m.kernel.weight 0 = p.h := by simp only [GpKernel.weight, hty, q7]
    have w1 : m.kernel.weight 1 = p.hDown := by simp only [GpKernel.weight, hty, q8]
    have w2 : m.kernel.weight 2 = p.hUp := by simp only [GpKernel.weight, hty, q9]
    rw [he] at v1 v2
    have f1 := finiteVec_some fun j => (d1 _).symm.trans (m.kernel.density_some 1 (v1 j).le (.inr (v1 j))).1
    have f2 := finiteVec_some fun j => (d2 _).symm.trans (m.kernel.density_some 2 (v2 j).le (.inr (v2 j))).1
    have hfull : m.outputscale • fullCov m.kernel = p.outputscale • (p.h • sandwich eh (fun _ => p.mu) (allRows _) (allRows _) +
        p.hDown • sandwich eg (fun j => m.kernel.kap 1 (eg.vals j)) (allRows _) (allRows _) +
        p.hUp • sandwich ec (fun j => m.kernel.kap 2 (ec.vals j)) (allRows _) (allRows _)) := by
      rw [p10, fullCov, w0, w1, w2]
      simp only [d0]
      have hg : ∀ e : GpEigenpairs sc.E, e = ⟨eh, eg, ec⟩ →
          m.outputscale • (p.h • sandwich e.harm (fun _ => p.mu) id id +
            p.hDown • sandwich e.grad (fun j => m.kernel.kap 1 (e.grad.vals j)) id id +
            p.hUp • sandwich e.curl (fun j => m.kernel.kap 2 (e.curl.vals j)) id id) =
          m.outputscale • (p.h • sandwich eh (fun _ => p.mu) (allRows _) (allRows _) +
            p.hDown • sandwich eg (fun j => m.kernel.kap 1 (eg.vals j)) (allRows _) (allRows _) +
            p.hUp • sandwich ec (fun j => m.kernel.kap 2 (ec.vals j)) (allRows _) (allRows _)) := by
        rintro _ rfl
        rfl
      exact hg _ he
    unfold Trainer.buildMaternKernel
    rw [hp]
    simp only [bind, Except.bind]
    rw [e1, e2, e3]
    simp only
    simp only at f1 f2
    rw [f1, f2]
    simp only
    rw [← hfull, hv1]
    rfl
  · simp only [GpKernel.forward, rows_cast, bind, Except.bind, cov_ok hk ht]
    rfl
  · simp only [GpModel.forward, rows_cast, bind, Except.bind, cov_ok hk ht]
    rfl

/-- a trained Matern model of the sample complex; the numerical library only has to exist -/
example : ∃ (lib : NumLib) (t : Trainer twoTri) (m : GpModel twoTri.E), t.model = some m ∧
    m.kernel.type = .matern ∧ m.kernel.FromComplex lib (1 / 1000) := by
  obtain ⟨lib⟩ := NumLib.exists
  obtain ⟨k, h1, h2⟩ := GpKernel.FromComplex.exists lib twoTri (by decide) (1 / 1000) .matern
  exact ⟨lib, (Trainer.train (Trainer.create twoTri []) (fun _ m => .ok m) (GpModel.create k none 1) 5).2.2,
    GpModel.create k none 1, rfl, h1, h2⟩

end Pytspl
