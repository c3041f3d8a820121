import Verif.Lemmas.Cliques
import Verif.Lemmas.Incidence
import Mathlib.Tactic.NormNum

/-!
# Properties C05, C33 - C36: building complexes from graphs
-/

set_option linter.unusedSimpArgs false

namespace Pytspl

/-! ## C33, C34 -/

/-- C33: `triangles()` has no repeats and contains exactly the increasing triples whose pairs are
joined by an edge in some orientation. -/
theorem C33_triangles_exact (b : SCBuilder) :
    b.triangles.Nodup ∧
    ∀ t : List Int, t ∈ b.triangles ↔ ∃ x y z, t = [x, y, z] ∧ x < y ∧ y < z ∧
      Joined b.edges x y ∧ Joined b.edges y z ∧ Joined b.edges x z :=
  ⟨triangles_nodup b, mem_triangles b⟩

/-- C34: edge lists describing the same undirected graph give the same triangles up to order. -/
theorem C34_triangles_order_independent (b b' : SCBuilder)
    (h : ∀ u v, u ≠ v → (Joined b.edges u v ↔ Joined b'.edges u v)) :
    b.triangles.Perm b'.triangles := by
  rw [List.perm_ext_iff_of_nodup (triangles_nodup b) (triangles_nodup b')]
  intro t
  rw [mem_triangles, mem_triangles]
  refine exists_congr fun x => exists_congr fun y => exists_congr fun z => ?_
  constructor
  · rintro ⟨rfl, h1, h2, j1, j2, j3⟩
    exact ⟨rfl, h1, h2, (h _ _ (by omega)).mp j1, (h _ _ (by omega)).mp j2, (h _ _ (by omega)).mp j3⟩
  · rintro ⟨rfl, h1, h2, j1, j2, j3⟩
    exact ⟨rfl, h1, h2, (h _ _ (by omega)).mpr j1, (h _ _ (by omega)).mpr j2,
      (h _ _ (by omega)).mpr j3⟩

/-- the hypothesis of C34 covers reordering and reversing edges -/
example : ∀ u v : Int, u ≠ v →
    (Joined [(0, 1), (1, 2), (0, 2)] u v ↔ Joined [(2, 1), (2, 0), (0, 1), (1, 1)] u v) := by
  intro u v h
  simp only [Joined, List.mem_cons, Prod.mk.injEq, List.not_mem_nil, or_false]
  omega

/-! ## C35 -/

/-- the value of column `col` recorded for the ordered pair `p`, if there is one -/
def recorded (b : SCBuilder) (p : Edge) (col : String) : Option Cell :=
  (Dict.get? b.edgeFeatures p).bind fun d => Dict.get? d col

private theorem feature_eq (b : SCBuilder) (p : Edge) (col : String) :
    b.feature p col = match recorded b p col with
      | some c => .ok c
      | none => .error .keyError := by
  unfold SCBuilder.feature recorded Dict.getItem
  cases Dict.get? b.edgeFeatures p with
  | none => rfl
  | some d =>
    simp only [bind, Except.bind, Option.bind]
    cases Dict.get? d col <;> rfl

/-- a non-zero number below the threshold -/
def NearEnough (c : Option Cell) (eps : ℚ) : Prop := ∃ q : ℚ, c = some (.num q) ∧ q ≠ 0 ∧ q < eps

private theorem distKeep_true (b : SCBuilder) (col : String) (eps : ℚ) (x y z : Int) :
    b.distKeep col eps x y z = .ok true ↔ NearEnough (recorded b (x, y) col) eps ∧
      NearEnough (recorded b (y, z) col) eps ∧ NearEnough (recorded b (x, z) col) eps := by
  unfold SCBuilder.distKeep
  simp only [feature_eq]
  unfold NearEnough
  cases recorded b (x, y) col with
  | none => simp [bind, Except.bind]
  | some c1 =>
    cases recorded b (y, z) col with
    | none => cases h : c1.truthy <;> simp [bind, Except.bind, pure, Except.pure, h]
    | some c2 =>
      cases recorded b (x, z) col with
      | none =>
        cases h : c1.truthy <;> cases h' : c2.truthy <;>
          simp [bind, Except.bind, pure, Except.pure, h, h']
      | some c3 =>
        have hn : ∀ c : Cell, (∃ q : ℚ, some c = some (.num q) ∧ q ≠ 0 ∧ q < eps) ↔
            (c.truthy = true ∧ c.lt eps = .ok true) := by
          intro c
          cases c <;> simp [Cell.truthy, Cell.lt]
        rw [hn, hn, hn]
        cases h1 : c1.truthy with
        | false => simp [bind, Except.bind, pure, Except.pure, h1]
        | true =>
          cases h2 : c2.truthy with
          | false => simp [bind, Except.bind, pure, Except.pure, h1, h2]
          | true =>
            cases h3 : c3.truthy with
            | false => simp [bind, Except.bind, pure, Except.pure, h1, h2, h3]
            | true =>
              cases l1 : c1.lt eps with
              | error e => simp [bind, Except.bind, pure, Except.pure, h1, h2, h3, l1]
              | ok b1 =>
                cases b1 with
                | false => simp [bind, Except.bind, pure, Except.pure, h1, h2, h3, l1]
                | true =>
                  cases l2 : c2.lt eps with
                  | error e => simp [bind, Except.bind, pure, Except.pure, h1, h2, h3, l1, l2]
                  | ok b2 => cases b2 <;> simp [bind, Except.bind, pure, Except.pure, h1, h2, h3, l1, l2]

/-- a missing entry is reached by the left-to-right evaluation -/
def MissingReached (b : SCBuilder) (col : String) (x y z : Int) : Prop :=
  recorded b (x, y) col = none ∨
  (∃ q : ℚ, q ≠ 0 ∧ recorded b (x, y) col = some (.num q)) ∧
    (recorded b (y, z) col = none ∨
      (∃ q : ℚ, q ≠ 0 ∧ recorded b (y, z) col = some (.num q)) ∧ recorded b (x, z) col = none)

/-- all recorded values are numbers -/
def NumericColumn (b : SCBuilder) (col : String) : Prop :=
  ∀ p c, recorded b p col = some c → ∃ q : ℚ, c = .num q

private theorem distKeep_error (b : SCBuilder) (col : String) (hn : NumericColumn b col) (eps : ℚ)
    (x y z : Int) :
    (∃ r, b.distKeep col eps x y z = .ok r ∧ ¬ MissingReached b col x y z) ∨
    (b.distKeep col eps x y z = .error .keyError ∧ MissingReached b col x y z) := by
  unfold SCBuilder.distKeep MissingReached
  simp only [feature_eq]
  cases h1 : recorded b (x, y) col with
  | none => right; exact ⟨rfl, .inl rfl⟩
  | some c1 =>
    obtain ⟨q1, rfl⟩ := hn _ _ h1
    by_cases z1 : q1 = 0
    · left
      exact ⟨false, by simp [bind, Except.bind, pure, Except.pure, Cell.truthy, z1], by simp [z1]⟩
    · cases h2 : recorded b (y, z) col with
      | none =>
        right
        exact ⟨by simp [bind, Except.bind, pure, Except.pure, Cell.truthy, z1], by simp [z1]⟩
      | some c2 =>
        obtain ⟨q2, rfl⟩ := hn _ _ h2
        by_cases z2 : q2 = 0
        · left
          exact ⟨false, by simp [bind, Except.bind, pure, Except.pure, Cell.truthy, z1, z2],
            by simp [z1, z2]⟩
        · cases h3 : recorded b (x, z) col with
          | none =>
            right
            exact ⟨by simp [bind, Except.bind, pure, Except.pure, Cell.truthy, z1, z2],
              by simp [z1, z2]⟩
          | some c3 =>
            obtain ⟨q3, rfl⟩ := hn _ _ h3
            left
            by_cases z3 : q3 = 0
            · exact ⟨false, by simp [bind, Except.bind, pure, Except.pure, Cell.truthy, z1, z2, z3],
                by simp⟩
            · by_cases l1 : q1 < eps
              · by_cases l2 : q2 < eps
                · exact ⟨decide (q3 < eps), by
                    simp [bind, Except.bind, pure, Except.pure, Cell.truthy, Cell.lt, z1, z2, z3,
                      l1, l2], by simp⟩
                · exact ⟨false, by
                    simp [bind, Except.bind, pure, Except.pure, Cell.truthy, Cell.lt, z1, z2, z3,
                      l1, l2], by simp⟩
              · exact ⟨false, by
                  simp [bind, Except.bind, pure, Except.pure, Cell.truthy, Cell.lt, z1, z2, z3,
                    l1], by simp⟩

private theorem dist_loop (b : SCBuilder) (col : String) (eps : ℚ) (l : List (List Int))
    (hl : ∀ t ∈ l, ∃ x y z, t = [x, y, z]) (acc r : List (List Int))
    (h : (l.foldlM (init := acc) fun acc t => (do
      let (x, y, z) ← unpack3 t
      if ← b.distKeep col eps x y z then pure (acc ++ [[x, y, z]]) else pure acc : Py _)) = .ok r) :
    ∃ s, r = acc ++ s ∧ s.Sublist l ∧ ∀ x y z, [x, y, z] ∈ l →
      ([x, y, z] ∈ s ↔ b.distKeep col eps x y z = .ok true) := by
  induction l generalizing acc with
  | nil =>
    simp only [List.foldlM_nil, pure, Except.pure, Except.ok.injEq] at h
    exact ⟨[], by simp [h], by simp, by simp⟩
  | cons t l ih =>
    obtain ⟨x, y, z, rfl⟩ := hl t (by simp)
    have hl' : ∀ t ∈ l, ∃ x y z, t = [x, y, z] := fun t ht => hl t (by simp [ht])
    rw [List.foldlM_cons] at h
    simp only [unpack3, bind, Except.bind] at h
    cases hk : b.distKeep col eps x y z with
    | error e => rw [hk] at h; cases h
    | ok v =>
      rw [hk] at h
      cases v with
      | true =>
        simp only [if_true, pure, Except.pure] at h
        obtain ⟨s, rfl, hs, hm⟩ := ih hl' _ h
        refine ⟨[x, y, z] :: s, by simp, hs.cons_cons _, ?_⟩
        intro x' y' z' hmem
        by_cases he : [x', y', z'] = [x, y, z]
        · obtain ⟨rfl, rfl, rfl⟩ : x' = x ∧ y' = y ∧ z' = z := by simpa using he
          simp [hk]
        · have hml : [x', y', z'] ∈ l := by
            rcases List.mem_cons.mp hmem with h' | h'
            · exact absurd h' he
            · exact h'
          rw [List.mem_cons, ← hm _ _ _ hml]
          simp only [he, false_or]
      | false =>
        simp only [pure, Except.pure] at h
        obtain ⟨s, rfl, hs, hm⟩ := ih hl' _ h
        refine ⟨s, rfl, hs.cons _, ?_⟩
        intro x' y' z' hmem
        by_cases hml : [x', y', z'] ∈ l
        · exact hm _ _ _ hml
        · have he : [x', y', z'] = [x, y, z] := by
            rcases List.mem_cons.mp hmem with h' | h'
            · exact h'
            · exact absurd h' hml
          obtain ⟨rfl, rfl, rfl⟩ : x' = x ∧ y' = y ∧ z' = z := by simpa using he
          rw [hk]
          constructor
          · intro h'; exact absurd (hs.subset h') hml
          · intro h'; cases h'

private theorem triangles_triples (b : SCBuilder) : ∀ t ∈ b.triangles, ∃ x y z, t = [x, y, z] := by
  intro t ht
  obtain ⟨x, y, z, h, -⟩ := (mem_triangles b t).mp ht
  exact ⟨x, y, z, h⟩

/-- C35, whenever the call returns: it keeps, in the order of `triangles()`, exactly the triangles
whose three recorded values are non-zero numbers below the threshold. -/
theorem C35_distance_general (b : SCBuilder) (col : String) (eps : ℚ) (r : List (List Int))
    (h : b.trianglesDistBased col eps = .ok r) :
    r.Sublist b.triangles ∧ ∀ x y z, [x, y, z] ∈ r ↔ [x, y, z] ∈ b.triangles ∧
      NearEnough (recorded b (x, y) col) eps ∧ NearEnough (recorded b (y, z) col) eps ∧
      NearEnough (recorded b (x, z) col) eps := by
  obtain ⟨s, hs, hsub, hm⟩ := dist_loop b col eps _ (triangles_triples b) [] r h
  simp only [List.nil_append] at hs
  subst hs
  refine ⟨hsub, fun x y z => ?_⟩
  constructor
  · intro h'
    have := hsub.subset h'
    exact ⟨this, (distKeep_true b col eps x y z).mp ((hm x y z this).mp h')⟩
  · rintro ⟨h1, h2⟩
    exact (hm x y z h1).mpr ((distKeep_true b col eps x y z).mpr h2)

private theorem dist_loop_error (b : SCBuilder) (col : String) (hn : NumericColumn b col) (eps : ℚ)
    (l : List (List Int)) (hl : ∀ t ∈ l, ∃ x y z, t = [x, y, z]) (acc : List (List Int)) :
    let run := (l.foldlM (init := acc) fun acc t => (do
      let (x, y, z) ← unpack3 t
      if ← b.distKeep col eps x y z then pure (acc ++ [[x, y, z]]) else pure acc : Py _))
    ((∃ r, run = .ok r) ∧ ∀ x y z, [x, y, z] ∈ l → ¬ MissingReached b col x y z) ∨
    (run = .error .keyError ∧ ∃ x y z, [x, y, z] ∈ l ∧ MissingReached b col x y z) := by
  induction l generalizing acc with
  | nil => left; exact ⟨⟨acc, rfl⟩, by simp⟩
  | cons t l ih =>
    obtain ⟨x, y, z, rfl⟩ := hl t (by simp)
    have hl' : ∀ t ∈ l, ∃ x y z, t = [x, y, z] := fun t ht => hl t (by simp [ht])
    simp only [List.foldlM_cons, unpack3, bind, Except.bind]
    rcases distKeep_error b col hn eps x y z with ⟨v, hv, hno⟩ | ⟨hk, hmr⟩
    · rw [hv]
      have ih' := ih hl' (if v then acc ++ [[x, y, z]] else acc)
      have hrw : (if v = true then (pure (acc ++ [[x, y, z]]) : Py _) else pure acc) =
          .ok (if v then acc ++ [[x, y, z]] else acc) := by
        cases v <;> rfl
      simp only [hrw]
      rcases ih' with ⟨⟨r, hr⟩, h2⟩ | ⟨hr, h2⟩
      · left
        refine ⟨⟨r, hr⟩, ?_⟩
        intro x' y' z' hm
        rcases List.mem_cons.mp hm with he | hm
        · obtain ⟨rfl, rfl, rfl⟩ : x' = x ∧ y' = y ∧ z' = z := by simpa using he
          exact hno
        · exact h2 _ _ _ hm
      · right
        obtain ⟨x', y', z', hm, hmr⟩ := h2
        exact ⟨hr, x', y', z', by simp [hm], hmr⟩
    · right
      rw [hk]
      exact ⟨rfl, x, y, z, by simp, hmr⟩

/-- C35, failures: on a numeric column the only possible exception is `KeyError`, raised exactly
when some triangle's pair is not recorded under its ascending key (e.g. the edge is stored
descending) and is reached before a zero distance. -/
theorem C35_distance_keyError (b : SCBuilder) (col : String) (hn : NumericColumn b col) (eps : ℚ) :
    (b.trianglesDistBased col eps = .error .keyError ↔
      ∃ x y z, [x, y, z] ∈ b.triangles ∧ MissingReached b col x y z) ∧
    ((∃ r, b.trianglesDistBased col eps = .ok r) ∨ b.trianglesDistBased col eps = .error .keyError) := by
  rcases dist_loop_error b col hn eps _ (triangles_triples b) [] with ⟨⟨r, hr⟩, h2⟩ | ⟨hr, h2⟩
  · refine ⟨⟨fun h => ?_, ?_⟩, .inl ⟨r, hr⟩⟩
    · have := hr.symm.trans h
      cases this
    · rintro ⟨x, y, z, hm, hmr⟩
      exact absurd hmr (h2 x y z hm)
  · exact ⟨⟨fun _ => h2, fun _ => hr⟩, .inr hr⟩

/-- a recorded value that counts as present: a non-zero number, a non-empty text or a NaN -/
def Present : Option Cell → Prop
  | some (.num q) => q ≠ 0
  | some (.str s) => s ≠ ""
  | some .nan => True
  | none => False

/-- the value is text -/
def IsText (c : Option Cell) : Prop := ∃ s, c = some (.str s)

/-- a number below the threshold -/
def Below (c : Option Cell) (eps : ℚ) : Prop := ∃ q : ℚ, c = some (.num q) ∧ q < eps

/-- Reading the three values from left to right meets a missing one before one that is zero or empty. -/
def LookupFails (v1 v2 v3 : Option Cell) : Prop :=
  v1 = none ∨ (Present v1 ∧ (v2 = none ∨ (Present v2 ∧ v3 = none)))

/-- All three are there, and comparing them from left to right meets a text before a number that is not below the
threshold. -/
def ComparisonFails (v1 v2 v3 : Option Cell) (eps : ℚ) : Prop :=
  Present v1 ∧ Present v2 ∧ Present v3 ∧
    (IsText v1 ∨ (Below v1 eps ∧ (IsText v2 ∨ (Below v2 eps ∧ IsText v3))))

private theorem distKeep_outcome (b : SCBuilder) (col : String) (eps : ℚ) (x y z : Int) :
    (LookupFails (recorded b (x, y) col) (recorded b (y, z) col) (recorded b (x, z) col) →
      b.distKeep col eps x y z = .error .keyError) ∧
    (ComparisonFails (recorded b (x, y) col) (recorded b (y, z) col) (recorded b (x, z) col) eps →
      b.distKeep col eps x y z = .error .typeError) ∧
    (¬ LookupFails (recorded b (x, y) col) (recorded b (y, z) col) (recorded b (x, z) col) →
      ¬ ComparisonFails (recorded b (x, y) col) (recorded b (y, z) col) (recorded b (x, z) col) eps →
      ∃ v, b.distKeep col eps x y z = .ok v) := by
  unfold SCBuilder.distKeep LookupFails ComparisonFails
  simp only [feature_eq]
  generalize recorded b (x, y) col = v1
  generalize recorded b (y, z) col = v2
  generalize recorded b (x, z) col = v3
  have hp : ∀ c : Cell, Present (some c) ↔ c.truthy = true := by
    intro c; cases c <;> simp [Present, Cell.truthy]
  have hl : ∀ c : Cell, (IsText (some c) ∧ ¬ Below (some c) eps ∧ c.lt eps = .error .typeError) ∨
      (¬ IsText (some c) ∧ Below (some c) eps ∧ c.lt eps = .ok true) ∨
      (¬ IsText (some c) ∧ ¬ Below (some c) eps ∧ c.lt eps = .ok false) := by
    intro c
    cases c with
    | num q => by_cases h : q < eps <;> simp [IsText, Below, Cell.lt, h]
    | str s => simp [IsText, Below, Cell.lt]
    | nan => simp [IsText, Below, Cell.lt]
  have hn : ¬ Present none := id
  cases v1 with
  | none => simp [bind, Except.bind, hn]
  | some c1 =>
    cases h1 : c1.truthy with
    | false => simp [bind, Except.bind, pure, Except.pure, hp, h1]
    | true =>
      cases v2 with
      | none => simp [bind, Except.bind, pure, Except.pure, hp, h1, hn]
      | some c2 =>
        cases h2 : c2.truthy with
        | false => simp [bind, Except.bind, pure, Except.pure, hp, h1, h2]
        | true =>
          cases v3 with
          | none => simp [bind, Except.bind, pure, Except.pure, hp, h1, h2, hn]
          | some c3 =>
            cases h3 : c3.truthy with
            | false => simp [bind, Except.bind, pure, Except.pure, hp, h1, h2, h3]
            | true =>
              rcases hl c1 with ⟨a1, a2, a3⟩ | ⟨a1, a2, a3⟩ | ⟨a1, a2, a3⟩ <;>
              rcases hl c2 with ⟨b1, b2, b3⟩ | ⟨b1, b2, b3⟩ | ⟨b1, b2, b3⟩ <;>
              rcases hl c3 with ⟨d1, d2, d3⟩ | ⟨d1, d2, d3⟩ | ⟨d1, d2, d3⟩ <;>
              simp [bind, Except.bind, pure, Except.pure, hp, h1, h2, h3, a1, a2, a3, b1, b2, b3, d1, d3]

/-- C35, which exception: for every feature table, texts and missing entries included.  The triangles are tried in
order; the call raises `KeyError` or `TypeError` exactly when the first triangle it cannot judge lacks a value or has a
text among its values, and returns if there is no such triangle. -/
theorem C35_distance_outcome (b : SCBuilder) (col : String) (eps : ℚ) :
    let lookup := fun x y z => LookupFails (recorded b (x, y) col) (recorded b (y, z) col) (recorded b (x, z) col)
    let compare := fun x y z =>
      ComparisonFails (recorded b (x, y) col) (recorded b (y, z) col) (recorded b (x, z) col) eps
    ((∀ x y z, [x, y, z] ∈ b.triangles → ¬ lookup x y z ∧ ¬ compare x y z) →
      ∃ r, b.trianglesDistBased col eps = .ok r) ∧
    ∀ pre x y z post, b.triangles = pre ++ [x, y, z] :: post →
      (∀ x y z, [x, y, z] ∈ pre → ¬ lookup x y z ∧ ¬ compare x y z) →
      (lookup x y z → b.trianglesDistBased col eps = .error .keyError) ∧
      (compare x y z → b.trianglesDistBased col eps = .error .typeError) := by
  intro lookup compare
  have key : ∀ (l post : List (List Int)) (acc : List (List Int)), (∀ t ∈ l, t ∈ b.triangles) →
      (∀ x y z, [x, y, z] ∈ l → ¬ lookup x y z ∧ ¬ compare x y z) →
      ∃ r, ((l ++ post).foldlM (init := acc) fun acc t => (do
          let (x, y, z) ← unpack3 t
          if ← b.distKeep col eps x y z then pure (acc ++ [[x, y, z]]) else pure acc : Py _)) =
        post.foldlM (init := r) fun acc t => (do
          let (x, y, z) ← unpack3 t
          if ← b.distKeep col eps x y z then pure (acc ++ [[x, y, z]]) else pure acc : Py _) := by
    intro l post
    induction l with
    | nil => intro acc _ _; exact ⟨acc, rfl⟩
    | cons t l ih =>
      intro acc hm hf
      obtain ⟨x, y, z, rfl⟩ := triangles_triples b t (hm t (by simp))
      obtain ⟨f1, f2⟩ := hf x y z (by simp)
      obtain ⟨v, hv⟩ := (distKeep_outcome b col eps x y z).2.2 f1 f2
      have hm' : ∀ t ∈ l, t ∈ b.triangles := fun t ht => hm t (by simp [ht])
      have hf' : ∀ x y z, [x, y, z] ∈ l → ¬ lookup x y z ∧ ¬ compare x y z := fun x y z h => hf x y z (by simp [h])
      simp only [List.cons_append, List.foldlM_cons, unpack3, bind, Except.bind, hv]
      cases v
      · exact ih _ hm' hf'
      · exact ih _ hm' hf'
  refine ⟨fun h => ?_, fun pre x y z post ht hpre => ?_⟩
  · obtain ⟨r, hr⟩ := key b.triangles [] [] (fun _ h => h) h
    rw [List.append_nil] at hr
    exact ⟨r, hr⟩
  · obtain ⟨r, hr⟩ := key pre ([x, y, z] :: post) [] (fun t h => by rw [ht]; simp [h]) hpre
    rw [← ht] at hr
    refine ⟨fun h => ?_, fun h => ?_⟩
    · refine hr.trans ?_
      simp only [List.foldlM_cons, unpack3, bind, Except.bind, (distKeep_outcome b col eps x y z).1 h]
    · refine hr.trans ?_
      simp only [List.foldlM_cons, unpack3, bind, Except.bind, (distKeep_outcome b col eps x y z).2.1 h]

/-- a triangle with a text among its values, and one with an empty text -/
example : ComparisonFails (some (.num 1)) (some (.str "1.2")) (some (.num 1)) 2 ∧
    (¬ LookupFails (some (.num 1)) (some (.str "")) none ∧
      ¬ ComparisonFails (some (.num 1)) (some (.str "")) none 2) ∧
    LookupFails (some (.num 1)) (some (.str "1.2")) none := by
  refine ⟨⟨?_, ?_, ?_, .inr ⟨⟨1, rfl, by norm_num⟩, .inl ⟨_, rfl⟩⟩⟩, ⟨?_, ?_⟩, .inr ⟨?_, .inr ⟨?_, rfl⟩⟩⟩ <;>
    simp [Present, LookupFails, ComparisonFails]

/-- C35: with a non-zero number recorded for every pair of every triangle, the call returns exactly
the triangles whose three distances are below the threshold, in order. -/
theorem C35_distance_exact (b : SCBuilder) (col : String) (eps : ℚ) (dist : Edge → ℚ)
    (hd : ∀ x y z, [x, y, z] ∈ b.triangles → ∀ p ∈ [(x, y), (y, z), (x, z)],
      recorded b p col = some (.num (dist p)) ∧ dist p ≠ 0) :
    ∃ r, b.trianglesDistBased col eps = .ok r ∧ r.Sublist b.triangles ∧
      ∀ x y z, [x, y, z] ∈ r ↔ [x, y, z] ∈ b.triangles ∧
        dist (x, y) < eps ∧ dist (y, z) < eps ∧ dist (x, z) < eps := by
  have hok : ∃ r, b.trianglesDistBased col eps = .ok r := by
    have key : ∀ (l : List (List Int)) (acc : List (List Int)), (∀ t ∈ l, t ∈ b.triangles) →
        ∃ r, (l.foldlM (init := acc) fun acc t => (do
          let (x, y, z) ← unpack3 t
          if ← b.distKeep col eps x y z then pure (acc ++ [[x, y, z]]) else pure acc : Py _)) = .ok r := by
      intro l
      induction l with
      | nil => intro acc _; exact ⟨acc, rfl⟩
      | cons t l ih =>
        intro acc hm
        obtain ⟨x, y, z, rfl⟩ := triangles_triples b t (hm t (by simp))
        have h3 := hd x y z (hm _ (by simp))
        have h31 := h3 (x, y) (by simp)
        have h32 := h3 (y, z) (by simp)
        have h33 := h3 (x, z) (by simp)
        have : ∃ v, b.distKeep col eps x y z = .ok v := by
          unfold SCBuilder.distKeep
          simp only [feature_eq, h31.1, h32.1, h33.1]
          by_cases l1 : dist (x, y) < eps <;> by_cases l2 : dist (y, z) < eps <;>
            simp [bind, Except.bind, pure, Except.pure, Cell.truthy, Cell.lt, h31.2, h32.2, h33.2,
              l1, l2]
        obtain ⟨v, hv⟩ := this
        simp only [List.foldlM_cons, unpack3, bind, Except.bind, hv]
        cases v
        · exact ih _ fun t ht => hm t (by simp [ht])
        · exact ih _ fun t ht => hm t (by simp [ht])
    exact key _ [] fun t ht => ht
  obtain ⟨r, hr⟩ := hok
  obtain ⟨h1, h2⟩ := C35_distance_general b col eps r hr
  refine ⟨r, hr, h1, fun x y z => ?_⟩
  rw [h2]
  refine and_congr_right fun hm => ?_
  have h3 := hd x y z hm
  have h31 := h3 (x, y) (by simp)
  have h32 := h3 (y, z) (by simp)
  have h33 := h3 (x, z) (by simp)
  simp [NearEnough, h31.1, h32.1, h33.1, h31.2, h32.2, h33.2]

/-- a builder with one triangle whose distances are recorded -/
def distBuilder : SCBuilder :=
  { nodes := [0, 1, 2], edges := [(0, 1), (0, 2), (1, 2)],
    edgeFeatures := [((0, 1), [("distance", .num 1)]), ((0, 2), [("distance", .num 2)]),
      ((1, 2), [("distance", .num 1)])] }

example : [0, 1, 2] ∈ distBuilder.triangles := by
  rw [mem_triangles]
  exact ⟨0, 1, 2, rfl, by decide, by decide, by decide, by decide, by decide⟩

example : ∀ x y z, [x, y, z] ∈ distBuilder.triangles → ∀ p ∈ [(x, y), (y, z), (x, z)],
    recorded distBuilder p "distance" = some (.num (if p = (0, 2) then 2 else 1)) ∧
    (if p = (0, 2) then 2 else 1 : ℚ) ≠ 0 := by
  intro x y z h
  rw [mem_triangles] at h
  obtain ⟨x', y', z', he, h1, h2, j1, j2, j3⟩ := h
  obtain ⟨rfl, rfl, rfl⟩ : x = x' ∧ y = y' ∧ z = z' := by simpa using he
  simp only [Joined, distBuilder, List.mem_cons, Prod.mk.injEq, List.not_mem_nil, or_false] at j1 j2 j3
  have hx : x = 0 := by omega
  have hy : y = 1 := by omega
  have hz : z = 2 := by omega
  subst hx; subst hy; subst hz
  intro p hp
  simp only [List.mem_cons, List.not_mem_nil, or_false] at hp
  rcases hp with rfl | rfl | rfl <;> refine ⟨by rfl, by norm_num⟩

/-- C35, missing distances: a triangle one of whose distances is missing from the file (NaN) is dropped without an
error, whatever the threshold. -/
theorem C35_distance_missing (b : SCBuilder) (col : String) (eps : ℚ) :
    (∀ r, b.trianglesDistBased col eps = .ok r → ∀ x y z, [x, y, z] ∈ r →
      ∀ p ∈ [(x, y), (y, z), (x, z)], recorded b p col ≠ some .nan) ∧
    ((∀ x y z, [x, y, z] ∈ b.triangles → ∀ p ∈ [(x, y), (y, z), (x, z)],
      recorded b p col = some .nan ∨ ∃ q : ℚ, recorded b p col = some (.num q)) →
      ∃ r, b.trianglesDistBased col eps = .ok r) := by
  constructor
  · intro r hr x y z h p hp hnan
    obtain ⟨-, h1, h2, h3⟩ := ((C35_distance_general b col eps r hr).2 x y z).1 h
    have : NearEnough (recorded b p col) eps := by
      simp only [List.mem_cons, List.not_mem_nil, or_false] at hp
      rcases hp with rfl | rfl | rfl <;> assumption
    obtain ⟨q, hq, -⟩ := this
    rw [hnan] at hq
    cases hq
  · intro h
    refine (C35_distance_outcome b col eps).1 fun x y z ht => ?_
    have h1 := h x y z ht (x, y) (by simp)
    have h2 := h x y z ht (y, z) (by simp)
    have h3 := h x y z ht (x, z) (by simp)
    constructor
    · rintro (h | ⟨-, h | ⟨-, h⟩⟩)
      · rw [h] at h1; simp at h1
      · rw [h] at h2; simp at h2
      · rw [h] at h3; simp at h3
    · rintro ⟨-, -, -, ⟨s, hs⟩ | ⟨-, ⟨s, hs⟩ | ⟨-, s, hs⟩⟩⟩
      · rw [hs] at h1; simp at h1
      · rw [hs] at h2; simp at h2
      · rw [hs] at h3; simp at h3

/-- one missing distance -/
def gappyBuilder : SCBuilder :=
  { nodes := [0, 1, 2], edges := [(0, 1), (0, 2), (1, 2)],
    edgeFeatures := [((0, 1), [("distance", .num 1)]), ((0, 2), [("distance", .nan)]),
      ((1, 2), [("distance", .num 1)])] }

example : ∀ x y z, [x, y, z] ∈ gappyBuilder.triangles → ∀ p ∈ [(x, y), (y, z), (x, z)],
    recorded gappyBuilder p "distance" = some .nan ∨ ∃ q : ℚ, recorded gappyBuilder p "distance" = some (.num q) := by
  intro x y z h
  rw [mem_triangles] at h
  obtain ⟨x', y', z', he, h1, h2, j1, j2, j3⟩ := h
  obtain ⟨rfl, rfl, rfl⟩ : x = x' ∧ y = y' ∧ z = z' := by simpa using he
  simp only [Joined, gappyBuilder, List.mem_cons, Prod.mk.injEq, List.not_mem_nil, or_false] at j1 j2 j3
  have hx : x = 0 := by omega
  have hy : y = 1 := by omega
  have hz : z = 2 := by omega
  subst hx; subst hy; subst hz
  intro p hp
  simp only [List.mem_cons, List.not_mem_nil, or_false] at hp
  rcases hp with rfl | rfl | rfl
  · exact .inr ⟨1, rfl⟩
  · exact .inr ⟨1, rfl⟩
  · exact .inl rfl

/-! ## C36, C05 -/

variable {K : Type} [CommRing K]

/-- C36: which triangles are used. -/
theorem C36_dispatch (b : SCBuilder) (cond col : String) (eps : ℚ) :
    (∀ ts, b.toSimplicialComplex K cond col eps (some ts) =
      SC.init b.nodes b.edges ts b.nodeFeatures b.edgeFeatures) ∧
    (b.toSimplicialComplex K "all" col eps none =
      SC.init b.nodes b.edges b.triangles b.nodeFeatures b.edgeFeatures) ∧
    (cond ≠ "all" → ∀ e, b.trianglesDistBased col eps = .error e →
      b.toSimplicialComplex K cond col eps none = .error e) ∧
    (cond ≠ "all" → ∀ ts, b.trianglesDistBased col eps = .ok ts →
      b.toSimplicialComplex K cond col eps none =
        SC.init b.nodes b.edges ts b.nodeFeatures b.edgeFeatures) := by
  refine ⟨fun ts => rfl, rfl, ?_, ?_⟩
  · intro hc e he
    simp [SCBuilder.toSimplicialComplex, SCBuilder.chooseTriangles, hc, he, bind, Except.bind]
  · intro hc ts he
    simp [SCBuilder.toSimplicialComplex, SCBuilder.chooseTriangles, hc, he, bind, Except.bind]

/-- C36: nodes, edges and features reach the complex unchanged. -/
theorem C36_pass_through (b : SCBuilder) (cond col : String) (eps : ℚ) (ts) (sc : SC K)
    (h : b.toSimplicialComplex K cond col eps ts = .ok sc) :
    sc.nodes = b.nodes ∧ sc.edges = b.edges ∧ sc.nodeFeatures = b.nodeFeatures ∧
    sc.edgeFeatures = b.edgeFeatures ∧ sc.Built ∧
    (∀ l, ts = some l → sc.triangles = l) ∧
    (ts = none → cond = "all" → sc.triangles = b.triangles) ∧
    (ts = none → cond ≠ "all" → b.trianglesDistBased col eps = .ok sc.triangles) := by
  unfold SCBuilder.toSimplicialComplex at h
  cases hc : b.chooseTriangles cond col eps ts with
  | error e => rw [hc] at h; cases h
  | ok l =>
    rw [hc] at h
    obtain ⟨h1, h2, h3, h4, h5, h6⟩ := SC.init_ok h
    refine ⟨h1, h2, h4, h5, h6, ?_, ?_, ?_⟩
    · rintro l' rfl
      simp only [SCBuilder.chooseTriangles, pure, Except.pure, Except.ok.injEq] at hc
      rw [h3, hc]
    · rintro rfl rfl
      simp only [SCBuilder.chooseTriangles, if_true, pure, Except.pure, Except.ok.injEq] at hc
      rw [h3, hc]
    · rintro rfl hne
      simp only [SCBuilder.chooseTriangles, hne, if_false] at hc
      rw [h3, hc]

/-- C36: with edge endpoints in range, condition `all` never raises, whatever orientation,
repetition or loops the edge list has. -/
theorem C36_all_never_raises (b : SCBuilder) (col : String) (eps : ℚ)
    (h : ∀ e ∈ b.edges, ValidLabel b.nodes.length e.1 ∧ ValidLabel b.nodes.length e.2) :
    ∃ sc : SC K, b.toSimplicialComplex K "all" col eps none = .ok sc := by
  apply SC.exists_built K _ _ _ _ _ h
  intro t ht
  obtain ⟨x, y, z, rfl, -, -, j1, j2, j3⟩ := (mem_triangles b t).mp ht
  exact ⟨x, y, z, rfl, j1, j2, j3⟩

theorem ascending_oriented {b : SCBuilder} (h : Ascending b.edges) {t : List Int}
    (ht : t ∈ b.triangles) : TriOriented b.edges t := by
  obtain ⟨x, y, z, rfl, h1, h2, j1, j2, j3⟩ := (mem_triangles b t).mp ht
  have key : ∀ u v, u < v → Joined b.edges u v → (u, v) ∈ b.edges := by
    rintro u v huv (hj | hj)
    · exact hj
    · have := h _ hj
      simp only at this
      omega
  exact ⟨x, y, z, rfl, key _ _ h1 j1, key _ _ h2 j2, key _ _ (by omega) j3⟩

/-- C05: ascending edges on existing nodes always build, and the result is a chain complex. -/
theorem C05_ascending_builds (b : SCBuilder) (col : String) (eps : ℚ)
    (h : ∀ e ∈ b.edges, 0 ≤ e.1 ∧ e.1 < e.2 ∧ e.2 < b.nodes.length) :
    ∃ sc : SC K, b.toSimplicialComplex K "all" col eps none = .ok sc ∧ sc.B1 * sc.B2 = 0 ∧
      sc.WellFormed ∧ sc.triangles = b.triangles := by
  obtain ⟨sc, hsc, hw⟩ := SC.exists_wellFormed K b.nodes b.edges b.triangles b.nodeFeatures
    b.edgeFeatures (fun e he => by have := h e he; omega) (fun e he => by have := h e he; omega)
    (fun t ht => ascending_oriented (fun e he => (h e he).2.1) ht)
  exact ⟨sc, hsc, hw.b1_mul_b2, hw, (SC.init_ok hsc).2.2.1⟩

example : ∀ e ∈ distBuilder.edges, 0 ≤ e.1 ∧ e.1 < e.2 ∧ e.2 < distBuilder.nodes.length := by decide

/-- the hypothesis of `C36_all_never_raises` also admits descending and repeated edges -/
example : ∀ e ∈ [((2 : Int), (0 : Int)), (0, 1), (1, 2), (0, 2), (1, 1)],
    ValidLabel 3 e.1 ∧ ValidLabel 3 e.2 := by
  simp [ValidLabel]

/-- C36, C35, the documented defaults: without arguments all triangles are used; with only a condition given, the column
is "distance" and the threshold 1.5. -/
theorem C36_defaults (b : SCBuilder) (sc : SC K) :
    (b.toSimplicialComplex K = .ok sc → sc.triangles = b.triangles) ∧
    (b.toSimplicialComplex K "distance" = .ok sc → sc.triangles.Sublist b.triangles ∧
      ∀ x y z, [x, y, z] ∈ sc.triangles ↔ [x, y, z] ∈ b.triangles ∧
        NearEnough (recorded b (x, y) "distance") (3 / 2) ∧ NearEnough (recorded b (y, z) "distance") (3 / 2) ∧
        NearEnough (recorded b (x, z) "distance") (3 / 2)) := by
  constructor
  · intro h
    exact (C36_pass_through b _ _ _ _ sc h).2.2.2.2.2.2.1 rfl rfl
  · intro h
    exact C35_distance_general b _ _ _ ((C36_pass_through b _ _ _ _ sc h).2.2.2.2.2.2.2 rfl (by decide))

end Pytspl
