import Verif.Spec.Tables
import Verif.Lemmas.Dicts
import Verif.Lemmas.Sorting
import Verif.Spec.Complex

/-!
# Lemmas about `_extract_nodes_edges`
-/

namespace Pytspl

theorem truncates_iff (q : ℚ) (a : Int) : Truncates q a ↔ Cell.toInt (.num q) = .ok a := by
  have hpos : 0 ≤ q → q.num.tdiv q.den = ⌊q⌋ := by
    intro h
    rw [Rat.floor_def', Int.tdiv_eq_ediv_of_nonneg (Rat.num_nonneg.mpr h)]
  have hneg : q ≤ 0 → q.num.tdiv q.den = ⌈q⌉ := by
    intro h
    have h0 : 0 ≤ (-q).num := Rat.num_nonneg.mpr (by linarith)
    have : ⌈q⌉ = -⌊-q⌋ := by rw [Int.floor_neg]; omega
    rw [this, Rat.floor_def', ← Int.tdiv_eq_ediv_of_nonneg h0]
    simp
  simp only [Cell.toInt, Except.ok.injEq, Truncates]
  constructor
  · rintro (⟨h, rfl⟩ | ⟨h, rfl⟩)
    · exact hpos h
    · exact hneg h
  · intro h
    rcases le_total 0 q with h0 | h0
    · exact .inl ⟨h0, by rw [← h, hpos h0]⟩
    · exact .inr ⟨h0, by rw [← h, hneg h0]⟩

/-! ### `int` of a text -/

private theorem isDigit_iff (c : Char) : c.isDigit = true ↔ ∃ d : Fin 10, c = Char.ofNat (48 + d) := by
  constructor
  · intro h
    have h1 : 48 ≤ c.toNat ∧ c.toNat ≤ 57 := by
      simp only [Char.isDigit, Bool.and_eq_true, decide_eq_true_eq] at h
      exact ⟨h.1, h.2⟩
    refine ⟨⟨c.toNat - 48, by omega⟩, ?_⟩
    have : 48 + (c.toNat - 48) = c.toNat := by omega
    simp only [this, Char.ofNat_toNat]
  · rintro ⟨d, rfl⟩
    revert d
    decide

private theorem digit_val (d : Fin 10) : (Char.ofNat (48 + d)).toNat - 48 = d ∧ (Char.ofNat (48 + d)).isDigit = true ∧
    Char.ofNat (48 + d) ≠ '_' ∧ Char.ofNat (48 + d) ≠ '-' ∧ Char.ofNat (48 + d) ≠ '+' ∧
    pySpace (Char.ofNat (48 + d)) = false := by
  revert d
  decide

private def dec (n : ℕ) (ds : List (Fin 10)) : ℕ := ds.foldl (fun (n : ℕ) (d : Fin 10) => 10 * n + (d : ℕ)) n

private def chars (g : List (Fin 10)) : List Char := g.map fun d : Fin 10 => Char.ofNat (48 + (d : ℕ))

private theorem inter_cons (g : List Char) (rest : List (List Char)) (h : rest ≠ []) :
    ['_'].intercalate (g :: rest) = g ++ '_' :: ['_'].intercalate rest := by
  obtain ⟨r, rest, rfl⟩ := List.exists_cons_of_ne_nil h
  simp [List.intercalate]

private theorem inter_digit (c : Char) (g : List Char) (rest : List (List Char)) :
    ['_'].intercalate ((c :: g) :: rest) = c :: ['_'].intercalate (g :: rest) := by
  cases rest with
  | nil => simp [List.intercalate]
  | cons r rest => rw [inter_cons (c :: g) _ (by simp), inter_cons g _ (by simp), List.cons_append]

private theorem pyDigits_iff (cs : List Char) : ∀ (n m : ℕ),
    (pyDigits n true cs = some m ↔ ∃ (g : List (Fin 10)) (rest : List (List (Fin 10))), (∀ r ∈ rest, r ≠ []) ∧
      cs = ['_'].intercalate (chars g :: rest.map chars) ∧ m = dec n (g ++ rest.flatten)) ∧
    (pyDigits n false cs = some m ↔ ∃ groups : List (List (Fin 10)), groups ≠ [] ∧ (∀ r ∈ groups, r ≠ []) ∧
      cs = ['_'].intercalate (groups.map chars) ∧ m = dec n groups.flatten) := by
  induction cs with
  | nil =>
    intro n m
    constructor
    · simp only [pyDigits, if_true, Option.some.injEq]
      constructor
      · rintro rfl
        exact ⟨[], [], by simp, by simp [chars, List.intercalate], rfl⟩
      · rintro ⟨g, rest, -, h, rfl⟩
        cases rest with
        | cons r rest => rw [List.map_cons, inter_cons _ _ (by simp)] at h; simp at h
        | nil =>
          cases g with
          | nil => rfl
          | cons d g => simp [chars, List.intercalate] at h
    · simp only [pyDigits, Bool.false_eq_true, if_false, reduceCtorEq, false_iff]
      rintro ⟨groups, h1, h2, h3, -⟩
      obtain ⟨g, rest, rfl⟩ := List.exists_cons_of_ne_nil h1
      obtain ⟨d, g, rfl⟩ := List.exists_cons_of_ne_nil (h2 g (by simp))
      rw [List.map_cons, chars, List.map_cons, inter_digit] at h3
      cases h3
  | cons c cs ih =>
    intro n m
    by_cases hc : c.isDigit = true
    · obtain ⟨d, rfl⟩ := (isDigit_iff c).1 hc
      simp only [pyDigits, hc, if_true, (digit_val d).1]
      refine ⟨((ih _ _).1).trans ⟨?_, ?_⟩, ((ih _ _).1).trans ⟨?_, ?_⟩⟩
      · rintro ⟨g, rest, h1, rfl, rfl⟩
        refine ⟨d :: g, rest, h1, ?_, rfl⟩
        exact (inter_digit _ _ _).symm
      · rintro ⟨g, rest, h1, h2, rfl⟩
        cases g with
        | nil =>
          exfalso
          cases rest with
          | nil => simp [chars, List.intercalate] at h2
          | cons r rest =>
            rw [List.map_cons, inter_cons _ _ (by simp)] at h2
            simp only [chars, List.map_nil, List.nil_append, List.cons.injEq] at h2
            exact (digit_val d).2.2.1 h2.1
        | cons e g =>
          rw [chars, List.map_cons, inter_digit, List.cons.injEq] at h2
          refine ⟨g, rest, h1, h2.2, ?_⟩
          have he : d = e := by
            have h3 := congrArg (fun c : Char => c.toNat - 48) h2.1
            simp only [(digit_val _).1] at h3
            exact Fin.ext h3
          rw [he]
          rfl
      · rintro ⟨g, rest, h1, rfl, rfl⟩
        refine ⟨(d :: g) :: rest, by simp, by simpa using h1, ?_, rfl⟩
        exact (inter_digit _ _ _).symm
      · rintro ⟨groups, h0, h1, h2, rfl⟩
        obtain ⟨g, rest, rfl⟩ := List.exists_cons_of_ne_nil h0
        obtain ⟨e, g, rfl⟩ := List.exists_cons_of_ne_nil (h1 g (by simp))
        rw [List.map_cons, chars, List.map_cons, inter_digit, List.cons.injEq] at h2
        refine ⟨g, rest, fun r hr => h1 r (by simp [hr]), h2.2, ?_⟩
        have he : d = e := by
          have h3 := congrArg (fun c : Char => c.toNat - 48) h2.1
          simp only [(digit_val _).1] at h3
          exact Fin.ext h3
        rw [he]
        rfl
    · have hF : ¬ ∃ groups : List (List (Fin 10)), groups ≠ [] ∧ (∀ r ∈ groups, r ≠ []) ∧
          c :: cs = ['_'].intercalate (groups.map chars) ∧ m = dec n groups.flatten := by
        rintro ⟨groups, h0, h1, h2, -⟩
        obtain ⟨g, rest, rfl⟩ := List.exists_cons_of_ne_nil h0
        obtain ⟨e, g, rfl⟩ := List.exists_cons_of_ne_nil (h1 g (by simp))
        rw [List.map_cons, chars, List.map_cons, inter_digit, List.cons.injEq] at h2
        exact hc (by rw [h2.1]; exact (digit_val e).2.1)
      by_cases hu : c = '_'
      · subst hu
        have e1 : pyDigits n true ('_' :: cs) = pyDigits n false cs := by simp [pyDigits, hc]
        have e2 : pyDigits n false ('_' :: cs) = none := by simp [pyDigits, hc]
        rw [e1, e2]
        refine ⟨((ih _ _).2).trans ⟨?_, ?_⟩, ⟨fun h => (by cases h), fun h => absurd h hF⟩⟩
        · rintro ⟨groups, h0, h1, rfl, rfl⟩
          refine ⟨[], groups, h1, ?_, rfl⟩
          rw [inter_cons _ _ (by simpa using h0)]
          rfl
        · rintro ⟨g, rest, h1, h2, rfl⟩
          cases g with
          | cons e g =>
            rw [chars, List.map_cons, inter_digit, List.cons.injEq] at h2
            exact absurd h2.1.symm (digit_val e).2.2.1
          | nil =>
            cases rest with
            | nil => simp [chars, List.intercalate] at h2
            | cons r rest =>
              rw [List.map_cons, inter_cons _ _ (by simp)] at h2
              refine ⟨r :: rest, by simp, h1, ?_, rfl⟩
              simpa [chars] using h2
      · have e : ∀ b, pyDigits n b (c :: cs) = none := by intro b; simp [pyDigits, hc, hu]
        rw [e, e]
        refine ⟨⟨fun h => (by cases h), ?_⟩, ⟨fun h => (by cases h), fun h => absurd h hF⟩⟩
        rintro ⟨g, rest, h1, h2, rfl⟩
        exfalso
        cases g with
        | cons e g =>
          rw [chars, List.map_cons, inter_digit, List.cons.injEq] at h2
          exact hc (by rw [h2.1]; exact (digit_val e).2.1)
        | nil =>
          cases rest with
          | nil => simp [chars, List.intercalate] at h2
          | cons r rest =>
            rw [List.map_cons, inter_cons _ _ (by simp)] at h2
            simp only [chars, List.map_nil, List.nil_append, List.cons.injEq] at h2
            exact hu h2.1

private theorem strip_split (l : List Char) : ∃ w w', l =
    w ++ (((l.dropWhile pySpace).reverse.dropWhile pySpace).reverse ++ w') ∧ ∀ c ∈ w ++ w', pySpace c = true := by
  refine ⟨l.takeWhile pySpace, ((l.dropWhile pySpace).reverse.takeWhile pySpace).reverse, ?_, ?_⟩
  · rw [← List.reverse_append, List.takeWhile_append_dropWhile, List.reverse_reverse, List.takeWhile_append_dropWhile]
  · intro c hc
    rcases List.mem_append.1 hc with h | h
    · exact List.all_eq_true.1 List.all_takeWhile _ h
    · exact List.all_eq_true.1 List.all_takeWhile _ (List.mem_reverse.1 h)

private theorem strip_eq (w w' body : List Char) (hw : ∀ c ∈ w ++ w', pySpace c = true)
    (h1 : ∀ c, body.head? = some c → pySpace c = false) (h2 : ∀ c, body.getLast? = some c → pySpace c = false)
    (hne : body ≠ []) :
    (((w ++ (body ++ w')).dropWhile pySpace).reverse.dropWhile pySpace).reverse = body := by
  have e1 : (w ++ (body ++ w')).dropWhile pySpace = body ++ w' := by
    rw [List.dropWhile_append_of_pos fun c hc => hw c (List.mem_append.2 (.inl hc))]
    obtain ⟨c, cs, rfl⟩ := List.exists_cons_of_ne_nil hne
    rw [List.cons_append, List.dropWhile_cons_of_neg (by rw [h1 c rfl]; simp)]
  rw [e1, List.reverse_append, List.dropWhile_append_of_pos fun c hc => hw c (List.mem_append.2 (.inr (List.mem_reverse.1 hc)))]
  have : body.reverse ≠ [] := by simpa using hne
  obtain ⟨c, cs, hcs⟩ := List.exists_cons_of_ne_nil this
  have hl : body.getLast? = some c := by
    rw [← List.head?_reverse, hcs]; rfl
  rw [hcs, List.dropWhile_cons_of_neg (by rw [h2 c hl]; simp), ← hcs, List.reverse_reverse]

private theorem inter_shape (groups : List (List (Fin 10))) (h0 : groups ≠ []) (h1 : ∀ g ∈ groups, g ≠ []) :
    (∃ (d : Fin 10) (t : List Char), ['_'].intercalate (groups.map chars) = Char.ofNat (48 + d) :: t) ∧
    ∃ (d : Fin 10) (t : List Char), ['_'].intercalate (groups.map chars) = t ++ [Char.ofNat (48 + d)] := by
  constructor
  · obtain ⟨g, rest, rfl⟩ := List.exists_cons_of_ne_nil h0
    obtain ⟨e, g, rfl⟩ := List.exists_cons_of_ne_nil (h1 g (by simp))
    exact ⟨e, _, by rw [List.map_cons, chars, List.map_cons, inter_digit]⟩
  · induction groups with
    | nil => exact absurd rfl h0
    | cons g rest ih =>
      cases rest with
      | nil =>
        have hg := h1 g (by simp)
        refine ⟨g.getLast hg, chars g.dropLast, ?_⟩
        have : chars g = chars (g.dropLast ++ [g.getLast hg]) := by rw [List.dropLast_append_getLast]
        simp only [List.map_cons, List.map_nil, List.intercalate_singleton, this]
        simp [chars]
      | cons r rest =>
        obtain ⟨d, t, ht⟩ := ih (by simp) fun g hg => h1 g (by simp [hg])
        refine ⟨d, chars g ++ '_' :: t, ?_⟩
        rw [List.map_cons, inter_cons _ _ (by simp), ht]
        simp

theorem intText_iff (s : String) (a : Int) : IntText s a ↔ pyIntText s = some a := by
  unfold IntText pyIntText
  have hs : (pyStrip s).toList = ((s.toList.dropWhile pySpace).reverse.dropWhile pySpace).reverse := by
    unfold pyStrip; rw [String.toList_ofList]
  rw [hs]
  constructor
  · rintro ⟨w, w', sign, groups, h1, hw, h0, hg, hsign⟩
    obtain ⟨⟨d, t, hd⟩, d', t', hd'⟩ := inter_shape groups h0 hg
    have hdig : ∀ n, pyDigits 0 false (['_'].intercalate (groups.map chars)) = some n ↔ n = decimal groups.flatten := by
      intro n
      constructor
      · intro h
        have := ((pyDigits_iff (['_'].intercalate (groups.map chars)) 0 (decimal groups.flatten)).2).2
          ⟨groups, h0, hg, rfl, rfl⟩
        exact Option.some.inj (h.symm.trans this)
      · rintro rfl
        exact ((pyDigits_iff _ 0 _).2).2 ⟨groups, h0, hg, rfl, rfl⟩
    have hdig' := (hdig _).2 rfl
    have hbody : ((s.toList.dropWhile pySpace).reverse.dropWhile pySpace).reverse =
        sign ++ ['_'].intercalate (groups.map chars) := by
      rw [h1]
      refine strip_eq w w' _ hw ?_ ?_ ?_
      · intro c hc
        change (sign ++ ['_'].intercalate (groups.map chars)).head? = some c at hc
        rw [hd] at hc
        rcases hsign with ⟨rfl, -⟩ | ⟨rfl | rfl, -⟩ <;> cases hc
        · decide
        · exact (digit_val d).2.2.2.2.2
        · decide
      · intro c hc
        change (sign ++ ['_'].intercalate (groups.map chars)).getLast? = some c at hc
        rw [hd', ← List.append_assoc, List.getLast?_append] at hc
        cases hc
        exact (digit_val d').2.2.2.2.2
      · change sign ++ ['_'].intercalate (groups.map chars) ≠ []
        rw [hd]
        simp
    rw [hbody]
    rcases hsign with ⟨rfl, ha⟩ | ⟨rfl | rfl, ha⟩
    · simp [hdig', ha]
    · rw [List.nil_append, hd]
      simp only [(digit_val d).2.2.2.1, (digit_val d).2.2.2.2.1, if_false]
      rw [← hd, hdig', ha]
      rfl
    · simp [hdig', ha]
  · intro h
    obtain ⟨w, w', hl, hw⟩ := strip_split s.toList
    generalize ((s.toList.dropWhile pySpace).reverse.dropWhile pySpace).reverse = body at h hl
    cases body with
    | nil => cases h
    | cons c cs =>
      simp only at h
      split_ifs at h with h1 h2
      · subst h1
        obtain ⟨n, hn, rfl⟩ := Option.map_eq_some_iff.1 h
        obtain ⟨groups, g0, g1, rfl, rfl⟩ := ((pyDigits_iff _ _ _).2).1 hn
        exact ⟨w, w', ['-'], groups, hl, hw, g0, g1, .inl ⟨rfl, rfl⟩⟩
      · subst h2
        obtain ⟨n, hn, rfl⟩ := Option.map_eq_some_iff.1 h
        obtain ⟨groups, g0, g1, rfl, rfl⟩ := ((pyDigits_iff _ _ _).2).1 hn
        exact ⟨w, w', ['+'], groups, hl, hw, g0, g1, .inr ⟨.inr rfl, rfl⟩⟩
      · obtain ⟨n, hn, rfl⟩ := Option.map_eq_some_iff.1 h
        obtain ⟨groups, g0, g1, e, rfl⟩ := ((pyDigits_iff _ _ _).2).1 hn
        rw [e] at hl
        exact ⟨w, w', [], groups, hl, hw, g0, g1, .inr ⟨.inl rfl, rfl⟩⟩

/-- an integer text with blanks, a sign and an underscore, and a text that is none -/
example : IntText " -1_000\t" (-1000) ∧ ∀ a, ¬ IntText "n/a" a := by
  refine ⟨(intText_iff _ _).2 (by decide), fun a h => ?_⟩
  have : pyIntText "n/a" = none := by decide
  rw [(intText_iff _ _).1 h] at this
  cases this

theorem toInt_ok {c : Cell} {a : Int} : c.toInt = .ok a ↔ IdOf c a := by
  unfold IdOf
  cases c with
  | num q => simp [truncates_iff]
  | str s =>
    simp only [Cell.toInt, reduceCtorEq, false_and, exists_false, false_or, Cell.str.injEq]
    rw [show (∃ s', s = s' ∧ IntText s' a) ↔ IntText s a from ⟨by rintro ⟨_, rfl, h⟩; exact h, fun h => ⟨_, rfl, h⟩⟩,
      intText_iff]
    cases pyIntText s <;> simp
  | nan => simp [Cell.toInt]

/-- the only exception of `int` on a cell -/
theorem toInt_error {c : Cell} {e : PyErr} : c.toInt = .error e ↔ e = .valueError ∧ ∀ a, ¬ IdOf c a := by
  constructor
  · intro h
    refine ⟨?_, fun a ha => ?_⟩
    · cases c with
      | num q => cases h
      | str s =>
        simp only [Cell.toInt] at h
        split at h <;> cases h
        rfl
      | nan => cases h; rfl
    · rw [toInt_ok.2 ha] at h
      cases h
  · rintro ⟨rfl, h⟩
    cases hc : c.toInt with
    | ok a => exact absurd (toInt_ok.1 hc) (h a)
    | error e =>
      cases c with
      | num q => cases hc
      | str s =>
        simp only [Cell.toInt] at hc
        split at hc <;> cases hc
        rfl
      | nan => cases hc; rfl

theorem rowIds_ok (src dst : String) (zero : Bool) (row : Dict String Cell) (l : Edge) :
    rowIds src dst zero row = .ok l ↔
      RowHolds src dst row (if zero then l.1 else l.1 + 1) (if zero then l.2 else l.2 + 1) := by
  unfold rowIds RowHolds
  simp only [bind, Except.bind, Dict.getItem_eq]
  cases h1 : row.get? src with
  | none => simp
  | some c1 =>
    cases h2 : c1.toInt with
    | error e =>
      simp only [h2, Option.some.injEq, reduceCtorEq, false_iff]
      rintro ⟨p, q, rfl, -, hp, -⟩
      rw [toInt_ok.2 hp] at h2
      cases h2
    | ok a =>
      cases h3 : row.get? dst with
      | none => simp [h2]
      | some c2 =>
        cases h4 : c2.toInt with
        | error e =>
          simp only [h2, h4, Option.some.injEq, reduceCtorEq, false_iff]
          rintro ⟨p, q, -, rfl, -, hq⟩
          rw [toInt_ok.2 hq] at h4
          cases h4
        | ok b =>
          obtain ⟨l1, l2⟩ := l
          simp only [h2, h4, pure, Except.pure, Except.ok.injEq, Option.some.injEq]
          constructor
          · intro h
            refine ⟨c1, c2, rfl, rfl, toInt_ok.1 ?_, toInt_ok.1 ?_⟩
            · cases zero <;> simp only [if_true, if_false, Prod.mk.injEq, Bool.false_eq_true] at h ⊢
              · rwa [show l1 + 1 = a by omega]
              · rwa [show l1 = a by omega]
            · cases zero <;> simp only [if_true, if_false, Prod.mk.injEq, Bool.false_eq_true] at h ⊢
              · rwa [show l2 + 1 = b by omega]
              · rwa [show l2 = b by omega]
          · rintro ⟨_, _, rfl, rfl, hp', hq'⟩
            have e1 := Except.ok.inj (h2.symm.trans (toInt_ok.2 hp'))
            have e2 := Except.ok.inj (h4.symm.trans (toInt_ok.2 hq'))
            cases zero <;> simp only [if_true, if_false, Prod.mk.injEq, Bool.false_eq_true] at e1 e2 ⊢
              <;> omega

/-- one link added to the state of the loop -/
def addLink (st : List Int × List Edge) (l : Edge) : List Int × List Edge :=
  (setAdd (setAdd st.1 l.1) l.2, if l ∈ st.2 ∨ l.swap ∈ st.2 then st.2 else st.2 ++ [l])

theorem extractStep_ok {src dst : String} {zero : Bool} {row : Dict String Cell} {l : Edge}
    (h : rowIds src dst zero row = .ok l) (st : List Int × List Edge) :
    extractStep src dst zero st row = .ok (addLink st l) := by
  obtain ⟨a, b⟩ := l
  unfold extractStep addLink
  rw [h]
  simp only [bind, Except.bind, Prod.swap]
  split_ifs <;> rfl

theorem extract_loop {src dst : String} {zero : Bool} {rows : List (Dict String Cell)}
    {links : List Edge} (h : List.Forall₂ (fun row l => rowIds src dst zero row = .ok l) rows links)
    (st : List Int × List Edge) :
    rows.foldlM (extractStep src dst zero) st = .ok (links.foldl addLink st) := by
  induction h generalizing st with
  | nil => rfl
  | cons hr _ ih =>
    rw [List.foldlM_cons, extractStep_ok hr]
    exact ih _

theorem extract_loop_ok {src dst : String} {zero : Bool} {rows : List (Dict String Cell)}
    {st st' : List Int × List Edge} (h : rows.foldlM (extractStep src dst zero) st = .ok st') :
    ∃ links, List.Forall₂ (fun row l => rowIds src dst zero row = .ok l) rows links := by
  induction rows generalizing st with
  | nil => exact ⟨[], .nil⟩
  | cons r rows ih =>
    rw [List.foldlM_cons] at h
    cases hr : rowIds src dst zero r with
    | error e =>
      simp only [extractStep, hr, bind, Except.bind] at h
      cases h
    | ok l =>
      rw [extractStep_ok hr] at h
      obtain ⟨ls, hls⟩ := ih h
      exact ⟨l :: ls, .cons hr hls⟩

theorem addLink_nodes (links : List Edge) (st : List Int × List Edge) (v : Int) :
    v ∈ (links.foldl addLink st).1 ↔ v ∈ st.1 ∨ ∃ l ∈ links, l.1 = v ∨ l.2 = v := by
  induction links generalizing st with
  | nil => simp
  | cons l links ih =>
    rw [List.foldl_cons, ih]
    simp only [addLink, mem_setAdd, List.mem_cons, exists_eq_or_imp, @eq_comm _ v]
    simp only [or_assoc]

theorem addLink_edges (links : List Edge) (st : List Int × List Edge) (e : Edge) :
    e ∈ (links.foldl addLink st).2 ↔
      e ∈ st.2 ∨ (e ∉ st.2 ∧ e.swap ∉ st.2 ∧ FirstSeen links e) := by
  induction links generalizing st with
  | nil => simp [FirstSeen]
  | cons l links ih =>
    rw [List.foldl_cons, ih]
    have hfs : FirstSeen (l :: links) e ↔ e = l ∨ (e ≠ l ∧ e.swap ≠ l ∧ FirstSeen links e) := by
      constructor
      · rintro ⟨pre, post, h, h1, h2⟩
        cases pre with
        | nil =>
          simp only [List.nil_append, List.cons.injEq] at h
          exact .inl h.1.symm
        | cons p pre =>
          simp only [List.cons_append, List.cons.injEq] at h
          obtain ⟨rfl, h⟩ := h
          simp only [List.mem_cons, not_or] at h1 h2
          exact .inr ⟨h1.1, h2.1, pre, post, h, h1.2, h2.2⟩
      · rintro (rfl | ⟨h1, h2, pre, post, h, h3, h4⟩)
        · exact ⟨[], links, rfl, by simp, by simp⟩
        · exact ⟨l :: pre, post, by simp [h], by simp [h1, h3], by simp [h2, h4]⟩
    rw [hfs]
    have hsw : ∀ x y : Edge, x.swap = y ↔ x = y.swap := by
      intro x y
      constructor
      · rintro rfl; simp
      · rintro rfl; simp
    simp only [addLink]
    by_cases hl : l ∈ st.2 ∨ l.swap ∈ st.2
    · rw [if_pos hl]
      constructor
      · rintro (h | ⟨h1, h2, h3⟩)
        · exact .inl h
        · refine .inr ⟨h1, h2, .inr ⟨?_, ?_, h3⟩⟩
          · rintro rfl
            exact hl.elim h1 h2
          · intro h
            rw [hsw] at h
            subst h
            rw [Prod.swap_swap] at h2
            exact hl.elim h2 h1
      · rintro (h | ⟨h1, h2, rfl | ⟨h3, h4, h5⟩⟩)
        · exact .inl h
        · exact absurd hl (by tauto)
        · exact .inr ⟨h1, h2, h5⟩
    · rw [if_neg hl]
      rw [not_or] at hl
      simp only [List.mem_append, List.mem_singleton]
      constructor
      · rintro ((h | rfl) | ⟨h1, h2, h3⟩)
        · exact .inl h
        · exact .inr ⟨hl.1, hl.2, .inl rfl⟩
        · rw [not_or] at h1 h2
          exact .inr ⟨h1.1, h2.1, .inr ⟨h1.2, h2.2, h3⟩⟩
      · rintro (h | ⟨h1, h2, rfl | ⟨h3, h4, h5⟩⟩)
        · exact .inl (.inl h)
        · exact .inl (.inr rfl)
        · exact .inr ⟨by tauto, by tauto, h5⟩

theorem addLink_noRepeats (links : List Edge) (st : List Int × List Edge) (h : NoRepeats st.2) :
    NoRepeats (links.foldl addLink st).2 := by
  induction links generalizing st with
  | nil => exact h
  | cons l links ih =>
    rw [List.foldl_cons]
    apply ih
    simp only [addLink]
    split_ifs with hl
    · exact h
    · rw [not_or] at hl
      unfold NoRepeats
      rw [List.pairwise_append]
      refine ⟨h, by simp, ?_⟩
      intro a ha b hb
      simp only [List.mem_singleton] at hb
      subst hb
      exact ⟨fun h => hl.1 (h ▸ ha), fun h => hl.2 (h ▸ ha)⟩

theorem sortedPairs_strict {l : List Edge} (h : l.Nodup) : StrictlySorted (sortedPairs l) := by
  have h1 := sortedPairs_pairwise l
  have h2 : (sortedPairs l).Nodup := (sortedPairs_perm l).nodup_iff.mpr h
  refine h1.imp₂ (fun a b hab hne => ?_) h2
  obtain ⟨a1, a2⟩ := a
  obtain ⟨b1, b2⟩ := b
  simp only [ne_eq, Prod.mk.injEq] at hab hne ⊢
  omega

theorem StrictlySorted.nodup {l : List Edge} (h : StrictlySorted l) : l.Nodup := by
  refine List.Pairwise.imp (fun {a b} hab => ?_) h
  rintro rfl
  omega

theorem sortedPairs_of_sorted {l : List Edge} (h : StrictlySorted l) : sortedPairs l = l := by
  refine List.Perm.eq_of_pairwise (le := fun a b : Edge => a.1 < b.1 ∨ (a.1 = b.1 ∧ a.2 ≤ b.2)) ?_
    (sortedPairs_pairwise l) (List.Pairwise.imp (fun {a b} hab => ?_) h) (sortedPairs_perm l)
  · rintro ⟨a1, a2⟩ ⟨b1, b2⟩ - - h1 h2
    simp only [Prod.mk.injEq] at *
    omega
  · omega

theorem NoRepeats.nodup {l : List Edge} (h : NoRepeats l) : l.Nodup :=
  List.Pairwise.imp (fun hab => hab.1) h

theorem nodesUpToMax_ok {nodes r : List Int} (h : nodesUpToMax nodes = .ok r) :
    ∃ m ∈ nodes, (∀ v ∈ nodes, v ≤ m) ∧ r = pyRange (m + 1) := by
  unfold nodesUpToMax at h
  cases hm : nodes.max? with
  | none => rw [hm] at h; cases h
  | some m =>
    rw [hm] at h
    rw [List.max?_eq_some_iff] at hm
    exact ⟨m, hm.1, hm.2, (Except.ok.inj h).symm⟩

theorem nodesUpToMax_nonempty {nodes : List Int} (h : nodes ≠ []) :
    ∃ m ∈ nodes, (∀ v ∈ nodes, v ≤ m) ∧ nodesUpToMax nodes = .ok (pyRange (m + 1)) := by
  unfold nodesUpToMax
  cases hm : nodes.max? with
  | none => exact absurd (List.max?_eq_none_iff.mp hm) h
  | some m =>
    rw [List.max?_eq_some_iff] at hm
    exact ⟨m, hm.1, hm.2, rfl⟩

theorem mem_pyRange (n v : Int) : v ∈ pyRange n ↔ 0 ≤ v ∧ v < n := by
  unfold pyRange
  simp only [List.mem_map, List.mem_range]
  constructor
  · rintro ⟨i, hi, rfl⟩
    omega
  · intro h
    exact ⟨v.toNat, by omega, by omega⟩

theorem length_pyRange (n : Int) : (pyRange n).length = n.toNat := by
  simp [pyRange]

end Pytspl
