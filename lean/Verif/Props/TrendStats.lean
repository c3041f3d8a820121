import Verif.Props.FilterCalls
import Verif.Props.TrendFilter

/-!
# C110: the statistics a trend filter records
-/

namespace Pytspl

open Matrix

/-- the mean of a list -/
noncomputable def listMean (l : List ℝ) : ℝ := l.sum / l.length

/-- Pearson's correlation coefficient -/
noncomputable def pearson {n : ℕ} (a b : Fin n → ℝ) : ℝ :=
  (∑ i, (a i - (∑ k, a k) / n) * (b i - (∑ k, b k) / n)) /
    (√(∑ i, (a i - (∑ k, a k) / n) ^ 2) * √(∑ i, (b i - (∑ k, b k) / n) ^ 2))

/-- the Euclidean length of a vector -/
noncomputable def euclid {n : ℕ} (v : Fin n → ℝ) : ℝ := √(∑ i, v i ^ 2)

/-- the flow a call is about -/
def TrendCall.flow {E : ℕ} : TrendCall E → Fin E → ℝ
  | .l2 flow .. => flow
  | .l1 flow .. => flow
  | .interpolate _ flow .. => flow

/-- the component a call asks for -/
def TrendCall.component {E : ℕ} : TrendCall E → String
  | .l2 _ c .. => c
  | .l1 _ c .. => c
  | .interpolate _ _ c .. => c

/-- the number of realisations a call asks for -/
def TrendCall.realisations {E : ℕ} : TrendCall E → ℕ
  | .l2 _ _ n .. => n
  | .l1 _ _ n .. => n
  | .interpolate _ _ _ _ n .. => n

private theorem bind_ok {α β : Type} {x : Py α} {f : α → Py β} {r : β} (h : (x >>= f) = .ok r) :
    ∃ a, x = .ok a ∧ f a = .ok r := by
  cases x with
  | error e => cases h
  | ok a => exact ⟨a, rfl, h⟩

private theorem mapM_all {α β : Type} {l : List α} {f : α → Py β} {r : List β} (P : β → Prop) (h : l.mapM f = .ok r)
    (hP : ∀ a ∈ l, ∀ b, f a = .ok b → P b) : ∀ b ∈ r, P b := by
  have := mapM_eq_ok h
  clear h
  induction this with
  | nil => simp
  | cons h1 _ ih =>
    intro b hb
    rcases List.mem_cons.1 hb with rfl | hb
    · exact hP _ (by simp) _ h1
    · exact ih (fun a ha => hP a (by simp [ha])) b hb

private theorem norm2_eq_euclid {n : ℕ} (v : Fin n → ℝ) : norm2 v = euclid v := by
  unfold norm2 euclid
  congr 1
  simp [dotProduct, sq]

private theorem npMean_some (l : List ℝ) (hl : l ≠ []) : npMean (l.map some) = some (listMean l) := by
  have h : (l.map some).mapM id = some l := by
    clear hl
    induction l with
    | nil => rfl
    | cons a l ih => simp [ih]
  unfold npMean
  rw [h]
  simp [fdiv, hl, listMean]

private theorem npMean_none {l : List (Option ℝ)} (h : l = [] ∨ none ∈ l) : npMean l = none := by
  rcases h with rfl | h
  · simp [npMean, fdiv]
  · have : l.mapM id = none := by
      induction l with
      | nil => cases h
      | cons a l ih =>
        rw [List.mapM_cons]
        cases a with
        | none => rfl
        | some a =>
          have := ih (by simpa using h)
          rw [this]; rfl
    unfold npMean
    rw [this]; rfl

variable {sc : SC ℝ}

/-- every successful call commits a grid of passes -/
private theorem run_grid (cvx : CvxSolver) (c : TrendCall sc.E) (st st' : TrendHistory sc.E)
    (h : c.run cvx sc st = (.ok (), st')) : ∃ H grid, st' = sc.trendHistory H grid ∧
      (∀ row ∈ grid, row.length = c.realisations ∧
        ∀ p ∈ row, sc.trendPass c.component c.flow p.x = .ok p) := by
  have pass_x : ∀ {component : String} {flow x : Fin sc.E → ℝ} {p : TrendPass sc.E},
      sc.trendPass component flow x = .ok p → sc.trendPass component flow p.x = .ok p := by
    intro component flow x p hp
    have hp' := hp
    unfold SC.trendPass at hp'
    obtain ⟨cm, -, h2⟩ := bind_ok hp'
    have : p.x = x := by cases h2; rfl
    rw [this]; exact hp
  have commit : ∀ {r : Py (TrendHistory sc.E)}, SC.commitHistory st r = (.ok (), st') → r = .ok st' := by
    intro r hr
    cases r with
    | error e => cases hr
    | ok a => cases hr; rfl
  have rowlen : ∀ {β : Type} {n : ℕ} {f : ℕ → Py β} {row : List β}, (List.range n).mapM f = .ok row →
      row.length = n := by
    intro β n f row hr
    have := (mapM_eq_ok hr).length_eq
    simpa using this.symm
  cases c with
  | l2 flow component num snr mu noise =>
    have hd := commit h
    unfold SC.l2Design at hd
    obtain ⟨_, -, hd⟩ := bind_ok hd
    obtain ⟨grid, hg, hd⟩ := bind_ok hd
    cases hl : grid.flatten.getLast? with
    | none => rw [hl] at hd; cases hd
    | some last =>
      rw [hl] at hd
      cases hd
      refine ⟨_, _, rfl, fun row hrow => ?_⟩
      obtain ⟨row', hrow', rfl⟩ := List.mem_map.1 hrow
      have hr : row'.length = num ∧ ∀ q ∈ row', sc.trendPass component flow q.2.x = .ok q.2 :=
        mapM_all (fun row' => row'.length = num ∧ ∀ q ∈ row', sc.trendPass component flow q.2.x = .ok q.2) hg
          (fun a _ b hb => ⟨rowlen hb, mapM_all _ hb (fun j _ q hq => by
            obtain ⟨H, -, hq⟩ := bind_ok hq
            obtain ⟨p, hp, hq⟩ := bind_ok hq
            cases hq
            exact pass_x hp)⟩) row' hrow'
      refine ⟨by rw [List.length_map]; exact hr.1, fun p hp => ?_⟩
      obtain ⟨q, hq, rfl⟩ := List.mem_map.1 hp
      exact hr.2 q hq
  | l1 flow component num snr order mu noise =>
    have hd := commit h
    unfold SC.l1Design at hd
    obtain ⟨_, -, hd⟩ := bind_ok hd
    obtain ⟨S, -, hd⟩ := bind_ok hd
    obtain ⟨grid, hg, hd⟩ := bind_ok hd
    cases hd
    refine ⟨_, _, rfl, ?_⟩
    exact mapM_all (fun row => row.length = num ∧ ∀ p ∈ row, sc.trendPass component flow p.x = .ok p) hg
      (fun a _ b hb => ⟨rowlen hb, mapM_all _ hb (fun j _ q hq => by
        obtain ⟨x, -, hq⟩ := bind_ok hq
        exact pass_x hq)⟩)
  | interpolate sampler flow component ratio num order mu =>
    have hd := commit h
    unfold SC.interpolationDesign at hd
    obtain ⟨_, -, hd⟩ := bind_ok hd
    obtain ⟨S, -, hd⟩ := bind_ok hd
    obtain ⟨grid, hg, hd⟩ := bind_ok hd
    cases hd
    refine ⟨_, _, rfl, ?_⟩
    exact mapM_all (fun row => row.length = num ∧ ∀ p ∈ row, sc.trendPass component flow p.x = .ok p) hg
      (fun a _ b hb => ⟨rowlen hb, mapM_all _ hb (fun j _ q hq => by
        obtain ⟨obs, -, hq⟩ := bind_ok hq
        obtain ⟨x, -, hq⟩ := bind_ok hq
        exact pass_x hq)⟩)

private theorem pass_parts {component : String} {flow : Fin sc.E → ℝ} {p : TrendPass sc.E}
    (h : sc.trendPass component flow p.x = .ok p) :
    p.err = calculateErrorNRMSE p.x flow ∧ p.corr = calculateCorrelation flow p.x ∧
    (component = "divergence" → p.comp = norm2 (sc.getDivergence p.x)) ∧
    (component = "curl" → p.comp = norm2 (sc.getCurl p.x)) := by
  unfold SC.trendPass at h
  obtain ⟨cm, h1, h2⟩ := bind_ok h
  have e := Except.ok.inj h2
  have e1 := congrArg TrendPass.err e
  have e2 := congrArg TrendPass.corr e
  have e3 : cm = p.comp := congrArg TrendPass.comp e
  refine ⟨e1.symm, e2.symm, fun hc => ?_, fun hc => ?_⟩
  · rw [SC.componentNorm, if_pos hc] at h1
    rw [← e3]
    exact (Except.ok.inj h1).symm
  · rw [SC.componentNorm, if_neg (by rw [hc]; decide), if_pos hc] at h1
    rw [← e3]
    exact (Except.ok.inj h1).symm

private theorem corr_pearson {n : ℕ} (a b : Fin n → ℝ) (ha : ∃ i j, a i ≠ a j) (hb : ∃ i j, b i ≠ b j) :
    calculateCorrelation a b = some (pearson a b) := by
  obtain ⟨c, hc⟩ := (C91_defined a b).2 ⟨ha, hb⟩
  rw [hc]
  unfold calculateCorrelation fdiv at hc
  simp only at hc
  split_ifs at hc with h0
  rw [← hc, norm2_eq_euclid, norm2_eq_euclid]
  rfl

/-- C110: a successful call of any of the three methods records, per noise level or sampling ratio, the mean over the
realisations of the relative error of the stored flows against the given flow, of the length of their divergence
(curl), and of their correlation with the given flow.  Without realisations all three are nan, and so is the error
when the given flow is zero. -/
theorem C110_statistics (cvx : CvxSolver) (c : TrendCall sc.E) (st st' : TrendHistory sc.E)
    (h : c.run cvx sc st = (.ok (), st')) :
    ∃ (rows : List (List (Fin sc.E → ℝ))) (errs comps corrs : List (Option ℝ)),
      st'.frequencyResponses = some rows ∧ st'.errors = some errs ∧ st'.componentFlow = some comps ∧
      st'.correlations = some corrs ∧
      errs.length = rows.length ∧ comps.length = rows.length ∧ corrs.length = rows.length ∧
      ∀ (i : ℕ) (row : List (Fin sc.E → ℝ)), rows[i]? = some row → row.length = c.realisations ∧
        (0 < c.realisations →
          (c.flow ≠ 0 → errs[i]? = some (some (listMean (row.map fun x => euclid (x - c.flow) / euclid c.flow)))) ∧
          (c.component = "divergence" →
            comps[i]? = some (some (listMean (row.map fun x => euclid (sc.getDivergence x))))) ∧
          (c.component = "curl" → comps[i]? = some (some (listMean (row.map fun x => euclid (sc.getCurl x))))) ∧
          ((∃ k l, c.flow k ≠ c.flow l) → (∀ x ∈ row, ∃ k l, x k ≠ x l) →
            corrs[i]? = some (some (listMean (row.map fun x => pearson c.flow x)))) ∧
          (c.flow = 0 → errs[i]? = some none)) ∧
        (c.realisations = 0 → errs[i]? = some none ∧ comps[i]? = some none ∧ corrs[i]? = some none) := by
  obtain ⟨H, grid, rfl, hg⟩ := run_grid cvx c st st' h
  refine ⟨_, _, _, _, rfl, rfl, rfl, rfl, by simp, by simp, by simp, fun i row hi => ?_⟩
  rw [List.getElem?_map] at hi
  obtain ⟨ps, hps, rfl⟩ := Option.map_eq_some_iff.1 hi
  obtain ⟨hlen, hp⟩ := hg ps (List.mem_of_getElem? hps)
  have hp' := fun p hp0 => pass_parts (hp p hp0)
  have mean : ∀ (val : TrendPass sc.E → Option ℝ) (w : (Fin sc.E → ℝ) → ℝ), ps ≠ [] →
      (∀ p ∈ ps, val p = some (w p.x)) → npMean (ps.map val) = some (listMean ((ps.map (·.x)).map w)) := by
    intro val w hne hv
    rw [← npMean_some _ (by simpa using hne)]
    congr 1
    rw [List.map_map, List.map_map]
    exact List.map_congr_left fun p hp0 => hv p hp0
  refine ⟨by simpa using hlen, fun hpos => ?_, fun h0 => ?_⟩
  · have hne : ps ≠ [] := by
      rintro rfl
      rw [List.length_nil] at hlen
      omega
    simp only [List.getElem?_map, hps, Option.map_some, Option.some.injEq]
    refine ⟨fun hf => ?_, fun hc => ?_, fun hc => ?_, fun hf hx => ?_, fun hf => ?_⟩
    · refine mean _ _ hne fun p hp0 => ?_
      rw [(hp' p hp0).1, calculateErrorNRMSE, fdiv, if_neg (fun h0 => hf (norm2_eq_zero.1 h0)), norm2_eq_euclid,
        norm2_eq_euclid]
    · refine mean _ _ hne fun p hp0 => ?_
      rw [(hp' p hp0).2.2.1 hc, norm2_eq_euclid]
    · refine mean _ _ hne fun p hp0 => ?_
      rw [(hp' p hp0).2.2.2 hc, norm2_eq_euclid]
    · refine mean _ _ hne fun p hp0 => ?_
      rw [(hp' p hp0).2.1, corr_pearson _ _ hf (hx _ (List.mem_map_of_mem hp0))]
    · apply npMean_none
      right
      obtain ⟨p, hp0⟩ := List.exists_mem_of_ne_nil ps hne
      refine List.mem_map.2 ⟨p, hp0, ?_⟩
      rw [(hp' p hp0).1, calculateErrorNRMSE, fdiv, if_pos]
      rw [hf]
      exact norm2_eq_zero.2 rfl
  · have hnil : ps = [] := List.length_eq_zero_iff.1 (hlen.trans h0)
    subst hnil
    simp only [List.getElem?_map, hps, Option.map_some, List.map_nil]
    rw [npMean_none (Or.inl rfl)]
    simp

/-- the hypothesis is met by every call that returns, for instance the l1 filter on the sample -/
example (cvx : CvxSolver) (st : TrendHistory twoTri.E) (noise : ℕ → ℕ → Fin twoTri.E → ℝ) :
    ∃ st', (TrendCall.l1 (fun i => (i.val : ℝ)) "curl" 3 [0, 10] 1 (1 / 2) noise).run cvx twoTri st = (.ok (), st') := by
  obtain ⟨st', m, S, h, -⟩ := C68_minimiser cvx twoTri (by decide +kernel) st (fun i => (i.val : ℝ)) "curl" (Or.inr rfl) 3
    [0, 10] 1 (1 / 2) (by norm_num) noise
  exact ⟨st', h⟩

end Pytspl
