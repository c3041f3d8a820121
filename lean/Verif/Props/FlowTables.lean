import Verif.Props.Datasets

/-!
# The transport flow for tables with texts and missing entries: C42
-/

namespace Pytspl

/-- the volume in the first row of the link `a -> b`, if there is one -/
def recordedVolume (t : Table) (a b : Int) : Option Cell :=
  (t.rows.find? fun row => decide (row.get? "From " = some (.num a) ∧ row.get? "To " = some (.num b))).bind
    fun row => row.get? "Volume "

/-- the flow of an edge from its two recorded volumes: forward minus backward, a link without row counting zero;
`IndexError` without a forward link, `TypeError` for a text, NaN (`none`) for a missing volume -/
def netOf : Option Cell → Option Cell → Py (Option ℚ)
  | none, _ => .error .indexError
  | some (.num v), none => .ok (some v)
  | some (.num v), some (.num w) => .ok (some (v - w))
  | some (.str _), _ => .error .typeError
  | some _, some (.str _) => .error .typeError
  | some .nan, _ => .ok none
  | some _, some .nan => .ok none

private theorem column_in {t : Table} {c : String} (hc : c ∈ t.cols) :
    ∃ l, t.column c = .ok l ∧ List.Forall₂ (fun row v => row.get? c = some v) t.rows l := by
  unfold Table.column
  rw [if_pos hc]
  cases h : t.rows.mapM fun r => Dict.getItem r c with
  | ok l => exact ⟨l, rfl, (mapM_eq_ok h).imp fun row v hv => Dict.getItem_ok.mp hv⟩
  | error e =>
    obtain ⟨row, hr, he⟩ := mapM_error h
    rw [Dict.getItem_error, Dict.get?_eq_none, t.rect row hr] at he
    exact absurd hc he.2

private theorem firstVolume_eq {t : Table} (hF : "From " ∈ t.cols) (hT : "To " ∈ t.cols) (hV : "Volume " ∈ t.cols)
    (a b : Int) : firstVolume t a b = match recordedVolume t a b with
      | some v => .ok v
      | none => .error .indexError := by
  obtain ⟨fs, e1, h1⟩ := column_in hF
  obtain ⟨ts, e2, h2⟩ := column_in hT
  obtain ⟨vs, e3, h3⟩ := column_in hV
  unfold firstVolume recordedVolume
  simp only [e1, e2, e3, bind, Except.bind]
  clear e1 e2 e3
  generalize t.rows = R at h1 h2 h3 ⊢
  induction h1 generalizing ts vs with
  | nil => cases h2; cases h3; rfl
  | @cons row f R fs hf _ ih =>
    cases h2 with
    | @cons _ g _ ts ht h2 =>
      cases h3 with
      | @cons _ v _ vs hv h3 =>
        simp only [List.zip_cons_cons, List.filter_cons, List.find?_cons, hf, ht, Option.some.injEq]
        by_cases hr : f = .num (a : ℚ) ∧ g = .num (b : ℚ)
        · simp [hr, firstItem, hv]
        · simp only [hr, decide_false, Bool.false_eq_true, if_false]
          exact ih ts vs h2 h3

private theorem flowStep_eq {t : Table} (hF : "From " ∈ t.cols) (hT : "To " ∈ t.cols) (hV : "Volume " ∈ t.cols)
    (st : Dict Edge (Option ℚ) × List Edge) (e : Edge) (hv : (e.1 + 1, e.2 + 1) ∉ st.2) :
    flowStep t st e =
      match netOf (recordedVolume t (e.1 + 1) (e.2 + 1)) (recordedVolume t (e.2 + 1) (e.1 + 1)) with
      | .ok v => .ok (st.1.set e v, setAdd st.2 e)
      | .error x => .error x := by
  unfold flowStep
  simp only [if_neg hv, firstVolume_eq hF hT hV]
  rcases recordedVolume t (e.1 + 1) (e.2 + 1) with _ | ⟨v | s | -⟩ <;>
    rcases recordedVolume t (e.2 + 1) (e.1 + 1) with _ | ⟨w | s' | -⟩ <;>
    simp [bind, Except.bind, pure, Except.pure, netOf, Cell.sub]

/-- C42, every table: for a strictly sorted edge list and a non-empty table with the three columns the edges are judged
in order; the flow lists each with its net volume, and the first edge without one decides the exception. -/
theorem C42_every_table (t : Table) (edges : List Edge) (hne : t.rows ≠ []) (hF : "From " ∈ t.cols)
    (hT : "To " ∈ t.cols) (hV : "Volume " ∈ t.cols) (hs : StrictlySorted edges) :
    loadFlowTransportation (some t) edges = edges.mapM fun e =>
      (netOf (recordedVolume t (e.1 + 1) (e.2 + 1)) (recordedVolume t (e.2 + 1) (e.1 + 1))).map fun v => (e, v) := by
  have key : ∀ (edges : List Edge) (d : Dict Edge (Option ℚ)) (vis : List Edge), StrictlySorted (vis ++ edges) →
      Dict.keys d = vis →
      (edges.foldlM (flowStep t) (d, vis) >>= fun p => pure p.1) =
        (edges.mapM fun e => (netOf (recordedVolume t (e.1 + 1) (e.2 + 1))
          (recordedVolume t (e.2 + 1) (e.1 + 1))).map fun v => (e, v)).map fun l => d ++ l := by
    intro edges
    induction edges with
    | nil => intro d vis _ _; simp [bind, Except.bind, pure, Except.pure, Except.map]
    | cons e edges ih =>
      intro d vis hs hk
      have hp := (List.pairwise_append.mp hs).2.2
      have hv : (e.1 + 1, e.2 + 1) ∉ vis := by
        intro hm
        have := hp _ hm e (by simp)
        simp only at this
        omega
      have hnot : e ∉ vis := by
        intro hm
        have := hp _ hm e (by simp)
        omega
      rw [List.foldlM_cons, flowStep_eq hF hT hV _ _ hv, List.mapM_cons]
      cases netOf (recordedVolume t (e.1 + 1) (e.2 + 1)) (recordedVolume t (e.2 + 1) (e.1 + 1)) with
      | error x => rfl
      | ok v =>
        simp only
        rw [Dict.set_of_not_mem (by rw [hk]; exact hnot), show setAdd vis e = vis ++ [e] by simp [setAdd, hnot]]
        have := ih (d ++ [(e, v)]) (vis ++ [e]) (by simpa using hs) (by
          simp only [Dict.keys, List.map_append, List.map_cons, List.map_nil] at hk ⊢
          rw [hk])
        simp only [bind, Except.bind, Except.map] at this ⊢
        rw [this]
        generalize List.mapM (m := Py) (β := Edge × Option ℚ) _ edges = r
        cases r with
        | error x => rfl
        | ok l => simp [pure, Except.pure]
  have hc : t.cols ≠ [] := fun h => by rw [h] at hF; cases hF
  have hload : loadFlowTransportation (some t) edges =
      (edges.foldlM (flowStep t) ([], []) >>= fun p => pure p.1) := by
    unfold loadFlowTransportation readFlow
    simp only
    rw [if_neg (by simp [hne, hc])]
  rw [hload, key edges [] [] (by simpa using hs) rfl]
  cases (edges.mapM fun e => (netOf (recordedVolume t (e.1 + 1) (e.2 + 1))
    (recordedVolume t (e.2 + 1) (e.1 + 1))).map fun v => (e, v) : Py (List (Edge × Option ℚ))) <;> rfl

/-- C42: what loading a transportation dataset returns, for every flow table: every edge of the complex, in order, with
its net volume, which is NaN where a volume is missing. -/
theorem C42_loaded_every_table (K : Type) [CommRing K] (d : DataDir) (name : String)
    (hn : name ≠ "paper" ∧ name ≠ "forex" ∧ name ≠ "lastfm-1k-artist" ∧ name ≠ "wsn" ∧ name ≠ "chicago-sketch")
    (r : Loaded K) (h : loadDataset K d name = .ok r) (t : Table)
    (hf : d.table ("transportation_networks/" ++ name ++ "/" ++ name ++ "_flow.tntp") = some t) (hne : t.rows ≠ [])
    (hF : "From " ∈ t.cols) (hT : "To " ∈ t.cols) (hV : "Volume " ∈ t.cols) :
    ∃ f, r.flow = .volumes f ∧ List.Forall₂ (fun e p => p.1 = e ∧
      netOf (recordedVolume t (e.1 + 1) (e.2 + 1)) (recordedVolume t (e.2 + 1) (e.1 + 1)) = .ok p.2) r.sc.edges f := by
  obtain ⟨hs, f, h1, h2⟩ := transportation_flow K d name hn r h
  unfold tntpPath at h2
  rw [hf, C42_every_table t r.sc.edges hne hF hT hV hs] at h2
  refine ⟨f, h1, (mapM_eq_ok h2).imp fun e p hp => ?_⟩
  cases hx : netOf (recordedVolume t (e.1 + 1) (e.2 + 1)) (recordedVolume t (e.2 + 1) (e.1 + 1)) with
  | error x => rw [hx] at hp; cases hp
  | ok v => rw [hx] at hp; cases hp; exact ⟨rfl, rfl⟩

/-- a table in which the volume of one link is missing and that of another is a text -/
def gappyFlow : Table where
  cols := ["From ", "To ", "Volume "]
  rows := [[("From ", .num 1), ("To ", .num 2), ("Volume ", .num 10)],
    [("From ", .num 2), ("To ", .num 1), ("Volume ", .num 4)],
    [("From ", .num 2), ("To ", .num 3), ("Volume ", .nan)], [("From ", .num 3), ("To ", .num 4), ("Volume ", .str "-")]]
  rect := by decide

example : loadFlowTransportation (some gappyFlow) [(0, 1)] = .ok [((0, 1), some 6)] ∧
    loadFlowTransportation (some gappyFlow) [(0, 1), (0, 2)] = .error .indexError ∧
    loadFlowTransportation (some gappyFlow) [(0, 1), (1, 2)] = .ok [((0, 1), some 6), ((1, 2), none)] ∧
    loadFlowTransportation (some gappyFlow) [(0, 1), (2, 3)] = .error .typeError := by
  refine ⟨?_, ?_, ?_, ?_⟩ <;>
  · rw [C42_every_table gappyFlow _ (by simp [gappyFlow]) (by decide) (by decide) (by decide) (by decide)]
    decide +kernel

/-- loading the network `toy` with this table: the flow of the second edge is NaN -/
example : ∃ (d : DataDir) (r : Loaded ℤ), d.table "transportation_networks/toy/toy_flow.tntp" = some gappyFlow ∧
    loadDataset ℤ d "toy" = .ok r ∧ r.flow = .volumes [((0, 1), some 6), ((1, 2), none)] := by
  obtain ⟨d, hd⟩ : ∃ d : DataDir, d = { sampleDir with table := fun p =>
    if p = "transportation_networks/toy/toy_flow.tntp" then some gappyFlow else sampleDir.table p } := ⟨_, rfl⟩
  have h : (match loadTransportationDataset ℤ d "toy" with
    | .ok r => match r.flow with
      | .volumes f => decide (f = [((0, 1), some 6), ((1, 2), none)] ∧ r.sc.nodes.length = r.coordinates.length)
      | _ => false
    | .error _ => false) = true := by subst hd; decide +kernel
  cases hr : loadTransportationDataset ℤ d "toy" with
  | error e => rw [hr] at h; cases h
  | ok r =>
    rw [hr] at h
    cases hf : r.flow with
    | arr y => simp only [hf] at h; cases h
    | dict y => simp only [hf] at h; cases h
    | volumes f =>
      simp only [hf] at h
      have h' := of_decide_eq_true h
      refine ⟨d, r, by rw [hd]; rfl, (C43_dispatch ℤ d "toy" (by simp [hd, sampleDir])).2.1 r hr h'.2, ?_⟩
      rw [hf, h'.1]

end Pytspl
