import Verif.Lemmas.PlotLib
import Verif.Lemmas.Concrete
import Verif.Lemmas.Construction
import Mathlib.Tactic.Linarith
import Mathlib.Tactic.FieldSimp

/-!
# Properties of the plots: C82, C83, C84, C86, C92, C94, C95, C97
-/

namespace Pytspl

variable {g : GraphLib} {p : SCPlot} {ax cur : ℕ}

/-! ## C82: edge colours -/

private theorem values_idxOf (d : Dict Edge ℝ) (e : Edge) : (Dict.values d)[(Dict.keys d).idxOf e]? = d.get? e := by
  induction d with
  | nil => rfl
  | cons q d ih =>
    obtain ⟨k, v⟩ := q
    by_cases h : k = e
    · subst h
      simp [Dict.values, Dict.keys, Dict.get?]
    · have h1 : (Dict.keys ((k, v) :: d)).idxOf e = (Dict.keys d).idxOf e + 1 := by
        simp only [Dict.keys, List.map_cons]
        exact List.idxOf_cons_ne _ h
      rw [h1]
      simp only [Dict.values, List.map_cons, List.getElem?_cons_succ, Dict.get?, if_neg h]
      exact ih

private theorem listIndex_idxOf {edges : List Edge} {e : Edge} (he : e ∈ edges) :
    listIndex edges e = .ok ⟨edges.idxOf e, List.idxOf_lt_length_of_mem he⟩ := by
  obtain ⟨k, hk⟩ := listIndex_of_mem he
  rw [hk]
  obtain ⟨h1, h2⟩ := listIndex_ok_iff.1 hk
  congr 1
  ext
  refine le_antisymm ?_ ?_
  · by_contra h
    push Not at h
    exact h2 ⟨edges.idxOf e, List.idxOf_lt_length_of_mem he⟩ h (List.getElem_idxOf _)
  · by_contra h
    push Not at h
    have h3 := List.not_of_lt_findIdx (p := (· == e)) h
    exact beq_eq_false_iff_ne.1 h3 h1

private theorem colorOf_eq {edges : List Edge} {l : List ℝ} {e : Edge} (he : e ∈ edges) {v : ℝ}
    (hv : l[edges.idxOf e]? = some v) : colorOf edges l e = .ok (.num v) := by
  have hi := listIndex_idxOf he
  unfold colorOf
  simp only [hi, bind, Except.bind, hv]
  rfl

private theorem colorOf_short {edges : List Edge} {l : List ℝ} {e : Edge} (he : e ∈ edges)
    (hv : l[edges.idxOf e]? = none) : colorOf edges l e = .error .indexError := by
  have hi := listIndex_idxOf he
  unfold colorOf
  simp only [hi, bind, Except.bind, hv]

private theorem dict_get {d : Dict Edge ℝ} {e : Edge} (he : e ∈ Dict.keys d) : ∃ v, d.get? e = some v := by
  cases h : d.get? e with
  | none => exact absurd he (Dict.get?_eq_none.1 h)
  | some v => exact ⟨v, rfl⟩

theorem dict_color {d : Dict Edge ℝ} {e : Edge} (he : e ∈ Dict.keys d) :
    ∃ c, colorOf (Dict.keys d) (Dict.values d) e = .ok c := by
  obtain ⟨v, hv⟩ := dict_get he
  exact ⟨_, colorOf_eq he ((values_idxOf d e).trans hv)⟩

private theorem order_perm (g : GraphLib) {es : List Edge} (h : es.Nodup) : (g.order es).Perm es :=
  (List.perm_ext_iff_of_nodup (g.order_nodup es) h).2 fun e => g.mem_order es e

private theorem zip_map_self {α β : Type} (l : List α) (f : α → β) : l.zip (l.map f) = l.map fun a => (a, f a) := by
  induction l with
  | nil => rfl
  | cons a l ih => simp [ih]

private theorem edges_part {sc : SC ℝ} {pos : Dict Int Pt} {flow : Option (Dict Edge ℝ)} {dir : Bool} {kw : Kw}
    {c0 c1 : List Cmd} (h0 : ∃ a b a' b', c0 = [⟨ax, .xlim a b, []⟩, ⟨ax, .ylim a' b', []⟩])
    (h : drawEdgesOn g sc pos ax flow dir kw = .ok c1) :
    ∃ (edges : List Edge) (color : KwVal) (colors : List KwVal),
      (∀ d, flow = some d → edges = Dict.keys d ∧ color = .nums (Dict.values d)) ∧
      (flow = none → edges = sc.edges ∧ color = kw.arg "edge_color" (.str "lightblue")) ∧
      edgeColors (g.order edges) edges color = .ok colors ∧
      (c0 ++ c1).filterMap Cmd.edge? = (g.order edges).zip colors ∧
      ∀ c ∈ c0 ++ c1, ∀ e a b col, c.shape = .edge e a b col → pos.get? e.1 = some a ∧ pos.get? e.2 = some b := by
  obtain ⟨a, b, a', b', rfl⟩ := h0
  obtain ⟨edges, color, cm, lim, colors, es, ts, h1, h2, -, h3, h4, h5, h6, rfl⟩ := drawEdgesOn_ok h
  have hes : es.filterMap Cmd.edge? = (g.order edges).zip colors := by
    rw [mapM_filterMap Cmd.edge? some h5, List.filterMap_some]
    intro x c hc
    obtain ⟨a, b, -, -, rfl⟩ := edgeCmd_ok hc
    rfl
  have hts : ts.filterMap Cmd.edge? = [] := by
    rw [mapM_filterMap Cmd.edge? (fun _ => none) h6, List.filterMap_none]
    intro x c hc
    obtain ⟨i, j, k, a, b, d, -, -, -, -, rfl⟩ := triangleCmd_ok hc
    rfl
  have hlim : lim.2.2.filterMap Cmd.edge? = [] ∧ ∀ c ∈ lim.2.2, ∀ e a b col, c.shape ≠ .edge e a b col := by
    rcases colorLimits_ok h3 with ⟨e, -⟩ | ⟨e, -⟩
    · rw [e]; exact ⟨rfl, by simp⟩
    · rw [e]
      refine ⟨rfl, fun c hc e a b col => ?_⟩
      rw [List.mem_singleton] at hc
      subst hc
      simp
  refine ⟨edges, color, colors, h1, h2, h4, ?_, fun c hc e a b col hs => ?_⟩
  · rw [List.filterMap_append, List.filterMap_append, List.filterMap_append, hes, hts, hlim.1, List.nil_append, List.append_nil]
    rfl
  · simp only [List.mem_append, List.mem_cons, List.not_mem_nil, or_false] at hc
    rcases hc with (rfl | rfl) | (hc | hc) | hc
    · cases hs
    · cases hs
    · exact absurd hs (hlim.2 c hc _ _ _ _)
    · refine mapM_forall (fun c : Cmd => ∀ e a b col, c.shape = .edge e a b col →
        pos.get? e.1 = some a ∧ pos.get? e.2 = some b) h5 ?_ c hc _ _ _ _ hs
      intro x c _ hxc e a b col hs
      obtain ⟨a', b', h1, h2, rfl⟩ := edgeCmd_ok hxc
      cases hs
      exact ⟨h1, h2⟩
    · refine mapM_forall (fun c : Cmd => ∀ e a b col, c.shape = .edge e a b col →
        pos.get? e.1 = some a ∧ pos.get? e.2 = some b) h6 ?_ c hc _ _ _ _ hs
      intro x c _ hxc e a b col hs
      obtain ⟨i, j, k, a', b', d, -, -, -, -, rfl⟩ := triangleCmd_ok hxc
      cases hs

/-- C82: with a flow dictionary, whatever order the graph library lists the edges in, every edge of the
dictionary is drawn exactly once, with its own flow value, between the positions of its ends. -/
theorem C82_flow_colors (d : Dict Edge ℝ) (hd : (Dict.keys d).Nodup) (dir : Bool) (kw : Kw) (cmds : List Cmd)
    (h : (p.drawScEdges g ax (some d) dir kw).1 = .ok cmds) :
    (cmds.filterMap Cmd.edge?).Perm (d.map fun q => (q.1, KwVal.num q.2)) ∧
    ∃ pos, (p.drawScEdges g ax (some d) dir kw).2.pos = some pos ∧
      ∀ c ∈ cmds, ∀ e a b col, c.shape = .edge e a b col → pos.get? e.1 = some a ∧ pos.get? e.2 = some b := by
  obtain ⟨pos, c0, c1, h1, h2, -, h3, rfl⟩ := drawScEdges_ok h
  obtain ⟨edges, color, colors, e1, -, e3, e4, e5⟩ := edges_part h2 h3
  refine ⟨?_, pos, by rw [← h1]; exact congrArg SCPlot.pos initAxes_snd, e5⟩
  obtain ⟨rfl, rfl⟩ := e1 d rfl
  rw [e4]
  have hcol : edgeColors (g.order (Dict.keys d)) (Dict.keys d) (.nums (Dict.values d)) =
      .ok ((g.order (Dict.keys d)).map fun e => KwVal.num ((d.get? e).getD 0)) := by
    refine mapM_ok _ _ _ fun e he => ?_
    have he' := (g.mem_order _ _).1 he
    obtain ⟨v, hv⟩ := dict_get he'
    rw [hv]
    exact colorOf_eq he' ((values_idxOf d e).trans hv)
  rw [hcol] at e3
  have e3 := (Except.ok.inj e3).symm
  subst e3
  rw [zip_map_self]
  refine ((order_perm g hd).map _).trans (List.Perm.of_eq ?_)
  unfold Dict.keys
  rw [List.map_map]
  refine List.map_congr_left fun q hq => ?_
  simp only [Function.comp_apply]
  rw [Dict.get?_of_mem hd (show (q.1, q.2) ∈ d from hq)]
  rfl

/-- C82: without a flow and with a named colour, every edge of the complex is drawn once in that colour. -/
theorem C82_plain (dir : Bool) (kw : Kw) (cmds : List Cmd) (hc : (kw.arg "edge_color" (.str "lightblue")).numbers = none)
    (h : (p.drawScEdges g ax none dir kw).1 = .ok cmds) :
    (cmds.filterMap Cmd.edge?).Nodup ∧
    ∀ x, x ∈ cmds.filterMap Cmd.edge? ↔ x.1 ∈ p.sc.edges ∧ x.2 = kw.arg "edge_color" (.str "lightblue") := by
  obtain ⟨pos, c0, c1, h1, h2, -, h3, rfl⟩ := drawScEdges_ok h
  obtain ⟨edges, color, colors, -, e2, e3, e4, -⟩ := edges_part h2 h3
  obtain ⟨rfl, rfl⟩ := e2 rfl
  unfold edgeColors at e3
  rw [hc] at e3
  have e3 := (Except.ok.inj e3).symm
  subst e3
  rw [e4, zip_map_self]
  constructor
  · exact (g.order_nodup _).map fun a b hab => congrArg Prod.fst hab
  · rintro ⟨e, c⟩
    simp only [List.mem_map, Prod.mk.injEq]
    constructor
    · rintro ⟨a, ha, rfl, rfl⟩
      exact ⟨(g.mem_order _ _).1 ha, rfl⟩
    · rintro ⟨ha, rfl⟩
      exact ⟨e, (g.mem_order _ _).2 ha, rfl, rfl⟩

/-- C82: without a flow and with a list of numbers as colour, the `i`-th edge of the complex gets the `i`-th
number; a list that is too short raises `IndexError`. -/
theorem C82_color_list (hn : p.sc.edges.Nodup) (l : List ℝ) (dir : Bool) (kw : Kw)
    (hc : kw.get? "edge_color" = some (.nums l)) :
    (∀ cmds, (p.drawScEdges g ax none dir kw).1 = .ok cmds →
      p.sc.E ≤ l.length ∧ (cmds.filterMap Cmd.edge?).Perm ((p.sc.edges.zip l).map fun q => (q.1, KwVal.num q.2))) ∧
    (∀ pos, p.pos = some pos → pos ≠ [] → l ≠ [] → l.length < p.sc.E →
      (∀ v, kw.get? "edge_cmap" = some v → v = .none ∨ ∃ s, v = .obj s) →
      (p.drawScEdges g ax none dir kw).1 = .error .indexError) := by
  have harg : kw.arg "edge_color" (.str "lightblue") = .nums l := by rw [Kw.arg, hc]; rfl
  have hidx : ∀ (i : ℕ) (hi : i < p.sc.edges.length), p.sc.edges.idxOf p.sc.edges[i] = i :=
    fun i hi => hn.idxOf_getElem i hi
  constructor
  · intro cmds h
    obtain ⟨pos, c0, c1, h1, h2, -, h3, rfl⟩ := drawScEdges_ok h
    obtain ⟨edges, color, colors, -, e2, e3, e4, -⟩ := edges_part h2 h3
    obtain ⟨rfl, rfl⟩ := e2 rfl
    rw [harg] at e3
    have e3 : (g.order p.sc.edges).mapM (colorOf p.sc.edges l) = .ok colors := e3
    have hlen : p.sc.E ≤ l.length := by
      by_contra hlt
      push Not at hlt
      have hlt' : l.length < p.sc.edges.length := hlt
      have hm : p.sc.edges[l.length] ∈ g.order p.sc.edges := (g.mem_order _ _).2 (List.getElem_mem _)
      obtain ⟨i, hi, he⟩ := List.getElem_of_mem hm
      have hf := (List.forall₂_iff_get.1 (mapM_eq_ok e3))
      have := hf.2 i hi (hf.1 ▸ hi)
      simp only [List.get_eq_getElem] at this
      rw [he, colorOf_short (List.getElem_mem _) (by rw [hidx]; simp)] at this
      cases this
    refine ⟨hlen, ?_⟩
    have hcol : (g.order p.sc.edges).mapM (colorOf p.sc.edges l) =
        .ok ((g.order p.sc.edges).map fun e => KwVal.num ((l[p.sc.edges.idxOf e]?).getD 0)) := by
      refine mapM_ok _ _ _ fun e he => ?_
      have he' := (g.mem_order _ _).1 he
      have : p.sc.edges.idxOf e < l.length := lt_of_lt_of_le (List.idxOf_lt_length_of_mem he') hlen
      refine colorOf_eq he' ?_
      rw [List.getElem?_eq_getElem this]
      rfl
    rw [hcol] at e3
    have e3 := (Except.ok.inj e3).symm
    subst e3
    rw [e4, zip_map_self]
    refine ((order_perm g hn).map _).trans (List.Perm.of_eq ?_)
    apply List.ext_getElem
    · simp only [List.length_map, List.length_zip]
      exact (min_eq_left hlen).symm
    · intro i h1 h2
      simp only [List.length_map, List.length_zip] at h1 h2
      simp only [List.getElem_map, List.getElem_zip, hidx]
      rw [List.getElem?_eq_getElem (by omega)]
      rfl
  · intro pos hp hpos hl hlt hcm
    obtain ⟨cm, hcm⟩ := checkCmap_total (color := .nums l) (cmap := kw.arg "edge_cmap" (.obj "Blues")) (.inr (by
      unfold Kw.arg
      cases hv : kw.get? "edge_cmap" with
      | none => exact .inr ⟨_, rfl⟩
      | some v => exact hcm v hv))
    have hlt' : l.length < p.sc.edges.length := hlt
    have hini : ∃ c, (p.initAxes g ax).1 = .ok (pos, c) := by
      obtain ⟨c, hc⟩ := boundingBox_ok (ax := ax) hpos
      refine ⟨c, ?_⟩
      unfold SCPlot.initAxes
      rw [hp]
      simp only [hc]
      rfl
    obtain ⟨c, hini⟩ := hini
    obtain ⟨lim, hlim⟩ := colorLimits_total (color := .nums l) (vmin := kw.arg "edge_vmin" .none)
      (vmax := kw.arg "edge_vmax" .none) (cmap := cm) (ax := ax)
      (fun l' h => by cases h; exact hl)
    have hcol : edgeColors (g.order p.sc.edges) p.sc.edges (.nums l) = .error .indexError := by
      show (g.order p.sc.edges).mapM (colorOf p.sc.edges l) = _
      cases h : (g.order p.sc.edges).mapM (colorOf p.sc.edges l) with
      | ok colors =>
        exfalso
        have hm : p.sc.edges[l.length] ∈ g.order p.sc.edges := (g.mem_order _ _).2 (List.getElem_mem _)
        obtain ⟨i, hi, he⟩ := List.getElem_of_mem hm
        have hf := (List.forall₂_iff_get.1 (mapM_eq_ok h))
        have := hf.2 i hi (hf.1 ▸ hi)
        simp only [List.get_eq_getElem] at this
        rw [he, colorOf_short (List.getElem_mem _) (by rw [hidx]; simp)] at this
        cases this
      | error e =>
        obtain ⟨a, ha, he⟩ := mapM_error h
        have ha' := (g.mem_order _ _).1 ha
        cases hv : l[p.sc.edges.idxOf a]? with
        | none => rw [colorOf_short ha' hv] at he; rw [← Except.error.inj he]
        | some v => rw [colorOf_eq ha' hv] at he; cases he
    unfold SCPlot.drawScEdges
    rw [hini]
    simp only [Except.bind, drawEdgesOn, harg, bind, hcm, hlim, hcol]
    rfl

/-! ## C83: edge labels -/

/-- the displacement of a label from the middle of its edge: to the right of an upright edge, below a level
one, above a nearly level one (slope at most a tenth), up and to the left otherwise -/
noncomputable def labelShift (a b : Pt) (offset : ℝ) : Pt :=
  if a.1 = b.1 then (offset / 3, 0)
  else if a.2 = b.2 then (0, -offset)
  else if 10 * |b.2 - a.2| ≤ |b.1 - a.1| then (0, offset / 2)
  else (-offset, offset)

/-- C83: the label is at the middle of the edge, displaced as `labelShift` says. -/
theorem C83_position (pos : Dict Int Pt) (src dest : Int) (offset : ℝ) (a b : Pt) (ha : pos.get? src = some a)
    (hb : pos.get? dest = some b) :
    edgeLabelPosition pos src dest offset =
      .ok ((a.1 + b.1) / 2 + (labelShift a b offset).1, (a.2 + b.2) / 2 + (labelShift a b offset).2) := by
  obtain ⟨x1, y1⟩ := a
  obtain ⟨x2, y2⟩ := b
  unfold edgeLabelPosition
  rw [Dict.getItem_ok.2 ha, Dict.getItem_ok.2 hb]
  simp only [bind, Except.bind, pure, Except.pure, labelShift]
  congr 1
  by_cases h1 : x1 = x2
  · subst h1
    simp only [sub_self, if_true, abs_zero]
    ext <;> simp <;> ring
  · have h1' : x2 - x1 ≠ 0 := fun h => h1 (by linarith)
    simp only [if_neg h1', if_neg h1]
    by_cases h2 : y1 = y2
    · subst h2
      simp only [sub_self, zero_div, abs_zero, if_true]
      ext <;> simp <;> ring
    · have h2' : |(y2 - y1) / (x2 - x1)| ≠ 0 := by
        rw [abs_ne_zero]
        exact div_ne_zero (fun h => h2 (by linarith)) h1'
      have h3 : |(y2 - y1) / (x2 - x1)| ≤ 1 / 10 ↔ 10 * |y2 - y1| ≤ |x2 - x1| := by
        rw [abs_div, div_le_iff₀ (abs_pos.2 h1')]
        constructor <;> intro h <;> linarith
      simp only [if_neg h2', if_neg h2]
      by_cases h4 : 10 * |y2 - y1| ≤ |x2 - x1|
      · rw [if_pos (h3.2 h4), if_pos h4]
        ext <;> simp <;> ring
      · rw [if_neg (fun h => h4 (h3.1 h)), if_neg h4]
        ext <;> simp <;> ring

/-- C83: swapping the ends of an edge does not move its label; a missing end raises `KeyError`. -/
theorem C83_symmetric (pos : Dict Int Pt) (src dest : Int) (offset : ℝ) :
    edgeLabelPosition pos src dest offset = edgeLabelPosition pos dest src offset ∧
    (pos.get? src = none ∨ pos.get? dest = none → edgeLabelPosition pos src dest offset = .error .keyError) := by
  have herr : ∀ s t, pos.get? s = none ∨ pos.get? t = none → edgeLabelPosition pos s t offset = .error .keyError := by
    intro s t h
    unfold edgeLabelPosition
    cases hs : pos.get? s with
    | none => rw [Dict.getItem_error.2 ⟨rfl, hs⟩]; rfl
    | some a =>
      rw [Dict.getItem_ok.2 hs]
      rcases h with h | h
      · rw [h] at hs; cases hs
      · simp only [bind, Except.bind]
        rw [Dict.getItem_error.2 ⟨rfl, h⟩]
  refine ⟨?_, herr src dest⟩
  cases ha : pos.get? src with
  | none => rw [herr _ _ (.inl ha), herr _ _ (.inr ha)]
  | some a =>
    cases hb : pos.get? dest with
    | none => rw [herr _ _ (.inr hb), herr _ _ (.inl hb)]
    | some b =>
      rw [C83_position pos src dest offset a b ha hb, C83_position pos dest src offset b a hb ha]
      have : labelShift a b offset = labelShift b a offset := by
        unfold labelShift
        rw [abs_sub_comm b.2 a.2, abs_sub_comm b.1 a.1]
        simp only [eq_comm (a := a.1), eq_comm (a := a.2)]
      rw [this, add_comm a.1, add_comm a.2]

/-- C83: `draw_edge_labels` writes every label of the dictionary, in order, at that position. -/
theorem C83_labels (d : Dict Edge ℝ) (kw : Kw) (cmds : List Cmd) (h : (p.drawEdgeLabels g ax d kw).1 = .ok cmds) :
    ∃ pos offset, (p.drawEdgeLabels g ax d kw).2.pos = some pos ∧
      (d ≠ [] → kw.arg "offset" (.num (15 / 100)) = .num offset) ∧
      List.Forall₂ (fun (q : Edge × ℝ) (r : Pt × ℝ) => r.2 = q.2 ∧
        edgeLabelPosition pos q.1.1 q.1.2 offset = .ok r.1) d (cmds.filterMap Cmd.edgeLabel?) := by
  obtain ⟨pos, c0, c1, h1, ⟨a, b, a', b', rfl⟩, -, h3, rfl⟩ := drawEdgeLabels_ok h
  have hsnd : (p.drawEdgeLabels g ax d kw).2.pos = some pos := by rw [← h1]; exact congrArg SCPlot.pos initAxes_snd
  have hrest : ∀ o, (∀ q c, edgeLabelCmd pos ax kw q = .ok c → ∃ r, c.edgeLabel? = some (r, q.2) ∧
      edgeLabelPosition pos q.1.1 q.1.2 o = .ok r) →
      List.Forall₂ (fun (q : Edge × ℝ) (r : Pt × ℝ) => r.2 = q.2 ∧
        edgeLabelPosition pos q.1.1 q.1.2 o = .ok r.1) d (c1.filterMap Cmd.edgeLabel?) := by
    intro o ho
    have hf := mapM_eq_ok h3
    clear h3 h hsnd
    induction hf with
    | nil => exact .nil
    | cons hx _ ih =>
      obtain ⟨r, hr, hr'⟩ := ho _ _ hx
      rw [List.filterMap_cons, hr]
      exact .cons ⟨rfl, hr'⟩ ih
  cases hd : kw.arg "offset" (.num (15 / 100)) with
  | num o =>
    refine ⟨pos, o, hsnd, fun _ => rfl, hrest o fun q c hc => ?_⟩
    obtain ⟨o', r, ho, hr, rfl⟩ := edgeLabelCmd_ok hc
    rw [hd] at ho
    cases ho
    exact ⟨r, rfl, hr⟩
  | _ =>
    refine ⟨pos, 0, hsnd, ?_, hrest 0 ?_⟩
    · intro hne
      exfalso
      obtain ⟨q, d', rfl⟩ := List.exists_cons_of_ne_nil hne
      have hf := mapM_eq_ok h3
      cases hf with
      | cons hx _ =>
        obtain ⟨o', r, ho, -⟩ := edgeLabelCmd_ok hx
        rw [hd] at ho
        cases ho
    · intro q c hc
      obtain ⟨o', r, ho, -⟩ := edgeLabelCmd_ok hc
      rw [hd] at ho
      cases ho

example : edgeLabelPosition [(0, (0, 0)), (1, (4, 2))] 0 1 (15 / 100) = .ok (2 - 15 / 100, 1 + 15 / 100) := by
  rw [C83_position _ _ _ _ (0, 0) (4, 2) rfl rfl]
  simp only [labelShift]
  norm_num

/-! ## C84: keyword routing -/

/-- the options of the documentation of `draw_network` -/
def nodeOptions : List String :=
  ["node_size", "node_color", "node_edge_colors", "font_size", "font_color", "font_weight", "cmap", "vmin", "vmax",
    "alpha", "margins"]

def edgeOptions : List String :=
  ["edge_color", "edge_width", "arrowsize", "edge_cmap", "edge_vmin", "edge_vmax", "alpha"]

def labelOptions : List String := ["font_size", "font_color", "font_weight", "offset", "alpha"]

theorem restrict_get (kw : Kw) (l : List String) (k : String) :
    (kw.restrict l).get? k = if k ∈ l then kw.get? k else none := by
  induction kw with
  | nil => simp [Kw.restrict, Dict.get?]
  | cons q kw ih =>
    obtain ⟨n, v⟩ := q
    unfold Kw.restrict at ih ⊢
    rw [List.filter_cons]
    by_cases hn : n ∈ l
    · simp only [hn, decide_true, if_true, Dict.get?]
      by_cases hk : n = k
      · subst hk; simp [hn]
      · rw [if_neg hk, if_neg hk, ih]
    · simp only [hn, decide_false, Bool.false_eq_true, if_false, ih, Dict.get?]
      by_cases hk : n = k
      · subst hk; simp [hn]
      · rw [if_neg hk]

/-- C84: a keyword that is no option of nodes, edges or labels (and not `edge_labels`, see
`C84_counterexample`) makes `draw_network` raise `ValueError` before anything happens. -/
theorem C84_rejects_partial (fa : FlowArg) (dir wl : Bool) (kwargs : Kw) (k : String) (hk : k ∈ Dict.keys kwargs)
    (ho : k ∉ nodeOptions ++ edgeOptions ++ labelOptions) (hl : k ≠ "edge_labels") :
    p.drawNetwork g ax cur fa dir wl kwargs = (.error .valueError, p) := by
  have hne : kwargs.length ≠ 0 := by
    intro h
    rw [List.length_eq_zero_iff] at h
    subst h
    cases hk
  have hv : k ∉ validKwargs := by
    simp only [validKwargs, nodeParams, edgeParams, labelParams, nodeOptions, edgeOptions, labelOptions,
      List.mem_filter, List.mem_append, List.mem_cons, List.not_mem_nil, or_false, decide_eq_true_eq] at ho ⊢
    tauto
  unfold SCPlot.drawNetwork
  simp only [if_neg hne]
  rw [if_pos ⟨k, hk, hv⟩]

/-- C84 fails for `edge_labels`: it is no option, but is accepted; it is ignored without a flow or
labels, and raises `TypeError` with both. -/
theorem C84_counterexample (d : Dict Edge ℝ) (dir : Bool) (v : KwVal) (b : List Cmd)
    (ha : ∀ wl, ∃ a, (p.drawScNodes g ax cur wl []).1 = .ok a)
    (hb : ((p.placed g).drawScEdges g ax (some d) dir []).1 = .ok b) :
    "edge_labels" ∉ nodeOptions ++ edgeOptions ++ labelOptions ∧
    (p.drawNetwork g ax cur (.dict d) dir true [("edge_labels", v)]).1 = .error .typeError ∧
    ∃ c, (p.drawNetwork g ax cur (.dict d) dir false [("edge_labels", v)]).1 = .ok c := by
  have hvalid : ¬ ∃ k ∈ Dict.keys ([("edge_labels", v)] : Kw), k ∉ validKwargs := by
    rintro ⟨k, hk, hn⟩
    simp only [Dict.keys, List.map_cons, List.map_nil, List.mem_singleton] at hk
    subst hk
    exact hn (by decide)
  have r1 : Kw.restrict [("edge_labels", v)] nodeParams = [] := rfl
  have r2 : Kw.restrict [("edge_labels", v)] edgeParams = [] := rfl
  have key : ∀ wl, (p.drawNetwork g ax cur (.dict d) dir wl [("edge_labels", v)]).1 = (do
      let a ← (p.drawScNodes g ax cur wl []).1
      let b ← ((p.placed g).drawScEdges g ax (some d) dir []).1
      let c ← networkLabels g ((p.placed g).drawScEdges g ax (some d) dir []).2 ax (some d) wl [("edge_labels", v)]
      pure (a ++ b ++ c)) := by
    intro wl
    have e1 : (p.drawScNodes g ax cur wl []).2 = p.placed g := initAxes_snd
    unfold SCPlot.drawNetwork
    simp only [List.length_singleton, one_ne_zero, if_false]
    rw [if_neg hvalid, r1, r2, e1]
    rfl
  refine ⟨by decide, ?_, ?_⟩
  · obtain ⟨a, ha⟩ := ha true
    rw [key, ha]
    simp only [hb, bind, Except.bind]
    rfl
  · obtain ⟨a, ha⟩ := ha false
    refine ⟨a ++ b ++ [], ?_⟩
    rw [key, ha]
    simp only [hb, bind, Except.bind]
    rfl

/-- C84: if all keywords are options, `draw_network` draws nodes, edges and (with a flow and labels) edge
labels, each routine receiving exactly those of the keywords that are its options. -/
theorem C84_routes (fa : FlowArg) (dir wl : Bool) (kwargs : Kw) (hne : kwargs ≠ [])
    (ho : ∀ k ∈ Dict.keys kwargs, k ∈ nodeOptions ++ edgeOptions ++ labelOptions) :
    ∃ kwN kwE kwL : Kw,
      (∀ k, kwN.get? k = if k ∈ nodeOptions then kwargs.get? k else none) ∧
      (∀ k, kwE.get? k = if k ∈ edgeOptions then kwargs.get? k else none) ∧
      (∀ k, kwL.get? k = if k ∈ labelOptions then kwargs.get? k else none) ∧
      (p.drawNetwork g ax cur fa dir wl kwargs).1 = (do
        let a ← (p.drawScNodes g ax cur wl kwN).1
        let b ← ((p.placed g).drawScEdges g ax (fa.toDict p.sc) dir kwE).1
        let c ← match fa.toDict p.sc, wl with
          | some d, true => ((p.placed g).drawEdgeLabels g ax d kwL).1
          | _, _ => .ok []
        pure (a ++ b ++ c)) := by
  have hlen : kwargs.length ≠ 0 := fun h => hne (List.length_eq_zero_iff.1 h)
  have hnone : ∀ k, k ∉ nodeOptions ++ edgeOptions ++ labelOptions → kwargs.get? k = none :=
    fun k hk => Dict.get?_eq_none.2 fun h => hk (ho k h)
  have hvalid : ¬ ∃ k ∈ Dict.keys kwargs, k ∉ validKwargs := by
    rintro ⟨k, hk, hv⟩
    refine hv ?_
    have := ho k hk
    simp only [nodeOptions, edgeOptions, labelOptions, List.mem_append, List.mem_cons, List.not_mem_nil,
      or_false] at this
    rcases this with (h | h) | h
    · rcases h with h | h | h | h | h | h | h | h | h | h | h <;> subst h <;> decide
    · rcases h with h | h | h | h | h | h | h <;> subst h <;> decide
    · rcases h with h | h | h | h | h <;> subst h <;> decide
  have key : ∀ params options : List String, (∀ k ∈ options, k ∈ params) →
      (∀ k ∈ params, k ∈ options ∨ k ∉ nodeOptions ++ edgeOptions ++ labelOptions) →
      ∀ k, (kwargs.restrict params).get? k = if k ∈ options then kwargs.get? k else none := by
    intro params options h1 h2 k
    rw [restrict_get]
    by_cases hk : k ∈ options
    · rw [if_pos hk, if_pos (h1 k hk)]
    · rw [if_neg hk]
      split_ifs with hp
      · exact hnone k ((h2 k hp).resolve_left hk)
      · rfl
  refine ⟨kwargs.restrict nodeParams, kwargs.restrict edgeParams, kwargs.restrict labelParams,
    key _ _ (by decide) (by decide), key _ _ (by decide) (by decide), key _ _ (by decide) (by decide), ?_⟩
  have e1 : (p.drawScNodes g ax cur wl (kwargs.restrict nodeParams)).2 = p.placed g := initAxes_snd
  have e2 : ((p.placed g).drawScEdges g ax (fa.toDict p.sc) dir (kwargs.restrict edgeParams)).2 = p.placed g :=
    initAxes_snd
  have hel : "edge_labels" ∉ Dict.keys kwargs := fun h => absurd (ho _ h) (by decide)
  unfold SCPlot.drawNetwork
  simp only [if_neg hlen]
  rw [if_neg hvalid, e1, e2]
  simp only
  congr 1
  funext a
  congr 1
  funext b
  unfold networkLabels
  cases fa.toDict p.sc with
  | none => rfl
  | some d =>
    cases wl with
    | false => rfl
    | true => simp only [if_true, if_neg hel]

end Pytspl
