import Verif.Props.PlotPanels

/-!
# Property C126: colour scales
-/

namespace Pytspl

variable {g : GraphLib} {p : SCPlot} {ax cur : ℕ}

/-! ## Specification -/

/-- the limits and options of a colour bar -/
def Cmd.colorbar? (c : Cmd) : Option (KwVal × KwVal × Kw) :=
  match c.shape with
  | .colorbar lo hi => some (lo, hi, c.opts)
  | _ => none

/-- The lower end of the scale for these numbers: the given one, or half a minimum below the minimum. -/
def LowerEnd (given : KwVal) (l : List ℝ) (lo : KwVal) : Prop :=
  (given ≠ .none ∧ lo = given) ∨ (given = .none ∧ ∃ m ∈ l, (∀ v ∈ l, m ≤ v) ∧ lo = .num (m - |m| / 2))

/-- The upper end of the scale: the given one, or the maximum. -/
def UpperEnd (given : KwVal) (l : List ℝ) (hi : KwVal) : Prop :=
  (given ≠ .none ∧ hi = given) ∨ (given = .none ∧ ∃ m ∈ l, (∀ v ∈ l, v ≤ m) ∧ hi = .num m)

/-! ## C126 -/

private theorem limits {color vmin vmax cm : KwVal} {l : List ℝ} {r : KwVal × KwVal × List Cmd}
    (hc : color.numbers = some l) (h : colorLimits color vmin vmax cm ax = .ok r) :
    r.2.2 = [⟨ax, .colorbar r.1 r.2.1, [("cmap", cm)]⟩] ∧ LowerEnd vmin l r.1 ∧ UpperEnd vmax l r.2.1 := by
  unfold colorLimits at h
  rw [hc] at h
  obtain ⟨lo, h1, h⟩ := pyBind_ok h
  obtain ⟨hi, h2, h⟩ := pyBind_ok h
  cases h
  refine ⟨rfl, ?_, ?_⟩
  · cases vmin with
    | none =>
      refine .inr ⟨rfl, ?_⟩
      obtain ⟨m, h3, h4⟩ := pyMap_ok h1
      by_cases hl : l = []
      · subst hl; cases h3
      · obtain ⟨m', hm, h5, h6⟩ := pyMin_ok hl
        rw [h5] at h3
        cases h3
        refine ⟨m, hm, h6, ?_⟩
        rw [← h4, mul_one_div]
    | _ => cases h1; exact .inl ⟨by simp, rfl⟩
  · cases vmax with
    | none =>
      refine .inr ⟨rfl, ?_⟩
      obtain ⟨m, h3, h4⟩ := pyMap_ok h2
      by_cases hl : l = []
      · subst hl; cases h3
      · obtain ⟨m', hm, h5, h6⟩ := pyMax_ok hl
        rw [h5] at h3
        cases h3
        exact ⟨m, hm, h6, h4.symm⟩
    | _ => cases h2; exact .inl ⟨by simp, rfl⟩

/-- C126, edges: when edges are coloured by numbers (a flow, or a list of numbers as `edge_color`), one colour bar is
drawn, and every edge is drawn with the scale and the colour map of the colour bar.  The scale has the given ends; by
default it runs from half the smallest value below the smallest value to the largest value. -/
theorem C126_edges (flow : Option (Dict Edge ℝ)) (dir : Bool) (kw : Kw) (cmds : List Cmd) (l : List ℝ)
    (hl : (∃ d, flow = some d ∧ l = Dict.values d) ∨ (flow = none ∧ kw.get? "edge_color" = some (.nums l)))
    (h : (p.drawScEdges g ax flow dir kw).1 = .ok cmds) :
    ∃ lo hi cm, cmds.filterMap Cmd.colorbar? = [(lo, hi, [("cmap", cm)])] ∧
      LowerEnd (kw.arg "edge_vmin" .none) l lo ∧ UpperEnd (kw.arg "edge_vmax" .none) l hi ∧
      ∀ c ∈ cmds, c.kind = some .edge →
        c.opts.get? "edge_vmin" = some lo ∧ c.opts.get? "edge_vmax" = some hi ∧ c.opts.get? "edge_cmap" = some cm := by
  obtain ⟨pos, c0, c1, -, ⟨x1, x2, y1, y2, rfl⟩, -, h3, rfl⟩ := drawScEdges_ok h
  obtain ⟨edges, color, cm, lim, colors, es, ts, e1, e2, -, e4, -, e6, e7, rfl⟩ := drawEdgesOn_ok h3
  have hnum : color.numbers = some l := by
    rcases hl with ⟨d, hf, rfl⟩ | ⟨hf, hk⟩
    · rw [(e1 d hf).2]; rfl
    · rw [(e2 hf).2, Kw.arg, hk]; rfl
  obtain ⟨k1, k2, k3⟩ := limits hnum e4
  have hes : ∀ c ∈ es, c.colorbar? = none ∧ c.opts.get? "edge_vmin" = some lim.1 ∧
      c.opts.get? "edge_vmax" = some lim.2.1 ∧ c.opts.get? "edge_cmap" = some cm := by
    refine mapM_forall _ e6 ?_
    intro x c _ hxc
    obtain ⟨a, b, -, -, rfl⟩ := edgeCmd_ok hxc
    exact ⟨rfl, rfl, rfl, rfl⟩
  have hts : ∀ c ∈ ts, c.colorbar? = none ∧ c.kind = none := by
    refine mapM_forall _ e7 ?_
    intro x c _ hxc
    obtain ⟨i, j, k, a, b, d, -, -, -, -, rfl⟩ := triangleCmd_ok hxc
    exact ⟨rfl, rfl⟩
  refine ⟨lim.1, lim.2.1, cm, ?_, k2, k3, ?_⟩
  · rw [k1]
    simp only [List.filterMap_append, List.filterMap_cons, List.filterMap_nil, Cmd.colorbar?]
    rw [List.filterMap_eq_nil_iff.2 fun c hc => (hes c hc).1, List.filterMap_eq_nil_iff.2 fun c hc => (hts c hc).1]
    rfl
  · intro c hc hk
    rw [k1] at hc
    simp only [List.mem_append, List.mem_cons, List.not_mem_nil, or_false] at hc
    rcases hc with (rfl | rfl) | (rfl | hc) | hc
    · cases hk
    · cases hk
    · cases hk
    · exact (hes c hc).2
    · rw [(hts c hc).2] at hk
      cases hk

/-- C126, nodes: when nodes are coloured by numbers, one colour bar is drawn and the nodes are drawn with its scale. -/
theorem C126_nodes (wl : Bool) (kw : Kw) (cmds : List Cmd) (l : List ℝ) (hl : kw.get? "node_color" = some (.nums l))
    (h : (p.drawScNodes g ax cur wl kw).1 = .ok cmds) :
    ∃ lo hi opts, cmds.filterMap Cmd.colorbar? = [(lo, hi, opts)] ∧
      LowerEnd (kw.arg "vmin" .none) l lo ∧ UpperEnd (kw.arg "vmax" .none) l hi ∧
      ∀ c ∈ cmds, c.kind = some .node →
        c.opts.get? "c" = some (.nums l) ∧ c.opts.get? "vmin" = some lo ∧ c.opts.get? "vmax" = some hi := by
  obtain ⟨pos, c0, c1, -, ⟨x1, x2, y1, y2, rfl⟩, -, h3, rfl⟩ := drawScNodes_ok h
  obtain ⟨lim, pts, labels, ⟨cm, e1⟩, e2, e3, rfl⟩ := drawNodesOn_ok h3
  have harg : kw.arg "node_color" (.str "#ff7f0e") = .nums l := by rw [Kw.arg, hl]; rfl
  rw [harg] at e1 ⊢
  obtain ⟨k1, k2, k3⟩ := limits rfl e1
  have hlab : ∀ c ∈ labels, c.colorbar? = none ∧ c.kind = some .nodeLabel := by
    rcases e3 with ⟨-, rfl⟩ | ⟨-, e3⟩
    · simp
    · refine mapM_forall _ e3 ?_
      intro x c _ hxc
      obtain ⟨q, opts, -, rfl, -⟩ := nodeLabel_ok hxc
      exact ⟨rfl, rfl⟩
  have hmar : ∀ c ∈ marginCmds ax (kw.arg "margins" .none), c.colorbar? = none ∧ c.kind = none := by
    intro c hc
    unfold marginCmds at hc
    split at hc
    · simp at hc
    · simp only [List.mem_singleton] at hc
      subst hc
      exact ⟨rfl, rfl⟩
  refine ⟨lim.1, lim.2.1, [("cmap", cm)], ?_, k2, k3, ?_⟩
  · rw [k1]
    simp only [List.filterMap_append, List.filterMap_cons, List.filterMap_nil, Cmd.colorbar?]
    rw [List.filterMap_eq_nil_iff.2 fun c hc => (hmar c hc).1, List.filterMap_eq_nil_iff.2 fun c hc => (hlab c hc).1]
    rfl
  · intro c hc hk
    rw [k1] at hc
    simp only [List.mem_append, List.mem_cons, List.not_mem_nil, or_false] at hc
    rcases hc with (rfl | rfl) | ((rfl | rfl) | hc) | hc
    · cases hk
    · cases hk
    · cases hk
    · exact ⟨rfl, rfl, rfl⟩
    · rw [(hmar c hc).2] at hk
      cases hk
    · rw [(hlab c hc).2] at hk
      cases hk

/-- C126: every value lies on the default scale, so none is clipped; the smallest value is above the lower end, and
so not drawn in the faintest colour, unless it is 0. -/
theorem C126_no_clipping (l : List ℝ) (lo hi : KwVal) (h1 : LowerEnd .none l lo) (h2 : UpperEnd .none l hi) :
    ∃ a b, lo = .num a ∧ hi = .num b ∧ ∀ v ∈ l, a ≤ v ∧ v ≤ b ∧ (0 ∉ l → a < v) := by
  rcases h1 with ⟨h, -⟩ | ⟨-, m, hm, hmin, rfl⟩
  · exact absurd rfl h
  rcases h2 with ⟨h, -⟩ | ⟨-, M, hM, hmax, rfl⟩
  · exact absurd rfl h
  refine ⟨_, _, rfl, rfl, fun v hv => ⟨?_, hmax v hv, fun h0 => ?_⟩⟩
  · have := hmin v hv
    have := abs_nonneg m
    linarith
  · have := hmin v hv
    have : 0 < |m| := abs_pos.2 (by rintro rfl; exact h0 hm)
    linarith

private theorem network_edges {fa : FlowArg} {dir wl : Bool} {kw : Kw} {cmds : List Cmd}
    (h : (p.drawNetwork g ax cur fa dir wl kw).1 = .ok cmds) :
    ∃ b, ((p.placed g).drawScEdges g ax (fa.toDict p.sc) dir
        ((if kw.length = 0 then defaultKwargs else kw).restrict edgeParams)).1 = .ok b ∧
      ∀ c ∈ cmds, c.kind = some .edge → c ∈ b := by
  unfold SCPlot.drawNetwork at h
  dsimp only at h
  generalize (if kw.length = 0 then defaultKwargs else kw) = kw' at h ⊢
  split_ifs at h with hv
  · obtain ⟨a, h1, h⟩ := pyBind_ok h
    obtain ⟨b, h2, h⟩ := pyBind_ok h
    obtain ⟨c, h3, h⟩ := pyBind_ok h
    cases h
    have e1 : (p.drawScNodes g ax cur wl (kw'.restrict nodeParams)).2 = p.placed g := initAxes_snd
    rw [e1] at h2
    refine ⟨b, h2, fun x hx hk => ?_⟩
    rw [List.mem_append, List.mem_append] at hx
    rcases hx with (hx | hx) | hx
    · exfalso
      obtain ⟨pos, c0, c1, -, ⟨x1, x2, y1, y2, rfl⟩, -, h4, rfl⟩ := drawScNodes_ok h1
      obtain ⟨lim, pts, labels, ⟨cm, e1⟩, e2, e3, rfl⟩ := drawNodesOn_ok h4
      simp only [List.mem_append, List.mem_cons, List.not_mem_nil, or_false] at hx
      rcases hx with (rfl | rfl) | ((hx | rfl) | hx) | hx
      · cases hk
      · cases hk
      · rcases colorLimits_ok e1 with ⟨e, -⟩ | ⟨e, -⟩
        · rw [e] at hx; cases hx
        · rw [e, List.mem_singleton] at hx; subst hx; cases hk
      · cases hk
      · unfold marginCmds at hx
        split at hx
        · simp at hx
        · simp only [List.mem_singleton] at hx; subst hx; cases hk
      · rcases e3 with ⟨-, rfl⟩ | ⟨-, e3⟩
        · cases hx
        · have := mapM_forall (fun c : Cmd => c.kind = some .nodeLabel) e3 (fun x c _ hxc => by
            obtain ⟨q, opts, -, rfl, -⟩ := nodeLabel_ok hxc
            rfl) x hx
          rw [this] at hk
          cases hk
    · exact hx
    · exfalso
      unfold networkLabels at h3
      split at h3
      · split_ifs at h3
        · obtain ⟨pos, c0, c1, -, ⟨x1, x2, y1, y2, rfl⟩, -, h4, rfl⟩ := drawEdgeLabels_ok h3
          simp only [List.mem_append, List.mem_cons, List.not_mem_nil, or_false] at hx
          rcases hx with (rfl | rfl) | hx
          · cases hk
          · cases hk
          · have := mapM_forall (fun c : Cmd => c.kind = some .edgeLabel) h4 (fun x c _ hxc => by
              obtain ⟨o, q, -, -, rfl⟩ := edgeLabelCmd_ok hxc
              rfl) x hx
            rw [this] at hk
            cases hk
        · cases h3; cases hx
      · cases h3; cases hx

/-- C126, networks: `draw_network` with a flow draws all edges on one scale, which is the given one or by default the
scale of the flow values; the default scale contains all of them. -/
theorem C126_network (fa : FlowArg) (d : Dict Edge ℝ) (hd : fa.toDict p.sc = some d) (dir wl : Bool) (kw : Kw)
    (cmds : List Cmd) (h : (p.drawNetwork g ax cur fa dir wl kw).1 = .ok cmds) :
    ∃ lo hi cm, LowerEnd (kw.arg "edge_vmin" .none) (Dict.values d) lo ∧
      UpperEnd (kw.arg "edge_vmax" .none) (Dict.values d) hi ∧
      ∀ c ∈ cmds, c.kind = some .edge →
        c.opts.get? "edge_vmin" = some lo ∧ c.opts.get? "edge_vmax" = some hi ∧ c.opts.get? "edge_cmap" = some cm := by
  obtain ⟨b, h1, h2⟩ := network_edges h
  obtain ⟨lo, hi, cm, -, k2, k3, k4⟩ := C126_edges (fa.toDict p.sc) dir _ b (Dict.values d) (.inl ⟨d, hd, rfl⟩) h1
  rw [restrict_arg (by decide)] at k2 k3
  have harg : ∀ k ∈ ["edge_vmin", "edge_vmax"],
      Kw.arg (if kw.length = 0 then defaultKwargs else kw) k .none = kw.arg k .none := by
    intro k hk
    split_ifs with h0
    · rw [List.length_eq_zero_iff] at h0
      subst h0
      simp only [List.mem_cons, List.not_mem_nil, or_false] at hk
      rcases hk with rfl | rfl <;> rfl
    · rfl
  rw [harg _ (by simp)] at k2 k3
  exact ⟨lo, hi, cm, k2, k3, fun c hc hk => k4 c (h2 c hc hk) hk⟩

/-- the sample complex with a flow on two edges is drawn on the scale from -3/2 to 2 -/
example (g : GraphLib) (ax cur : ℕ) : ∃ cmds,
    (twoTriPlot.drawNetwork g ax cur (.dict [((0, 1), 2), ((4, 5), -1)]) true true []).1 = .ok cmds ∧
    ∀ c ∈ cmds, c.kind = some .edge → c.opts.get? "edge_vmin" = some (.num (-3 / 2)) ∧
      c.opts.get? "edge_vmax" = some (.num 2) := by
  obtain ⟨cmds, h⟩ := C97_succeeds (ax := ax) (cur := cur) (.dict [((0, 1), 2), ((4, 5), -1)]) true true
    (twoTriPlot_drawable g).positioned (by intro h; cases h) (fun d hd => by
      cases hd
      refine ⟨by simp, ?_⟩
      show ∀ e ∈ [((0 : Int), (1 : Int)), (4, 5)], e.1 ∈ [(0 : Int), 1, 2, 3, 4, 5] ∧ e.2 ∈ [(0 : Int), 1, 2, 3, 4, 5]
      decide)
  refine ⟨cmds, h, ?_⟩
  obtain ⟨lo, hi, cm, k1, k2, k3⟩ := C126_network _ _ rfl _ _ _ _ h
  have hv : Dict.values ([((0, 1), 2), ((4, 5), -1)] : Dict Edge ℝ) = [2, -1] := rfl
  rw [hv] at k1 k2
  intro c hc hk
  obtain ⟨e1, e2, -⟩ := k3 c hc hk
  rw [e1, e2]
  constructor
  · rcases k1 with ⟨h, -⟩ | ⟨-, m, hm, hmin, rfl⟩
    · exact absurd rfl h
    · simp only [List.mem_cons, List.not_mem_nil, or_false] at hm
      rcases hm with rfl | rfl
      · have := hmin (-1) (by simp)
        norm_num at this
      · norm_num
  · rcases k2 with ⟨h, -⟩ | ⟨-, m, hm, hmax, rfl⟩
    · exact absurd rfl h
    · simp only [List.mem_cons, List.not_mem_nil, or_false] at hm
      rcases hm with rfl | rfl
      · rfl
      · have := hmax 2 (by simp)
        norm_num at this

end Pytspl
