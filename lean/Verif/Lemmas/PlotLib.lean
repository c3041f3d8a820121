import Verif.Model.Plot
import Verif.Lemmas.Dicts

/-!
# Lemmas about the drawing commands
-/

namespace Pytspl

theorem pyBind_ok {α β : Type} {x : Py α} {f : α → Py β} {r : β} (h : (x >>= f) = .ok r) :
    ∃ a, x = .ok a ∧ f a = .ok r := by
  cases x with
  | error e => cases h
  | ok a => exact ⟨a, rfl, h⟩

theorem pyMap_ok {α β : Type} {x : Py α} {f : α → β} {r : β} (h : x.map f = .ok r) :
    ∃ a, x = .ok a ∧ f a = r := by
  cases x with
  | error e => cases h
  | ok a => exact ⟨a, rfl, Except.ok.inj h⟩

/-- the edge drawn by a command, with its colour -/
def Cmd.edge? (c : Cmd) : Option (Edge × KwVal) :=
  match c.shape with
  | .edge e _ _ col => some (e, col)
  | _ => none

/-- the text of the edge label drawn by a command -/
def Cmd.edgeLabel? (c : Cmd) : Option (Pt × ℝ) :=
  match c.shape with
  | .edgeLabel q v => some (q, v)
  | _ => none

/-- the nodes drawn by a command -/
def Cmd.points? (c : Cmd) : Option (List Pt) :=
  match c.shape with
  | .points l => some l
  | _ => none

theorem mapM_filterMap {α β γ : Type} {l : List α} {f : α → Py β} {r : List β} (k : β → Option γ) (j : α → Option γ)
    (h : l.mapM f = .ok r) (hk : ∀ a b, f a = .ok b → k b = j a) : r.filterMap k = l.filterMap j := by
  have h2 := mapM_eq_ok h
  clear h
  induction h2 with
  | nil => rfl
  | cons h1 _ ih => rw [List.filterMap_cons, List.filterMap_cons, hk _ _ h1, ih]

theorem mapM_forall {α β : Type} {l : List α} {f : α → Py β} {r : List β} (P : β → Prop)
    (h : l.mapM f = .ok r) (hk : ∀ a b, a ∈ l → f a = .ok b → P b) : ∀ b ∈ r, P b := by
  have h2 := mapM_eq_ok h
  clear h
  induction h2 with
  | nil => intro b hb; cases hb
  | cons h1 _ ih =>
    intro b hb
    rcases List.mem_cons.1 hb with rfl | hb
    · exact hk _ _ (by simp) h1
    · exact ih (fun a b ha => hk a b (by simp [ha])) b hb

variable {g : GraphLib} {p : SCPlot} {ax cur : ℕ}

/-- the plot object after any drawing -/
noncomputable def SCPlot.placed (p : SCPlot) (g : GraphLib) : SCPlot :=
  { p with pos := some (p.pos.getD (g.spring p.sc.edges)) }

theorem initAxes_snd : (p.initAxes g ax).2 = p.placed g := by
  obtain ⟨sc, pos⟩ := p
  cases pos <;> rfl

theorem initAxes_fst {l : Dict Int Pt} {c : List Cmd} (h : (p.initAxes g ax).1 = .ok (l, c)) :
    (p.placed g).pos = some l ∧ ∃ a b a' b', c = [⟨ax, .xlim a b, []⟩, ⟨ax, .ylim a' b', []⟩] := by
  obtain ⟨sc, pos⟩ := p
  cases pos with
  | none =>
    cases h
    exact ⟨rfl, _, _, _, _, rfl⟩
  | some pos =>
    obtain ⟨c', h1, h2⟩ := pyMap_ok (h : (boundingBox pos ax).map _ = _)
    cases h2
    refine ⟨rfl, ?_⟩
    unfold boundingBox at h1
    obtain ⟨a, -, h1⟩ := pyBind_ok h1
    obtain ⟨b, -, h1⟩ := pyBind_ok h1
    obtain ⟨a', -, h1⟩ := pyBind_ok h1
    obtain ⟨b', -, h1⟩ := pyBind_ok h1
    cases h1
    exact ⟨_, _, _, _, rfl⟩

theorem pyMin_ok {l : List ℝ} (h : l ≠ []) : ∃ m ∈ l, pyMin l = .ok m ∧ ∀ x ∈ l, m ≤ x := by
  cases hm : l.min? with
  | none => simp at hm; exact absurd hm h
  | some m =>
    obtain ⟨h1, h2⟩ := List.min?_eq_some_iff.1 hm
    exact ⟨m, h1, by rw [pyMin, hm], h2⟩

theorem pyMax_ok {l : List ℝ} (h : l ≠ []) : ∃ m ∈ l, pyMax l = .ok m ∧ ∀ x ∈ l, x ≤ m := by
  cases hm : l.max? with
  | none => simp at hm; exact absurd hm h
  | some m =>
    obtain ⟨h1, h2⟩ := List.max?_eq_some_iff.1 hm
    exact ⟨m, h1, by rw [pyMax, hm], h2⟩

theorem boundingBox_ok {pos : Dict Int Pt} (h : pos ≠ []) : ∃ c, boundingBox pos ax = .ok c := by
  have hx : pos.values.map Prod.fst ≠ [] := by simpa [Dict.values] using h
  have hy : pos.values.map Prod.snd ≠ [] := by simpa [Dict.values] using h
  obtain ⟨a, -, h1, -⟩ := pyMin_ok hx
  obtain ⟨b, -, h2, -⟩ := pyMax_ok hx
  obtain ⟨a', -, h3, -⟩ := pyMin_ok hy
  obtain ⟨b', -, h4, -⟩ := pyMax_ok hy
  unfold boundingBox
  simp only [h1, h2, h3, h4, bind, Except.bind]
  exact ⟨_, rfl⟩

theorem colorLimits_total {color vmin vmax cmap : KwVal} (h : ∀ l, color.numbers = some l → l ≠ []) :
    ∃ r, colorLimits color vmin vmax cmap ax = .ok r := by
  unfold colorLimits
  cases hc : color.numbers with
  | none => exact ⟨_, rfl⟩
  | some l =>
    obtain ⟨a, -, h1, -⟩ := pyMin_ok (h l hc)
    obtain ⟨b, -, h2, -⟩ := pyMax_ok (h l hc)
    have e1 : ∃ r, defaultVmin vmin l = .ok r := by
      cases vmin <;> simp only [defaultVmin, h1] <;> exact ⟨_, rfl⟩
    have e2 : ∃ r, defaultVmax vmax l = .ok r := by
      cases vmax <;> simp only [defaultVmax, h2] <;> exact ⟨_, rfl⟩
    obtain ⟨r1, e1⟩ := e1
    obtain ⟨r2, e2⟩ := e2
    simp only [e1, e2, bind, Except.bind]
    exact ⟨_, rfl⟩

theorem checkCmap_total {color cmap : KwVal} (h : color.numbers = none ∨ cmap = .none ∨ ∃ s, cmap = .obj s) :
    ∃ cm, checkCmap color cmap = .ok cm := by
  unfold checkCmap
  cases hc : color.numbers with
  | none => exact ⟨_, rfl⟩
  | some l =>
    rcases h with h | rfl | ⟨s, rfl⟩
    · rw [hc] at h; cases h
    · exact ⟨_, rfl⟩
    · exact ⟨_, rfl⟩

theorem checkCmap_ok {color cmap cm : KwVal} (h : checkCmap color cmap = .ok cm) (hn : cmap ≠ .none) : cm = cmap := by
  unfold checkCmap at h
  cases hc : color.numbers with
  | none => rw [hc] at h; cases h; rfl
  | some l =>
    rw [hc] at h
    cases cmap <;> first | exact absurd rfl hn | (cases h; rfl) | cases h

theorem drawScNodes_ok {wl : Bool} {kw : Kw} {cmds : List Cmd} (h : (p.drawScNodes g ax cur wl kw).1 = .ok cmds) :
    ∃ pos c0 c1, (p.placed g).pos = some pos ∧ (∃ a b a' b', c0 = [⟨ax, .xlim a b, []⟩, ⟨ax, .ylim a' b', []⟩]) ∧
      (p.initAxes g ax).1 = .ok (pos, c0) ∧ drawNodesOn p.sc pos ax cur wl kw = .ok c1 ∧ cmds = c0 ++ c1 := by
  obtain ⟨⟨l, c0⟩, h1, h2⟩ := pyBind_ok (show (p.initAxes g ax).1 >>= _ = _ from h)
  obtain ⟨c1, h3, h4⟩ := pyMap_ok h2
  obtain ⟨h5, h6⟩ := initAxes_fst h1
  exact ⟨l, c0, c1, h5, h6, h1, h3, h4.symm⟩

theorem drawScEdges_ok {flow : Option (Dict Edge ℝ)} {dir : Bool} {kw : Kw} {cmds : List Cmd}
    (h : (p.drawScEdges g ax flow dir kw).1 = .ok cmds) :
    ∃ pos c0 c1, (p.placed g).pos = some pos ∧ (∃ a b a' b', c0 = [⟨ax, .xlim a b, []⟩, ⟨ax, .ylim a' b', []⟩]) ∧
      (p.initAxes g ax).1 = .ok (pos, c0) ∧ drawEdgesOn g p.sc pos ax flow dir kw = .ok c1 ∧ cmds = c0 ++ c1 := by
  obtain ⟨⟨l, c0⟩, h1, h2⟩ := pyBind_ok (show (p.initAxes g ax).1 >>= _ = _ from h)
  obtain ⟨c1, h3, h4⟩ := pyMap_ok h2
  obtain ⟨h5, h6⟩ := initAxes_fst h1
  exact ⟨l, c0, c1, h5, h6, h1, h3, h4.symm⟩

theorem drawEdgeLabels_ok {d : Dict Edge ℝ} {kw : Kw} {cmds : List Cmd}
    (h : (p.drawEdgeLabels g ax d kw).1 = .ok cmds) :
    ∃ pos c0 c1, (p.placed g).pos = some pos ∧ (∃ a b a' b', c0 = [⟨ax, .xlim a b, []⟩, ⟨ax, .ylim a' b', []⟩]) ∧
      (p.initAxes g ax).1 = .ok (pos, c0) ∧ d.mapM (edgeLabelCmd pos ax kw) = .ok c1 ∧ cmds = c0 ++ c1 := by
  obtain ⟨⟨l, c0⟩, h1, h2⟩ := pyBind_ok (show (p.initAxes g ax).1 >>= _ = _ from h)
  obtain ⟨c1, h3, h4⟩ := pyMap_ok h2
  obtain ⟨h5, h6⟩ := initAxes_fst h1
  exact ⟨l, c0, c1, h5, h6, h1, h3, h4.symm⟩

/-- the limits drawn for a colour argument are at most one colour bar on the axes -/
theorem colorLimits_ok {color vmin vmax cmap : KwVal} {r : KwVal × KwVal × List Cmd}
    (h : colorLimits color vmin vmax cmap ax = .ok r) :
    r.2.2 = [] ∧ r.1 = vmin ∧ r.2.1 = vmax ∧ color.numbers = none ∨
    r.2.2 = [⟨ax, .colorbar r.1 r.2.1, [("cmap", cmap)]⟩] ∧ (∃ l, color.numbers = some l) ∧
      (vmin ≠ .none → r.1 = vmin) ∧ (vmax ≠ .none → r.2.1 = vmax) := by
  unfold colorLimits at h
  cases hc : color.numbers with
  | none => rw [hc] at h; cases h; exact .inl ⟨rfl, rfl, rfl, rfl⟩
  | some l =>
    rw [hc] at h
    obtain ⟨lo, h1, h⟩ := pyBind_ok h
    obtain ⟨hi, h2, h⟩ := pyBind_ok h
    cases h
    refine .inr ⟨rfl, ⟨l, rfl⟩, fun hv => ?_, fun hv => ?_⟩
    · cases vmin <;> first | exact absurd rfl hv | (cases h1; rfl)
    · cases vmax <;> first | exact absurd rfl hv | (cases h2; rfl)

theorem drawNodesOn_ok {sc : SC ℝ} {pos : Dict Int Pt} {wl : Bool} {kw : Kw} {cmds : List Cmd}
    (h : drawNodesOn sc pos ax cur wl kw = .ok cmds) :
    ∃ lim pts labels, (∃ cm, colorLimits (kw.arg "node_color" (.str "#ff7f0e")) (kw.arg "vmin" .none)
        (kw.arg "vmax" .none) cm ax = .ok lim) ∧
      sc.nodes.mapM (fun n : Int => pos.getItem n) = .ok pts ∧
      (wl = false ∧ labels = [] ∨ wl = true ∧ sc.nodes.mapM (nodeLabel pos cur kw) = .ok labels) ∧
      cmds = lim.2.2 ++ [⟨ax, .points pts, [("s", kw.arg "node_size" (.num 300)),
        ("c", kw.arg "node_color" (.str "#ff7f0e")),
        ("edgecolors", kw.arg "node_edge_colors" (.str "black")), ("vmin", lim.1), ("vmax", lim.2.1),
        ("alpha", kw.arg "alpha" (.num (8 / 10)))]⟩] ++ marginCmds ax (kw.arg "margins" .none) ++ labels := by
  unfold drawNodesOn at h
  obtain ⟨cm, -, h⟩ := pyBind_ok h
  obtain ⟨lim, h1, h⟩ := pyBind_ok h
  obtain ⟨pts, h2, h⟩ := pyBind_ok h
  cases wl with
  | false =>
    cases h
    exact ⟨lim, pts, [], ⟨cm, h1⟩, h2, .inl ⟨rfl, rfl⟩, rfl⟩
  | true =>
    obtain ⟨labels, h3, h⟩ := pyBind_ok (show (sc.nodes.mapM (nodeLabel pos cur kw) >>= _) = _ from h)
    cases h
    exact ⟨lim, pts, labels, ⟨cm, h1⟩, h2, .inr ⟨rfl, h3⟩, rfl⟩

theorem drawEdgesOn_ok {sc : SC ℝ} {pos : Dict Int Pt} {flow : Option (Dict Edge ℝ)} {dir : Bool} {kw : Kw}
    {cmds : List Cmd} (h : drawEdgesOn g sc pos ax flow dir kw = .ok cmds) :
    ∃ (edges : List Edge) (color cm : KwVal) (lim : KwVal × KwVal × List Cmd) (colors : List KwVal) (es ts : List Cmd),
      (∀ d, flow = some d → edges = Dict.keys d ∧ color = .nums (Dict.values d)) ∧
      (flow = none → edges = sc.edges ∧ color = kw.arg "edge_color" (.str "lightblue")) ∧
      checkCmap color (kw.arg "edge_cmap" (.obj "Blues")) = .ok cm ∧
      colorLimits color (kw.arg "edge_vmin" .none) (kw.arg "edge_vmax" .none) cm ax = .ok lim ∧
      edgeColors (g.order edges) edges color = .ok colors ∧
      ((g.order edges).zip colors).mapM (edgeCmd pos ax [("width", kw.arg "edge_width" (.num 1)),
        ("alpha", kw.arg "alpha" (.num (8 / 10))), ("arrowsize", kw.arg "arrowsize" (.num 10)),
        ("edge_cmap", cm), ("edge_vmin", lim.1), ("edge_vmax", lim.2.1),
        ("arrows", .obj (if dir then "True" else "False"))]) = .ok es ∧
      sc.triangles.mapM (triangleCmd pos ax) = .ok ts ∧ cmds = lim.2.2 ++ es ++ ts := by
  unfold drawEdgesOn at h
  obtain ⟨cm, h0, h⟩ := pyBind_ok h
  obtain ⟨lim, h1, h⟩ := pyBind_ok h
  obtain ⟨colors, h2, h⟩ := pyBind_ok h
  obtain ⟨es, h3, h⟩ := pyBind_ok h
  obtain ⟨ts, h4, h⟩ := pyBind_ok h
  cases h
  refine ⟨_, _, cm, lim, colors, es, ts, ?_, ?_, h0, h1, h2, h3, h4, rfl⟩
  · rintro d rfl
    exact ⟨rfl, rfl⟩
  · rintro rfl
    exact ⟨rfl, rfl⟩

theorem edgeCmd_ok {pos : Dict Int Pt} {opts : Kw} {e : Edge × KwVal} {c : Cmd} (h : edgeCmd pos ax opts e = .ok c) :
    ∃ a b, pos.get? e.1.1 = some a ∧ pos.get? e.1.2 = some b ∧ c = ⟨ax, .edge e.1 a b e.2, opts⟩ := by
  unfold edgeCmd at h
  obtain ⟨a, h1, h⟩ := pyBind_ok h
  obtain ⟨b, h2, h⟩ := pyBind_ok h
  cases h
  exact ⟨a, b, Dict.getItem_ok.1 h1, Dict.getItem_ok.1 h2, rfl⟩

theorem triangleCmd_ok {pos : Dict Int Pt} {t : List Int} {c : Cmd} (h : triangleCmd pos ax t = .ok c) :
    ∃ i j k a b d, t = [i, j, k] ∧ pos.get? i = some a ∧ pos.get? j = some b ∧ pos.get? k = some d ∧
      c = ⟨ax, .triangle a b d, []⟩ := by
  unfold triangleCmd at h
  obtain ⟨⟨i, j, k⟩, h0, h⟩ := pyBind_ok h
  obtain ⟨a, h1, h⟩ := pyBind_ok h
  obtain ⟨b, h2, h⟩ := pyBind_ok h
  obtain ⟨d, h3, h⟩ := pyBind_ok h
  cases h
  refine ⟨i, j, k, a, b, d, ?_, Dict.getItem_ok.1 h1, Dict.getItem_ok.1 h2, Dict.getItem_ok.1 h3, rfl⟩
  unfold unpack3 at h0
  split at h0
  · cases h0; rfl
  · cases h0

theorem nodeLabel_ok {pos : Dict Int Pt} {kw : Kw} {n : Int} {c : Cmd} (h : nodeLabel pos cur kw n = .ok c) :
    ∃ q opts, pos.get? n = some q ∧ c = ⟨cur, .nodeLabel q n, opts⟩ ∧
      opts = [("fontsize", kw.arg "font_size" (.num 12)), ("color", kw.arg "font_color" (.str "k")),
        ("weight", kw.arg "font_weight" (.str "normal")), ("alpha", kw.arg "alpha" (.num (8 / 10)))] := by
  unfold nodeLabel at h
  obtain ⟨q, h1, h⟩ := pyBind_ok h
  cases h
  exact ⟨q, _, Dict.getItem_ok.1 h1, rfl, rfl⟩

theorem edgeLabelCmd_ok {pos : Dict Int Pt} {kw : Kw} {e : Edge × ℝ} {c : Cmd}
    (h : edgeLabelCmd pos ax kw e = .ok c) :
    ∃ o q, kw.arg "offset" (.num (15 / 100)) = .num o ∧ edgeLabelPosition pos e.1.1 e.1.2 o = .ok q ∧
      c = ⟨ax, .edgeLabel q e.2, [("size", kw.arg "font_size" (.num 10)), ("color", kw.arg "font_color" (.str "k")),
        ("weight", kw.arg "font_weight" (.str "normal")), ("alpha", kw.arg "alpha" .none)]⟩ := by
  unfold edgeLabelCmd at h
  obtain ⟨-, -, h⟩ := pyBind_ok h
  obtain ⟨-, -, h⟩ := pyBind_ok h
  obtain ⟨o, h1, h⟩ := pyBind_ok h
  obtain ⟨q, h2, h⟩ := pyBind_ok h
  cases h
  refine ⟨o, q, ?_, h2, rfl⟩
  cases ha : kw.arg "offset" (.num (15 / 100)) <;> rw [ha] at h1 <;> cases h1
  rfl

theorem marginCmds_mem {m : KwVal} {c : Cmd} (h : c ∈ marginCmds ax m) : c = ⟨ax, .margins m, []⟩ := by
  cases m <;> simp_all [marginCmds]

/-- the pieces of a successful `draw_network` -/
theorem drawNetwork_ok {fa : FlowArg} {dir wl : Bool} {kwargs : Kw} {cmds : List Cmd}
    (h : (p.drawNetwork g ax cur fa dir wl kwargs).1 = .ok cmds) :
    ∃ kw a b c, kw = (if kwargs.length = 0 then defaultKwargs else kwargs) ∧ (∀ k ∈ Dict.keys kw, k ∈ validKwargs) ∧
      (p.drawScNodes g ax cur wl (kw.restrict nodeParams)).1 = .ok a ∧
      ((p.placed g).drawScEdges g ax (fa.toDict p.sc) dir (kw.restrict edgeParams)).1 = .ok b ∧
      networkLabels g (p.placed g) ax (fa.toDict p.sc) wl kw = .ok c ∧ cmds = a ++ b ++ c := by
  unfold SCPlot.drawNetwork at h
  simp only at h
  generalize hk : (if kwargs.length = 0 then defaultKwargs else kwargs) = kw at h
  by_cases h0 : ∃ k ∈ Dict.keys kw, k ∉ validKwargs
  · rw [if_pos h0] at h
    cases h
  rw [if_neg h0] at h
  obtain ⟨a, h1, h⟩ := pyBind_ok h
  obtain ⟨b, h2, h⟩ := pyBind_ok h
  obtain ⟨c, h3, h⟩ := pyBind_ok h
  cases h
  have e1 : (p.drawScNodes g ax cur wl (kw.restrict nodeParams)).2 = p.placed g := initAxes_snd
  have e2 : ((p.placed g).drawScEdges g ax (fa.toDict p.sc) dir (kw.restrict edgeParams)).2 = p.placed g := by
    refine initAxes_snd.trans ?_
    rfl
  rw [e1] at h2 h3
  rw [e2] at h3
  push Not at h0
  exact ⟨kw, a, b, c, rfl, h0, h1, h2, h3, rfl⟩

/-- the plot object after `draw_network` -/
theorem drawNetwork_snd {fa : FlowArg} {dir wl : Bool} {kwargs : Kw} :
    (p.drawNetwork g ax cur fa dir wl kwargs).2 = p ∨ (p.drawNetwork g ax cur fa dir wl kwargs).2 = p.placed g := by
  unfold SCPlot.drawNetwork
  simp only
  split_ifs
  · exact .inl rfl
  · exact .inr initAxes_snd
  · exact .inl rfl
  · exact .inr initAxes_snd

theorem drawNetwork_snd_ok {fa : FlowArg} {dir wl : Bool} {kwargs : Kw} {cmds : List Cmd}
    (h : (p.drawNetwork g ax cur fa dir wl kwargs).1 = .ok cmds) :
    (p.drawNetwork g ax cur fa dir wl kwargs).2 = p.placed g := by
  unfold SCPlot.drawNetwork at h ⊢
  simp only at h ⊢
  split_ifs at h ⊢ <;> exact initAxes_snd

end Pytspl
