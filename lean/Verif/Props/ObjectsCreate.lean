import Verif.Props.Objects

/-!
# What the constructors store

C117: a complex created in a running program, directly or by a builder, is the one the constructor gives for the
present contents of its arguments; arguments that are left out are empty.
-/

namespace Pytspl

variable {K : Type} [CommRing K]

/-! ## Specification -/

/-- The command changes one of the objects that exist before the program starts: the default arguments. -/
def ProgCmd.ChangesDefault : ProgCmd → Prop
  | .changeNodes i _ | .changeEdges i _ | .changeTriangles i _ => i = 0
  | .changeNodeDict i _ | .changeEdgeDict i _ => i = 0 ∨ i = 1
  | _ => False

/-- Contents of an argument: empty if it is not given. -/
def argument {α : Type} (objects : List (List α)) : Option ℕ → Option (List α)
  | none => some []
  | some i => objects[i]?

/-- `c` shows the attributes and holds the matrices of `sc`. -/
def World.Shows (w : World K) (c : ComplexObj K) (sc : SC K) : Prop :=
  w.simplicesOf c = some (sc.nodes, sc.edges, sc.triangles) ∧ w.featuresOf c = some (sc.nodeFeatures, sc.edgeFeatures) ∧
    c.B1 = .mat sc.nodes.length sc.edges.length sc.B1 ∧ c.B2 = .mat sc.edges.length sc.triangles.length sc.B2

/-- Going from `w` to `w'` the call with outcome `r` was executed: it added a complex like the one returned, or raised
and added none. -/
def World.Created (w w' : World K) (r : Py (SC K)) : Prop :=
  match r with
  | .ok sc => ∃ c, w'.complexes = w.complexes ++ [c] ∧ w'.Shows c sc
  | .error _ => w'.complexes = w.complexes

/-! ## Auxiliary facts -/

/-- The default objects are empty. -/
def Heap.DefaultsEmpty (h : Heap) : Prop :=
  h.nodeLists[0]? = some [] ∧ h.edgeLists[0]? = some [] ∧ h.triLists[0]? = some [] ∧
    h.nodeDicts[0]? = some [] ∧ h.nodeDicts[1]? = some [] ∧ h.edgeDicts[0]? = some [] ∧ h.edgeDicts[1]? = some []

theorem World.exec_defaults (w : World K) (cmd : ProgCmd) (hc : ¬ cmd.ChangesDefault) (h : w.heap.DefaultsEmpty) :
    (w.exec cmd).heap.DefaultsEmpty := by
  obtain ⟨h1, h2, h3, h4, h5, h6, h7⟩ := h
  cases cmd with
  | makeNodes v => exact ⟨append_getElem?_of_some h1 _, h2, h3, h4, h5, h6, h7⟩
  | makeEdges v => exact ⟨h1, append_getElem?_of_some h2 _, h3, h4, h5, h6, h7⟩
  | makeTriangles v => exact ⟨h1, h2, append_getElem?_of_some h3 _, h4, h5, h6, h7⟩
  | makeNodeDict v => exact ⟨h1, h2, h3, append_getElem?_of_some h4 _, append_getElem?_of_some h5 _, h6, h7⟩
  | makeEdgeDict v => exact ⟨h1, h2, h3, h4, h5, append_getElem?_of_some h6 _, append_getElem?_of_some h7 _⟩
  | changeNodes i v => exact ⟨set_getElem?_of_ne h1 v hc, h2, h3, h4, h5, h6, h7⟩
  | changeEdges i v => exact ⟨h1, set_getElem?_of_ne h2 v hc, h3, h4, h5, h6, h7⟩
  | changeTriangles i v => exact ⟨h1, h2, set_getElem?_of_ne h3 v hc, h4, h5, h6, h7⟩
  | changeNodeDict i v =>
    exact ⟨h1, h2, h3, set_getElem?_of_ne h4 v fun e => hc (Or.inl e), set_getElem?_of_ne h5 v fun e => hc (Or.inr e), h6, h7⟩
  | changeEdgeDict i v =>
    exact ⟨h1, h2, h3, h4, h5, set_getElem?_of_ne h6 v fun e => hc (Or.inl e), set_getElem?_of_ne h7 v fun e => hc (Or.inr e)⟩
  | builder n e nf ef => exact ⟨h1, h2, h3, h4, h5, h6, h7⟩
  | complex n e t nf ef =>
    change (w.newComplex _ _ _ _ _).heap.DefaultsEmpty
    rw [World.newComplex_heap]; exact ⟨h1, h2, h3, h4, h5, h6, h7⟩
  | build i condition col eps t =>
    change (w.toComplex i condition col eps t).heap.DefaultsEmpty
    rcases w.toComplex_cases i condition col eps t with h' | ⟨b, hb, t', rfl, h'⟩ | ⟨b, hb, rfl, ts', h'⟩
    · rw [h']; exact ⟨h1, h2, h3, h4, h5, h6, h7⟩
    · rw [h', World.newComplex_heap]; exact ⟨h1, h2, h3, h4, h5, h6, h7⟩
    · rw [h', World.newComplex_heap]; exact ⟨h1, h2, append_getElem?_of_some h3 _, h4, h5, h6, h7⟩

theorem World.run_defaults (w : World K) (cmds : List ProgCmd) (hc : ∀ cmd ∈ cmds, ¬ cmd.ChangesDefault)
    (h : w.heap.DefaultsEmpty) : (w.run cmds).heap.DefaultsEmpty := by
  induction cmds generalizing w with
  | nil => exact h
  | cons cmd cmds ih =>
    exact ih (w.exec cmd) (fun x hx => hc x (List.mem_cons_of_mem _ hx)) (w.exec_defaults cmd (hc cmd List.mem_cons_self) h)

omit [CommRing K] in
theorem World.initial_defaults : (World.initial : World K).heap.DefaultsEmpty := ⟨rfl, rfl, rfl, rfl, rfl, rfl, rfl⟩

theorem getD_argument {α : Type} {l : List (List α)} {o : Option ℕ} {d : ℕ} {v : List α} (hd : l[d]? = some [])
    (h : argument l o = some v) : l[o.getD d]? = some v := by
  cases o with
  | none => exact hd.trans h
  | some i => exact h

/-- The constructor on references is the constructor on the contents. -/
theorem World.newComplex_created (w : World K) {n e t nf ef : ℕ} {ns : List Int} {es : List Edge} {ts : List (List Int)}
    {nfv : NodeFeatures} {efv : EdgeFeatures} (h1 : w.heap.nodeLists[n]? = some ns) (h2 : w.heap.edgeLists[e]? = some es)
    (h3 : w.heap.triLists[t]? = some ts) (h4 : w.heap.nodeDicts[nf]? = some nfv) (h5 : w.heap.edgeDicts[ef]? = some efv) :
    w.Created (w.newComplex n e t nf ef) (SC.init ns es ts nfv efv) := by
  have hw : w.newComplex n e t nf ef = match arraysOf K ns es ts with
      | .ok (B1, B2) => { w with complexes := w.complexes ++ [⟨n, e, t, nf, ef, B1, B2⟩] }
      | .error _ => w := by
    unfold World.newComplex
    simp only [h1, h2, h3]
    cases arraysOf K ns es ts <;> rfl
  rw [hw]
  unfold World.Created SC.init arraysOf
  cases g1 : edgesToB1 (K := K) es ns.length with
  | error e => rfl
  | ok M1 =>
    cases g2 : trianglesToB2 (K := K) ts es with
    | error e => rfl
    | ok M2 =>
      refine ⟨⟨n, e, t, nf, ef, .mat _ _ M1, .mat _ _ M2⟩, rfl, simplicesOf_eq.2 ⟨h1, h2, h3⟩, featuresOf_eq.2 ⟨h4, h5⟩, rfl, rfl⟩

/-! ## C117 -/

/-- C117: in every program that leaves the default arguments alone, `SimplicialComplex(...)` gives the complex that the
constructor computes from the present contents of its arguments, with empty lists and dictionaries for those left out,
or raises as the constructor does. -/
theorem C117_complex (cmds : List ProgCmd) (hd : ∀ x ∈ cmds, ¬ x.ChangesDefault) (n e t nf ef : Option ℕ)
    (ns : List Int) (es : List Edge) (ts : List (List Int)) (nfv : NodeFeatures) (efv : EdgeFeatures) (w : World K)
    (hw : w = (World.initial : World K).run cmds)
    (h1 : argument w.heap.nodeLists n = some ns) (h2 : argument w.heap.edgeLists e = some es)
    (h3 : argument w.heap.triLists t = some ts) (h4 : argument w.heap.nodeDicts nf = some nfv)
    (h5 : argument w.heap.edgeDicts ef = some efv) :
    w.Created (w.exec (.complex n e t nf ef)) (SC.init ns es ts nfv efv) := by
  subst hw
  obtain ⟨d1, d2, d3, -, d5, -, d7⟩ := World.run_defaults (World.initial : World K) cmds hd World.initial_defaults
  exact World.newComplex_created _ (getD_argument d1 h1) (getD_argument d2 h2) (getD_argument d3 h3)
    (getD_argument d5 h4) (getD_argument d7 h5)

/-- C117: a complex made from nothing is empty, whatever the program did before. -/
theorem C117_empty (cmds : List ProgCmd) (hd : ∀ x ∈ cmds, ¬ x.ChangesDefault) (w : World K)
    (hw : w = (World.initial : World K).run cmds) :
    ∃ c, (w.exec (.complex none none none none none)).complexes = w.complexes ++ [c] ∧
      (w.exec (.complex none none none none none)).simplicesOf c = some ([], [], []) ∧
      (w.exec (.complex none none none none none)).featuresOf c = some ([], []) := by
  have h := C117_complex cmds hd none none none none none [] [] [] [] [] w hw rfl rfl rfl rfl rfl
  obtain ⟨sc, hsc⟩ : ∃ sc : SC K, SC.init [] [] [] [] [] = .ok sc := by
    obtain ⟨B1, B2, h⟩ := exists_arrays (K := K) (ns := []) (es := []) (by simp)
    obtain ⟨sc, hb, e1, e2, e3, -, -⟩ := arraysOf_built h
    unfold SC.Built at hb
    unfold SC.init at hb ⊢
    rw [e1, e2, e3] at hb
    cases g1 : edgesToB1 (K := K) [] ([] : List Int).length with
    | error e => rw [g1] at hb; cases hb
    | ok M1 =>
      cases g2 : trianglesToB2 (K := K) [] [] with
      | error e => rw [g1, g2] at hb; cases hb
      | ok M2 => exact ⟨_, rfl⟩
  rw [hsc] at h
  obtain ⟨c, hc, hs, hf, -⟩ := h
  obtain ⟨a1, a2, a3, a4, a5⟩ : sc.nodes = [] ∧ sc.edges = [] ∧ sc.triangles = [] ∧ sc.nodeFeatures = [] ∧ sc.edgeFeatures = [] := by
    unfold SC.init at hsc
    cases g1 : edgesToB1 (K := K) [] ([] : List Int).length with
    | error e => rw [g1] at hsc; cases hsc
    | ok M1 =>
      cases g2 : trianglesToB2 (K := K) [] [] with
      | error e => rw [g1, g2] at hsc; cases hsc
      | ok M2 =>
        rw [g1, g2] at hsc
        rw [← Except.ok.inj hsc]
        exact ⟨rfl, rfl, rfl, rfl, rfl⟩
  rw [a1, a2, a3] at hs
  rw [a4, a5] at hf
  exact ⟨c, hc, hs, hf⟩

/-- The `j`-th builder stays what it was. -/
theorem World.run_builders (w : World K) (cmds : List ProgCmd) {j : ℕ} {b : BuilderObj} (h : w.builders[j]? = some b) :
    (w.run cmds).builders[j]? = some b := by
  have hn : ∀ (w : World K) n e t nf ef, (w.newComplex n e t nf ef).builders = w.builders := by
    intro w n e t nf ef
    unfold World.newComplex
    split
    · split <;> rfl
    · rfl
  induction cmds generalizing w with
  | nil => exact h
  | cons cmd cmds ih =>
    refine ih (w.exec cmd) ?_
    cases cmd with
    | builder n e nf ef => exact append_getElem?_of_some h _
    | complex n e t nf ef =>
      change (w.newComplex _ _ _ _ _).builders[j]? = _
      rw [hn, h]
    | build i condition col eps t =>
      change (w.toComplex i condition col eps t).builders[j]? = _
      rcases w.toComplex_cases i condition col eps t with h' | ⟨b, hb, t', rfl, h'⟩ | ⟨b, hb, rfl, ts', h'⟩
      · rw [h', h]
      · rw [h', hn, h]
      · rw [h', hn, h]
    | _ => exact h

/-- C117: a builder made at any point of a program that leaves the default arguments alone gives, at any later point,
the complex that `to_simplicial_complex` computes from the present contents of the lists and dictionaries the builder
was given, with empty dictionaries for the features left out, or raises as it does. -/
theorem C117_builder (before between : List ProgCmd) (n e : ℕ) (nf ef : Option ℕ)
    (hd : ∀ x ∈ before ++ [.builder n e nf ef] ++ between, ¬ x.ChangesDefault)
    (condition col : String) (eps : ℚ) (t : Option ℕ) (i : ℕ) (w : World K)
    (hi : i = ((World.initial : World K).run before).builders.length)
    (hw : w = (World.initial : World K).run (before ++ [.builder n e nf ef] ++ between))
    (ns : List Int) (es : List Edge) (ts : Option (List (List Int))) (nfv : NodeFeatures) (efv : EdgeFeatures)
    (h1 : w.heap.nodeLists[n]? = some ns) (h2 : w.heap.edgeLists[e]? = some es)
    (h3 : argument w.heap.nodeDicts nf = some nfv) (h4 : argument w.heap.edgeDicts ef = some efv)
    (h5 : (t = none ∧ ts = none) ∨ ∃ t' v, t = some t' ∧ ts = some v ∧ w.heap.triLists[t']? = some v) :
    w.Created (w.exec (.build i condition col eps t))
      (SCBuilder.toSimplicialComplex K ⟨ns, es, nfv, efv⟩ condition col eps ts) := by
  obtain ⟨-, -, -, d4, -, d6, -⟩ := World.run_defaults (World.initial : World K) _ hd World.initial_defaults
  rw [← hw] at d4 d6
  have hb : w.builders[i]? = some ⟨n, e, nf.getD 0, ef.getD 0⟩ := by
    rw [hw, World.run_append, World.run_append]
    apply World.run_builders
    change (((World.initial : World K).run before).builders ++ [_])[i]? = _
    rw [hi]
    simp
  have h3' := getD_argument d4 h3
  have h4' := getD_argument d6 h4
  change w.Created (w.toComplex i condition col eps t) _
  unfold World.toComplex
  rw [hb]
  rcases h5 with ⟨rfl, rfl⟩ | ⟨t', v, rfl, rfl, h5⟩
  · have hv : w.builderValue ⟨n, e, nf.getD 0, ef.getD 0⟩ = some ⟨ns, es, nfv, efv⟩ := by
      unfold World.builderValue
      simp only [h1, h2, h3', h4']
    simp only [hv]
    unfold SCBuilder.toSimplicialComplex
    cases hch : (⟨ns, es, nfv, efv⟩ : SCBuilder).chooseTriangles condition col eps none with
    | error er => rfl
    | ok ts =>
      refine World.newComplex_created (K := K) { w with heap := { w.heap with triLists := w.heap.triLists ++ [ts] } } h1 h2 ?_ h3' h4'
      simp
  · exact World.newComplex_created w h1 h2 h5 h3' h4'

/-- The lists of a path 0-1-2. -/
def lateProgram : List ProgCmd := [.makeNodes [0, 1, 2], .makeEdges [(0, 1), (1, 2)]]

/-- The hypotheses of `C117_builder` are met: the complex built has the third edge, which was appended after the builder
was made, and the triangle. -/
example : ∃ sc : SC K, SCBuilder.toSimplicialComplex K ⟨[0, 1, 2], [(0, 1), (1, 2), (0, 2)], [], []⟩ "all" "distance" (3 / 2) none
      = .ok sc ∧ sc.triangles = [[0, 1, 2]] ∧
    ((World.initial : World K).run (lateProgram ++ [.builder 1 1 none none] ++ [.changeEdges 1 [(0, 1), (1, 2), (0, 2)]])).Created
      (((World.initial : World K).run (lateProgram ++ [.builder 1 1 none none] ++
        [.changeEdges 1 [(0, 1), (1, 2), (0, 2)]])).exec (.build 0 "all" "distance" (3 / 2) none)) (.ok sc) := by
  have h := C117_builder (K := K) lateProgram [.changeEdges 1 [(0, 1), (1, 2), (0, 2)]] 1 1 none none
    (by simp [lateProgram, ProgCmd.ChangesDefault]) "all" "distance" (3 / 2) none 0 _ rfl rfl
    [0, 1, 2] [(0, 1), (1, 2), (0, 2)] none [] [] rfl rfl rfl rfl (Or.inl ⟨rfl, rfl⟩)
  have ht : (⟨[0, 1, 2], [(0, 1), (1, 2), (0, 2)], [], []⟩ : SCBuilder).triangles = [[0, 1, 2]] := by decide +kernel
  cases hsc : SCBuilder.toSimplicialComplex K ⟨[0, 1, 2], [(0, 1), (1, 2), (0, 2)], [], []⟩ "all" "distance" (3 / 2) none with
  | error er =>
    exfalso
    unfold SCBuilder.toSimplicialComplex SCBuilder.chooseTriangles SC.init at hsc
    simp only [if_true, ht] at hsc
    cases g1 : edgesToB1 (K := K) [(0, 1), (1, 2), (0, 2)] ([0, 1, 2] : List Int).length with
    | error e =>
      obtain ⟨-, ed, he, hx⟩ := edgesToB1_error_iff.1 g1
      simp only [List.mem_cons, List.not_mem_nil, or_false] at he
      rcases he with rfl | rfl | rfl <;> simp at hx
    | ok M1 =>
      simp only [g1] at hsc
      cases hsc
  | ok sc =>
    rw [hsc] at h
    refine ⟨sc, rfl, ?_, h⟩
    unfold SCBuilder.toSimplicialComplex SCBuilder.chooseTriangles SC.init at hsc
    simp only [if_true, ht] at hsc
    cases g1 : edgesToB1 (K := K) [(0, 1), (1, 2), (0, 2)] ([0, 1, 2] : List Int).length with
    | error e => simp only [g1] at hsc; cases hsc
    | ok M1 =>
      simp only [g1] at hsc
      cases hsc
      rfl

end Pytspl
