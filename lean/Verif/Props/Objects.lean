import Verif.Model.Objects
import Verif.Props.Incidence

/-!
# Builders and complexes in a running program

C103: the operators of a complex belong to its simplices; C104: objects do not influence each other.
Both hold only as long as the shared lists and dictionaries are not changed.
-/

namespace Pytspl

variable {K : Type} [CommRing K]

/-! ## Specification -/

/-- The complex reads its simplices as those of a freshly constructed complex whose incidence matrices are the ones
it holds. -/
def World.Consistent (w : World K) (c : ComplexObj K) : Prop :=
  ∃ sc : SC K, sc.Built ∧ w.simplicesOf c = some (sc.nodes, sc.edges, sc.triangles) ∧
    c.B1 = .mat sc.nodes.length sc.edges.length sc.B1 ∧ c.B2 = .mat sc.edges.length sc.triangles.length sc.B2

/-- The command changes the list of nodes, edges or triangles the complex refers to. -/
def ProgCmd.ChangesSimplices (c : ComplexObj K) : ProgCmd → Prop
  | .changeNodes i _ => i = c.nodes
  | .changeEdges i _ => i = c.edges
  | .changeTriangles i _ => i = c.triangles
  | _ => False

/-- The command changes a feature dictionary the complex refers to. -/
def ProgCmd.ChangesFeatures (c : ComplexObj K) : ProgCmd → Prop
  | .changeNodeDict i _ => i = c.nodeFeatures
  | .changeEdgeDict i _ => i = c.edgeFeatures
  | _ => False

/-! ## Auxiliary facts -/

theorem World.newComplex_heap (w : World K) (n e t nf ef : ℕ) : (w.newComplex n e t nf ef).heap = w.heap := by
  unfold World.newComplex
  split
  · split <;> rfl
  · rfl

/-- Either nothing is created, or one complex with the given references. -/
theorem World.newComplex_cases (w : World K) (n e t nf ef : ℕ) :
    (w.newComplex n e t nf ef).complexes = w.complexes ∨
    ∃ ns es ts B1 B2, w.heap.nodeLists[n]? = some ns ∧ w.heap.edgeLists[e]? = some es ∧
      w.heap.triLists[t]? = some ts ∧ arraysOf K ns es ts = .ok (B1, B2) ∧
      (w.newComplex n e t nf ef).complexes = w.complexes ++ [⟨n, e, t, nf, ef, B1, B2⟩] := by
  unfold World.newComplex
  split
  · rename_i ns es ts h1 h2 h3
    split
    · rename_i B1 B2 h
      exact Or.inr ⟨ns, es, ts, B1, B2, h1, h2, h3, h, rfl⟩
    · exact Or.inl rfl
  · exact Or.inl rfl

theorem World.toComplex_cases (w : World K) (i : ℕ) (condition col : String) (eps : ℚ) (t : Option ℕ) :
    (w.toComplex i condition col eps t) = w ∨
    (∃ b, w.builders[i]? = some b ∧ ∃ t', t = some t' ∧ w.toComplex i condition col eps t =
      w.newComplex b.nodes b.edges t' b.nodeFeatures b.edgeFeatures) ∨
    ∃ b, w.builders[i]? = some b ∧ t = none ∧ ∃ ts, w.toComplex i condition col eps t =
      World.newComplex { w with heap := { w.heap with triLists := w.heap.triLists ++ [ts] } } b.nodes b.edges
        w.heap.triLists.length b.nodeFeatures b.edgeFeatures := by
  unfold World.toComplex
  split
  · exact Or.inl rfl
  · rename_i b hb
    split
    · rename_i t'
      exact Or.inr (Or.inl ⟨b, hb, t', rfl, rfl⟩)
    · split
      · exact Or.inl rfl
      · split
        · exact Or.inl rfl
        · rename_i ts _
          refine Or.inr (Or.inr ⟨b, hb, rfl, ts, ?_⟩)
          simp

theorem arraysOf_built {ns : List Int} {es : List Edge} {ts : List (List Int)} {B1 B2 : PyArr K}
    (h : arraysOf K ns es ts = .ok (B1, B2)) : ∃ sc : SC K, sc.Built ∧ sc.nodes = ns ∧ sc.edges = es ∧ sc.triangles = ts ∧
      B1 = .mat sc.nodes.length sc.edges.length sc.B1 ∧ B2 = .mat sc.edges.length sc.triangles.length sc.B2 := by
  unfold arraysOf at h
  cases h1 : edgesToB1 (K := K) es ns.length with
  | error e => rw [h1] at h; cases h
  | ok M1 =>
    cases h2 : trianglesToB2 (K := K) ts es with
    | error e => rw [h1, h2] at h; cases h
    | ok M2 =>
      rw [h1, h2] at h
      have h := Except.ok.inj h
      have ha := congrArg Prod.fst h
      have hb := congrArg Prod.snd h
      refine ⟨⟨ns, es, ts, [], [], M1, M2⟩, ?_, rfl, rfl, rfl, ha.symm, hb.symm⟩
      unfold SC.Built SC.init
      simp only [h1, h2]
      rfl

/-- The complexes a command adds. -/
theorem World.exec_complexes (w : World K) (cmd : ProgCmd) :
    (w.exec cmd).complexes = w.complexes ∨ ∃ c, (w.exec cmd).complexes = w.complexes ++ [c] ∧ (w.exec cmd).Consistent c := by
  have key : ∀ (w' : World K) (n e t nf ef : ℕ), w'.complexes = w.complexes →
      (w'.newComplex n e t nf ef).complexes = w.complexes ∨
      ∃ c, (w'.newComplex n e t nf ef).complexes = w.complexes ++ [c] ∧ (w'.newComplex n e t nf ef).Consistent c := by
    intro w' n e t nf ef hw
    rcases w'.newComplex_cases n e t nf ef with h | ⟨ns, es, ts, B1, B2, h1, h2, h3, ha, h⟩
    · exact Or.inl (h.trans hw)
    · refine Or.inr ⟨_, by rw [h, hw], ?_⟩
      obtain ⟨sc, hb, e1, e2, e3, e4, e5⟩ := arraysOf_built ha
      refine ⟨sc, hb, ?_, e4, e5⟩
      unfold World.simplicesOf
      rw [w'.newComplex_heap]
      simp only [h1, h2, h3, e1, e2, e3]
  cases cmd with
  | builder n e nf ef => exact Or.inl rfl
  | build i condition col eps t =>
    rcases w.toComplex_cases i condition col eps t with h | ⟨b, hb, t', rfl, h⟩ | ⟨b, hb, rfl, ts, h⟩
    · left; change (w.toComplex i condition col eps t).complexes = _; rw [h]
    · change (w.toComplex i condition col eps (some t')).complexes = _ ∨ ∃ c, (w.toComplex i condition col eps (some t')).complexes = _ ∧
        (w.toComplex i condition col eps (some t')).Consistent c
      rw [h]; exact key w _ _ _ _ _ rfl
    · change (w.toComplex i condition col eps none).complexes = _ ∨ ∃ c, (w.toComplex i condition col eps none).complexes = _ ∧
        (w.toComplex i condition col eps none).Consistent c
      rw [h]; exact key _ _ _ _ _ _ rfl
  | complex n e t nf ef => exact key w _ _ _ _ _ rfl
  | _ => exact Or.inl rfl

theorem append_getElem?_of_some {α : Type} {l : List α} {i : ℕ} {a : α} (h : l[i]? = some a) (m : List α) :
    (l ++ m)[i]? = some a := by
  rw [List.getElem?_append_left (List.getElem?_eq_some_iff.1 h).1, h]

theorem set_getElem?_of_ne {α : Type} {l : List α} {i j : ℕ} {a : α} (h : l[i]? = some a) (v : α) (hij : j ≠ i) :
    (l.set j v)[i]? = some a := by
  rw [List.getElem?_set_ne hij, h]

omit [CommRing K] in
theorem simplicesOf_eq {w : World K} {c : ComplexObj K} {ns : List Int} {es : List Edge} {ts : List (List Int)} :
    w.simplicesOf c = some (ns, es, ts) ↔ w.heap.nodeLists[c.nodes]? = some ns ∧ w.heap.edgeLists[c.edges]? = some es ∧
      w.heap.triLists[c.triangles]? = some ts := by
  unfold World.simplicesOf
  cases w.heap.nodeLists[c.nodes]? <;> cases w.heap.edgeLists[c.edges]? <;> cases w.heap.triLists[c.triangles]? <;> simp

omit [CommRing K] in
theorem featuresOf_eq {w : World K} {c : ComplexObj K} {nf : NodeFeatures} {ef : EdgeFeatures} :
    w.featuresOf c = some (nf, ef) ↔ w.heap.nodeDicts[c.nodeFeatures]? = some nf ∧
      w.heap.edgeDicts[c.edgeFeatures]? = some ef := by
  unfold World.featuresOf
  cases w.heap.nodeDicts[c.nodeFeatures]? <;> cases w.heap.edgeDicts[c.edgeFeatures]? <;> simp

/-- A command that does not change an object the complex refers to leaves what it reads. -/
theorem World.exec_simplices (w : World K) (cmd : ProgCmd) (c : ComplexObj K) (hc : ¬ cmd.ChangesSimplices c)
    {s : List Int × List Edge × List (List Int)} (h : w.simplicesOf c = some s) : (w.exec cmd).simplicesOf c = some s := by
  obtain ⟨ns, es, ts⟩ := s
  have h' := simplicesOf_eq.1 h
  obtain ⟨h1, h2, h3⟩ := h'
  cases cmd with
  | makeNodes v => exact simplicesOf_eq.2 ⟨append_getElem?_of_some h1 _, h2, h3⟩
  | makeEdges v => exact simplicesOf_eq.2 ⟨h1, append_getElem?_of_some h2 _, h3⟩
  | makeTriangles v => exact simplicesOf_eq.2 ⟨h1, h2, append_getElem?_of_some h3 _⟩
  | changeNodes i v => exact simplicesOf_eq.2 ⟨set_getElem?_of_ne h1 v hc, h2, h3⟩
  | changeEdges i v => exact simplicesOf_eq.2 ⟨h1, set_getElem?_of_ne h2 v hc, h3⟩
  | changeTriangles i v => exact simplicesOf_eq.2 ⟨h1, h2, set_getElem?_of_ne h3 v hc⟩
  | build i condition col eps t =>
    change (w.toComplex i condition col eps t).simplicesOf c = _
    rcases w.toComplex_cases i condition col eps t with h' | ⟨b, hb, t', rfl, h'⟩ | ⟨b, hb, rfl, ts', h'⟩
    · rw [h', h]
    · rw [h', simplicesOf_eq, World.newComplex_heap]; exact ⟨h1, h2, h3⟩
    · rw [h', simplicesOf_eq, World.newComplex_heap]; exact ⟨h1, h2, append_getElem?_of_some h3 _⟩
  | complex n e t nf ef =>
    change (w.newComplex _ _ _ _ _).simplicesOf c = _
    rw [simplicesOf_eq, World.newComplex_heap]; exact ⟨h1, h2, h3⟩
  | _ => exact h

theorem World.exec_features (w : World K) (cmd : ProgCmd) (c : ComplexObj K) (hc : ¬ cmd.ChangesFeatures c)
    {s : NodeFeatures × EdgeFeatures} (h : w.featuresOf c = some s) : (w.exec cmd).featuresOf c = some s := by
  obtain ⟨nf, ef⟩ := s
  obtain ⟨h1, h2⟩ := featuresOf_eq.1 h
  cases cmd with
  | makeNodeDict v => exact featuresOf_eq.2 ⟨append_getElem?_of_some h1 _, h2⟩
  | makeEdgeDict v => exact featuresOf_eq.2 ⟨h1, append_getElem?_of_some h2 _⟩
  | changeNodeDict i v => exact featuresOf_eq.2 ⟨set_getElem?_of_ne h1 v hc, h2⟩
  | changeEdgeDict i v => exact featuresOf_eq.2 ⟨h1, set_getElem?_of_ne h2 v hc⟩
  | build i condition col eps t =>
    change (w.toComplex i condition col eps t).featuresOf c = _
    rcases w.toComplex_cases i condition col eps t with h' | ⟨b, hb, t', rfl, h'⟩ | ⟨b, hb, rfl, ts', h'⟩
    · rw [h', h]
    · rw [h', featuresOf_eq, World.newComplex_heap]; exact ⟨h1, h2⟩
    · rw [h', featuresOf_eq, World.newComplex_heap]; exact ⟨h1, h2⟩
  | complex n e t nf ef =>
    change (w.newComplex _ _ _ _ _).featuresOf c = _
    rw [featuresOf_eq, World.newComplex_heap]; exact ⟨h1, h2⟩
  | _ => exact h

theorem World.run_append (w : World K) (a b : List ProgCmd) : w.run (a ++ b) = (w.run a).run b :=
  List.foldl_append

theorem World.run_simplices (w : World K) (cmds : List ProgCmd) (c : ComplexObj K)
    (hc : ∀ cmd ∈ cmds, ¬ cmd.ChangesSimplices c) {s : List Int × List Edge × List (List Int)}
    (h : w.simplicesOf c = some s) : (w.run cmds).simplicesOf c = some s := by
  induction cmds generalizing w with
  | nil => exact h
  | cons cmd cmds ih =>
    exact ih (w.exec cmd) (fun x hx => hc x (List.mem_cons_of_mem _ hx)) (w.exec_simplices cmd c (hc cmd List.mem_cons_self) h)

theorem World.run_features (w : World K) (cmds : List ProgCmd) (c : ComplexObj K)
    (hc : ∀ cmd ∈ cmds, ¬ cmd.ChangesFeatures c) {s : NodeFeatures × EdgeFeatures}
    (h : w.featuresOf c = some s) : (w.run cmds).featuresOf c = some s := by
  induction cmds generalizing w with
  | nil => exact h
  | cons cmd cmds ih =>
    exact ih (w.exec cmd) (fun x hx => hc x (List.mem_cons_of_mem _ hx)) (w.exec_features cmd c (hc cmd List.mem_cons_self) h)

/-! ## C103: operators and simplices -/

/-- C103: whatever the program does later, a complex keeps the incidence matrices it has (and the references). -/
theorem C103_operators_fixed (w : World K) (cmds : List ProgCmd) (i : ℕ) (c : ComplexObj K) (h : w.complexes[i]? = some c) :
    (w.run cmds).complexes[i]? = some c := by
  induction cmds generalizing w with
  | nil => exact h
  | cons cmd cmds ih =>
    refine ih (w.exec cmd) ?_
    rcases w.exec_complexes cmd with h' | ⟨c', h', -⟩
    · rw [h', h]
    · rw [h']; exact append_getElem?_of_some h _

/-- C103: in every program, the operators of a complex belong to the simplices it reads, as long as the lists it was
given have not been changed since it was created.  Missing: `C103_counterexample`, changing them. -/
theorem C103_consistent_partial (before after : List ProgCmd) (cmd : ProgCmd) (i : ℕ) (c : ComplexObj K)
    (hnew : ((World.initial : World K).run before).complexes[i]? = none)
    (hc : ((World.initial : World K).run (before ++ [cmd])).complexes[i]? = some c)
    (hchange : ∀ x ∈ after, ¬ x.ChangesSimplices c) :
    ((World.initial : World K).run (before ++ [cmd] ++ after)).Consistent c := by
  rw [World.run_append] at hc ⊢
  have hcons : (((World.initial : World K).run before).exec cmd).Consistent c := by
    change (((World.initial : World K).run before).exec cmd).complexes[i]? = some c at hc
    rcases ((World.initial : World K).run before).exec_complexes cmd with h' | ⟨c', h', h''⟩
    · rw [h', hnew] at hc; cases hc
    · rw [h', List.getElem?_append_right (by simpa using hnew)] at hc
      have : c' = c := by
        have := List.mem_of_getElem? hc
        exact (List.mem_singleton.1 this).symm
      exact this ▸ h''
  obtain ⟨sc, hb, h1, h2, h3⟩ := hcons
  refine ⟨sc, hb, ?_, h2, h3⟩
  rw [World.run_append]
  exact World.run_simplices _ _ _ hchange h1

/-- Without triangles, edges between the nodes `0, ..., n-1` are accepted. -/
theorem exists_arrays {ns : List Int} {es : List Edge} (h : ∀ e ∈ es, 0 ≤ e.1 ∧ e.1 < ns.length ∧ 0 ≤ e.2 ∧ e.2 < ns.length) :
    ∃ B1 B2, arraysOf K ns es [] = .ok (B1, B2) := by
  unfold arraysOf
  cases h1 : edgesToB1 (K := K) es ns.length with
  | error e =>
    obtain ⟨-, ed, he, hx⟩ := edgesToB1_error_iff.1 h1
    have := h ed he
    omega
  | ok M1 =>
    cases h2 : trianglesToB2 (K := K) [] es with
    | error e =>
      obtain ⟨-, t, ht, -⟩ := trianglesToB2_error_iff.1 h2
      simp at ht
    | ok M2 => exact ⟨_, _, rfl⟩

/-- A path 0-1-2 is stored and a complex built from it. -/
def staleProgram : List ProgCmd :=
  [.makeNodes [0, 1, 2], .makeEdges [(0, 1), (1, 2)], .builder 1 1 none none, .build 0 "all" "distance" (3 / 2) none]

theorem run_staleProgram : ∃ B1 B2 : PyArr K, (World.initial : World K).run staleProgram =
    ⟨⟨[[], [0, 1, 2]], [[], [(0, 1), (1, 2)]], [[], []], [[], []], [[], []]⟩, [⟨1, 1, 0, 0⟩], [⟨1, 1, 1, 0, 0, B1, B2⟩]⟩ := by
  obtain ⟨B1, B2, h⟩ := exists_arrays (K := K) (ns := [0, 1, 2]) (es := [(0, 1), (1, 2)]) (by simp)
  have ht : (⟨[0, 1, 2], [(0, 1), (1, 2)], [], []⟩ : SCBuilder).triangles = [] := by decide +kernel
  refine ⟨B1, B2, ?_⟩
  simp [World.run, staleProgram, World.exec, World.initial, Heap.initial, World.newBuilder, World.toComplex,
    World.builderValue, SCBuilder.chooseTriangles, ht, World.newComplex, h, pure, Except.pure]

/-- C103: not so if the caller goes on using the list of edges: the complex then reports three edges while its
operators are those of two. -/
theorem C103_counterexample : ∃ c : ComplexObj K, ((World.initial : World K).run staleProgram).complexes[0]? = some c ∧
    ((World.initial : World K).run staleProgram).Consistent c ∧
    ¬ ((World.initial : World K).run (staleProgram ++ [.changeEdges 1 [(0, 1), (1, 2), (0, 2)]])).Consistent c := by
  obtain ⟨B1, B2, hrun⟩ := run_staleProgram (K := K)
  obtain ⟨c, hc⟩ : ∃ c : ComplexObj K, ((World.initial : World K).run staleProgram).complexes[0]? = some c :=
    ⟨⟨1, 1, 1, 0, 0, B1, B2⟩, by rw [hrun]; rfl⟩
  have hcons : ((World.initial : World K).run staleProgram).Consistent c :=
    C103_consistent_partial (K := K) (staleProgram.take 3) [] (.build 0 "all" "distance" (3 / 2) none) 0 c rfl hc
      (fun x hx => absurd hx List.not_mem_nil)
  refine ⟨c, hc, hcons, ?_⟩
  rintro ⟨sc, -, h1, h2, -⟩
  obtain ⟨sc', -, h1', h2', -⟩ := hcons
  have he : c.edges = 1 := by
    rw [hrun] at hc
    rw [← Option.some.inj hc]
  obtain ⟨-, g, -⟩ := simplicesOf_eq.1 h1
  obtain ⟨-, g', -⟩ := simplicesOf_eq.1 h1'
  rw [World.run_append, hrun] at g
  rw [hrun] at g'
  rw [he] at g g'
  have e1 : [((0 : Int), (1 : Int)), (1, 2), (0, 2)] = sc.edges := Option.some.inj g
  have e2 : [((0 : Int), (1 : Int)), (1, 2)] = sc'.edges := Option.some.inj g'
  rw [h2'] at h2
  have h3 : sc'.edges.length = sc.edges.length := by
    injection h2
  rw [← e1, ← e2] at h3
  simp at h3

/-! ## C104: independence -/

/-- C104: in every program, a command that changes no list or dictionary of a complex leaves what the complex shows:
simplices, features and operators.  Missing: the objects are shared, see the counterexample and `C104_shared`. -/
theorem C104_independent_partial (w : World K) (cmds : List ProgCmd) (i : ℕ) (c : ComplexObj K) (h : w.complexes[i]? = some c)
    (s : List Int × List Edge × List (List Int)) (f : NodeFeatures × EdgeFeatures)
    (hs : w.simplicesOf c = some s) (hf : w.featuresOf c = some f)
    (h1 : ∀ x ∈ cmds, ¬ x.ChangesSimplices c) (h2 : ∀ x ∈ cmds, ¬ x.ChangesFeatures c) :
    (w.run cmds).complexes[i]? = some c ∧ (w.run cmds).simplicesOf c = some s ∧ (w.run cmds).featuresOf c = some f :=
  ⟨C103_operators_fixed w cmds i c h, w.run_simplices cmds c h1 hs, w.run_features cmds c h2 hf⟩

/-- C104: complexes that refer to the same dictionary show each other's changes: after a change of the dictionary read
as `node_features` of `c`, another complex shows the new value exactly if it refers to the same dictionary, and its old
value otherwise. The same holds for edge features. -/
theorem C104_shared (w : World K) (c c' : ComplexObj K) (nf nf' : NodeFeatures) (ef ef' : EdgeFeatures)
    (h : w.featuresOf c = some (nf, ef)) (h' : w.featuresOf c' = some (nf', ef')) :
    (∀ v, (w.exec (.changeNodeDict c.nodeFeatures v)).featuresOf c' =
      some (if c'.nodeFeatures = c.nodeFeatures then v else nf', ef')) ∧
    (∀ v, (w.exec (.changeEdgeDict c.edgeFeatures v)).featuresOf c' =
      some (nf', if c'.edgeFeatures = c.edgeFeatures then v else ef')) := by
  obtain ⟨h1, h2⟩ := featuresOf_eq.1 h
  obtain ⟨h1', h2'⟩ := featuresOf_eq.1 h'
  constructor
  · intro v
    rw [featuresOf_eq]
    refine ⟨?_, h2'⟩
    change (w.heap.nodeDicts.set c.nodeFeatures v)[c'.nodeFeatures]? = _
    split_ifs with hx
    · rw [hx, List.getElem?_set_self (List.getElem?_eq_some_iff.1 h1).1]
    · exact set_getElem?_of_ne h1' v (Ne.symm hx)
  · intro v
    rw [featuresOf_eq]
    refine ⟨h1', ?_⟩
    change (w.heap.edgeDicts.set c.edgeFeatures v)[c'.edgeFeatures]? = _
    split_ifs with hx
    · rw [hx, List.getElem?_set_self (List.getElem?_eq_some_iff.1 h2).1]
    · exact set_getElem?_of_ne h2' v (Ne.symm hx)

/-- C104: which objects a new complex refers to.  A complex made by a builder refers to the builder's own lists and
dictionaries, so all complexes of one builder share them; its list of triangles is a new one unless it was passed in. -/
theorem C104_build_references (w : World K) (i : ℕ) (condition col : String) (eps : ℚ) (t : Option ℕ) (j : ℕ)
    (c : ComplexObj K) (hnew : w.complexes[j]? = none)
    (hc : (w.exec (.build i condition col eps t)).complexes[j]? = some c) :
    ∃ b, w.builders[i]? = some b ∧ c.nodes = b.nodes ∧ c.edges = b.edges ∧ c.nodeFeatures = b.nodeFeatures ∧
      c.edgeFeatures = b.edgeFeatures ∧ (∀ t', t = some t' → c.triangles = t') ∧
      (t = none → w.heap.triLists[c.triangles]? = none) := by
  have key : ∀ (w' : World K) (n e t nf ef : ℕ), w'.complexes = w.complexes →
      (w'.newComplex n e t nf ef).complexes[j]? = some c →
      c.nodes = n ∧ c.edges = e ∧ c.triangles = t ∧ c.nodeFeatures = nf ∧ c.edgeFeatures = ef := by
    intro w' n e t nf ef hw h
    rcases w'.newComplex_cases n e t nf ef with h' | ⟨ns, es, ts, B1, B2, -, -, -, -, h'⟩
    · rw [h', hw, hnew] at h; cases h
    · rw [h', hw, List.getElem?_append_right (by simpa using hnew)] at h
      have := List.mem_singleton.1 (List.mem_of_getElem? h)
      rw [this]
      exact ⟨rfl, rfl, rfl, rfl, rfl⟩
  change (w.toComplex i condition col eps t).complexes[j]? = some c at hc
  rcases w.toComplex_cases i condition col eps t with h' | ⟨b, hb, t', rfl, h'⟩ | ⟨b, hb, rfl, ts', h'⟩
  · rw [h', hnew] at hc; cases hc
  · rw [h'] at hc
    obtain ⟨a1, a2, a3, a4, a5⟩ := key w _ _ _ _ _ rfl hc
    exact ⟨b, hb, a1, a2, a4, a5, fun t'' ht => by rw [a3]; exact Option.some.inj ht, fun h => by cases h⟩
  · rw [h'] at hc
    obtain ⟨a1, a2, a3, a4, a5⟩ := key _ _ _ _ _ _ (by rfl) hc
    refine ⟨b, hb, a1, a2, a4, a5, fun t'' ht => (by cases ht), fun _ => ?_⟩
    rw [a3]
    simp

/-- C104: which objects a complex made by the constructor refers to.  Arguments that are given are used themselves; for
an argument that is left out it refers to an object made at import time, empty at that time, and the same one for all
complexes made without this argument. -/
theorem C104_constructor_references (w : World K) (n e t nf ef : Option ℕ) (j : ℕ) (c : ComplexObj K)
    (hnew : w.complexes[j]? = none) (hc : (w.exec (.complex n e t nf ef)).complexes[j]? = some c) :
    (∀ x, n = some x → c.nodes = x) ∧ (∀ x, e = some x → c.edges = x) ∧ (∀ x, t = some x → c.triangles = x) ∧
    (∀ x, nf = some x → c.nodeFeatures = x) ∧ (∀ x, ef = some x → c.edgeFeatures = x) ∧
    (n = none → (World.initial : World K).heap.nodeLists[c.nodes]? = some []) ∧
    (e = none → (World.initial : World K).heap.edgeLists[c.edges]? = some []) ∧
    (t = none → (World.initial : World K).heap.triLists[c.triangles]? = some []) ∧
    (nf = none → (World.initial : World K).heap.nodeDicts[c.nodeFeatures]? = some []) ∧
    (ef = none → (World.initial : World K).heap.edgeDicts[c.edgeFeatures]? = some []) ∧
    ∀ (w' : World K) (n' e' t' nf' ef' : Option ℕ) (j' : ℕ) (c' : ComplexObj K), w'.complexes[j']? = none →
      (w'.exec (.complex n' e' t' nf' ef')).complexes[j']? = some c' →
      (n = none → n' = none → c.nodes = c'.nodes) ∧ (e = none → e' = none → c.edges = c'.edges) ∧
      (t = none → t' = none → c.triangles = c'.triangles) ∧
      (nf = none → nf' = none → c.nodeFeatures = c'.nodeFeatures) ∧
      (ef = none → ef' = none → c.edgeFeatures = c'.edgeFeatures) := by
  have key : ∀ (w' : World K) (n e t nf ef : Option ℕ) (j : ℕ) (c : ComplexObj K), w'.complexes[j]? = none →
      (w'.exec (.complex n e t nf ef)).complexes[j]? = some c →
      c.nodes = n.getD 0 ∧ c.edges = e.getD 0 ∧ c.triangles = t.getD 0 ∧ c.nodeFeatures = nf.getD 1 ∧
        c.edgeFeatures = ef.getD 1 := by
    intro w' n e t nf ef j c hn h
    change (w'.newComplex (n.getD 0) (e.getD 0) (t.getD 0) (nf.getD 1) (ef.getD 1)).complexes[j]? = some c at h
    rcases w'.newComplex_cases (n.getD 0) (e.getD 0) (t.getD 0) (nf.getD 1) (ef.getD 1) with
      h' | ⟨ns, es, ts, B1, B2, -, -, -, -, h'⟩
    · rw [h', hn] at h; cases h
    · rw [h', List.getElem?_append_right (by simpa using hn)] at h
      have := List.mem_singleton.1 (List.mem_of_getElem? h)
      rw [this]
      exact ⟨rfl, rfl, rfl, rfl, rfl⟩
  obtain ⟨a1, a2, a3, a4, a5⟩ := key w n e t nf ef j c hnew hc
  refine ⟨?_, ?_, ?_, ?_, ?_, ?_, ?_, ?_, ?_, ?_, ?_⟩
  · rintro x rfl; exact a1
  · rintro x rfl; exact a2
  · rintro x rfl; exact a3
  · rintro x rfl; exact a4
  · rintro x rfl; exact a5
  · rintro rfl; rw [a1]; rfl
  · rintro rfl; rw [a2]; rfl
  · rintro rfl; rw [a3]; rfl
  · rintro rfl; rw [a4]; rfl
  · rintro rfl; rw [a5]; rfl
  · intro w' n' e' t' nf' ef' j' c' hn' hc'
    obtain ⟨b1, b2, b3, b4, b5⟩ := key w' n' e' t' nf' ef' j' c' hn' hc'
    refine ⟨?_, ?_, ?_, ?_, ?_⟩
    · rintro rfl rfl; rw [a1, b1]
    · rintro rfl rfl; rw [a2, b2]
    · rintro rfl rfl; rw [a3, b3]
    · rintro rfl rfl; rw [a4, b4]
    · rintro rfl rfl; rw [a5, b5]

/-- the constructor without arguments makes a complex -/
example : ∃ c : ComplexObj K, (World.initial : World K).complexes[0]? = none ∧
    ((World.initial : World K).exec (.complex none none none none none)).complexes[0]? = some c := by
  obtain ⟨B1, B2, h⟩ := exists_arrays (K := K) (ns := []) (es := []) (by simp)
  refine ⟨⟨0, 0, 0, 1, 1, B1, B2⟩, rfl, ?_⟩
  simp [World.exec, World.initial, Heap.initial, World.newComplex, h]

/-- Two unrelated graphs are built, each from its own lists, without features (as `generate_random_simplicial_complex`
does with node features). -/
def twoGraphs : List ProgCmd :=
  [.makeNodes [0, 1], .makeEdges [(0, 1)], .builder 1 1 none none, .build 0 "all" "distance" (3 / 2) none,
    .makeNodes [0, 1, 2], .makeEdges [(0, 1), (1, 2)], .builder 2 2 none none, .build 1 "all" "distance" (3 / 2) none]

theorem run_twoGraphs : ∃ B1 B2 B1' B2' : PyArr K, (World.initial : World K).run twoGraphs =
    ⟨⟨[[], [0, 1], [0, 1, 2]], [[], [(0, 1)], [(0, 1), (1, 2)]], [[], [], []], [[], []], [[], []]⟩,
      [⟨1, 1, 0, 0⟩, ⟨2, 2, 0, 0⟩], [⟨1, 1, 1, 0, 0, B1, B2⟩, ⟨2, 2, 2, 0, 0, B1', B2'⟩]⟩ := by
  obtain ⟨B1, B2, h⟩ := exists_arrays (K := K) (ns := [0, 1]) (es := [(0, 1)]) (by simp)
  obtain ⟨B1', B2', h'⟩ := exists_arrays (K := K) (ns := [0, 1, 2]) (es := [(0, 1), (1, 2)]) (by simp)
  have ht : (⟨[0, 1], [(0, 1)], [], []⟩ : SCBuilder).triangles = [] := by decide +kernel
  have ht' : (⟨[0, 1, 2], [(0, 1), (1, 2)], [], []⟩ : SCBuilder).triangles = [] := by decide +kernel
  refine ⟨B1, B2, B1', B2', ?_⟩
  simp [World.run, twoGraphs, World.exec, World.initial, Heap.initial, World.newBuilder, World.toComplex,
    World.builderValue, SCBuilder.chooseTriangles, ht, ht', World.newComplex, h, h', pure, Except.pure]

/-- C104: complexes of different builders that were given different lists and no features share the default
dictionaries: setting a node feature on the first complex sets it on the second. -/
theorem C104_counterexample : ∃ c c' : ComplexObj K,
    ((World.initial : World K).run twoGraphs).complexes[0]? = some c ∧
    ((World.initial : World K).run twoGraphs).complexes[1]? = some c' ∧
    c.nodes ≠ c'.nodes ∧ c.edges ≠ c'.edges ∧ c.triangles ≠ c'.triangles ∧
    ((World.initial : World K).run twoGraphs).featuresOf c' = some ([], []) ∧
    ∀ v, ((World.initial : World K).run (twoGraphs ++ [.changeNodeDict c.nodeFeatures v])).featuresOf c' =
      some (v, []) := by
  obtain ⟨B1, B2, B1', B2', hrun⟩ := run_twoGraphs (K := K)
  refine ⟨⟨1, 1, 1, 0, 0, B1, B2⟩, ⟨2, 2, 2, 0, 0, B1', B2'⟩, by rw [hrun]; rfl, by rw [hrun]; rfl, by simp, by simp, by simp,
    by rw [hrun]; rfl, fun v => ?_⟩
  rw [World.run_append, hrun]
  rfl

/-- The hypotheses of `C104_independent_partial` are met by the second complex of `twoGraphs` and a program that changes
the edges of the first. -/
example : ∃ c' : ComplexObj K, ((World.initial : World K).run twoGraphs).complexes[1]? = some c' ∧
    ((World.initial : World K).run twoGraphs).simplicesOf c' = some ([0, 1, 2], [(0, 1), (1, 2)], []) ∧
    (∀ x ∈ [ProgCmd.changeEdges 1 []], ¬ x.ChangesSimplices c') ∧ ∀ x ∈ [ProgCmd.changeEdges 1 []], ¬ x.ChangesFeatures c' := by
  obtain ⟨B1, B2, B1', B2', hrun⟩ := run_twoGraphs (K := K)
  exact ⟨⟨2, 2, 2, 0, 0, B1', B2'⟩, by rw [hrun]; rfl, by rw [hrun]; rfl, by simp [ProgCmd.ChangesSimplices],
    by simp [ProgCmd.ChangesFeatures]⟩

end Pytspl
