import Verif.Props.Datasets
import Verif.Model.RandomSession

/-!
# C147: the seed of a random complex
-/

namespace Pytspl

variable {K : Type} [CommRing K] {lib : RandomLib}

private theorem draws_length (k : ℕ) (s : lib.PyState) : (lib.draws k s).1.length = k := by
  induction k generalizing s with
  | zero => rfl
  | succ k ih => simp [RandomLib.draws, ih]

private theorem draws_range (k : ℕ) (s : lib.PyState) : ∀ q ∈ (lib.draws k s).1, 0 ≤ q ∧ q < 1 := by
  induction k generalizing s with
  | zero => simp [RandomLib.draws]
  | succ k ih =>
    intro q hq
    rcases List.mem_cons.1 hq with rfl | hq
    · exact lib.range s
    · exact ih _ q hq

private theorem draws_state (k : ℕ) (s : lib.PyState) :
    (lib.draws k s).2 = (fun s => (lib.random s).2)^[k] s := by
  induction k generalizing s with
  | zero => rfl
  | succ k ih => exact ih _

private theorem generate_eq (n : ℕ) (p eps : ℚ) (seed : Int) (w : RandomState lib) :
    ∃ (sc : SC K) (weights : List ℚ), weights.length = (lib.graph n p seed).length ∧ (∀ q ∈ weights, 0 ≤ q ∧ q < 1) ∧
      weights = (lib.draws (lib.graph n p seed).length w.py).1 ∧
      generateRandomSimplicialComplex K n (lib.graph n p seed) weights eps = .ok sc ∧
      lib.generate K n p eps seed w = (.ok (sc, (lib.layout w.np (pyRange n) (lib.graph n p seed)).1),
        ⟨(fun s => (lib.random s).2)^[(lib.graph n p seed).length] w.py,
          (lib.layout w.np (pyRange n) (lib.graph n p seed)).2⟩) := by
  obtain ⟨sc, h, -⟩ := C45_random_complex (K := K) n (lib.graph n p seed)
    (lib.draws (lib.graph n p seed).length w.py).1 eps (lib.edges n p seed) (lib.nodup n p seed) (draws_length _ _)
  refine ⟨sc, _, draws_length _ _, draws_range _ _, rfl, h, ?_⟩
  unfold RandomLib.generate
  simp only
  rw [h, ← draws_state]

/-- C147: whatever was called before, the generator returns; nodes and edges depend on the number of nodes, the
probability and the seed only, and every node gets a position. -/
theorem C147_graph_partial (n : ℕ) (p eps eps' : ℚ) (seed : Int) (w w' : RandomState lib) :
    ∃ (sc sc' : SC K) (c c' : Dict Int (ℚ × ℚ)),
      (lib.generate K n p eps seed w).1 = .ok (sc, c) ∧ (lib.generate K n p eps' seed w').1 = .ok (sc', c') ∧
      sc.nodes = sc'.nodes ∧ sc.edges = sc'.edges ∧ c.map Prod.fst = sc.nodes ∧ c'.map Prod.fst = sc'.nodes := by
  obtain ⟨sc, ws, h1, -, -, h3, h4⟩ := generate_eq (K := K) n p eps seed w
  obtain ⟨sc', ws', h1', -, -, h3', h4'⟩ := generate_eq (K := K) n p eps' seed w'
  obtain ⟨s, g1, g2, g3, -⟩ := C45_random_complex (K := K) n (lib.graph n p seed) ws eps (lib.edges n p seed)
    (lib.nodup n p seed) h1
  obtain ⟨s', g1', g2', g3', -⟩ := C45_random_complex (K := K) n (lib.graph n p seed) ws' eps' (lib.edges n p seed)
    (lib.nodup n p seed) h1'
  rw [h3] at g1
  rw [h3'] at g1'
  cases g1
  cases g1'
  refine ⟨sc, sc', _, _, congrArg Prod.fst h4, congrArg Prod.fst h4', by rw [g2, g2'], by rw [g3, g3'], ?_, ?_⟩
  · rw [lib.keys, g2]
    rfl
  · rw [lib.keys, g2']
    rfl

/-- C147: with a threshold of at least 1 the triangles depend on the arguments only, too, if no weight drawn is 0: they are
all triangles of the graph. -/
theorem C147_triangles_partial (n : ℕ) (p eps : ℚ) (seed : Int) (w : RandomState lib) (he : 1 ≤ eps) (sc : SC K)
    (c : Dict Int (ℚ × ℚ)) (h : (lib.generate K n p eps seed w).1 = .ok (sc, c))
    (h0 : ∀ e ∈ sc.edges, Dict.get? sc.edgeFeatures e ≠ some [("distance", .num 0)]) (t : List Int) :
    t ∈ sc.triangles ↔ ∃ x y z, t = [x, y, z] ∧ x < y ∧ y < z ∧ (x, y) ∈ lib.graph n p seed ∧
      (y, z) ∈ lib.graph n p seed ∧ (x, z) ∈ lib.graph n p seed := by
  obtain ⟨sc', ws, h1, h2, -, h3, h4⟩ := generate_eq (K := K) n p eps seed w
  obtain ⟨s, g1, g2, g3, gf, -, g4, -⟩ := C45_random_complex (K := K) n (lib.graph n p seed) ws eps (lib.edges n p seed)
    (lib.nodup n p seed) h1
  rw [h3] at g1
  cases g1
  rw [congrArg Prod.fst h4] at h
  cases h
  have key : ∀ e, DrawnNear (lib.graph n p seed) ws eps e ↔ e ∈ lib.graph n p seed := by
    intro e
    constructor
    · rintro ⟨i, q, hi, -⟩
      exact List.mem_of_getElem? hi
    · intro hm
      obtain ⟨i, hi, hie⟩ := List.getElem_of_mem hm
      have e1 : (lib.graph n p seed)[i]? = some e := by rw [List.getElem?_eq_getElem hi, hie]
      have e2 : ws[i]? = some (ws[i]'(by omega)) := List.getElem?_eq_getElem _
      refine ⟨i, _, e1, e2, ?_, ?_⟩
      · intro hz
        refine h0 e (by rw [g3]; exact hm) ?_
        rw [gf i e _ e1 e2, hz]
      · exact (h2 _ (List.getElem_mem _)).2.trans_le he
  rw [g4]
  simp only [key]

/-- C147: after seeding `random` and `np.random` everything the generator returns is determined: the calls that follow
return the same in every process, whatever was called before. -/
theorem C147_seeded (before before' rest : List (RandomCall lib)) (a b : Int) (w w' : RandomState lib) :
    ((lib.run K (before ++ .seedPy a :: .seedNp b :: rest) w).1.drop before.length) =
      ((lib.run K (before' ++ .seedPy a :: .seedNp b :: rest) w').1.drop before'.length) := by
  have drop : ∀ (l r : List (RandomCall lib)) (w : RandomState lib), ∃ v : RandomState lib,
      (lib.run K (l ++ r) w).1.drop l.length = (lib.run K r v).1 := by
    intro l r
    induction l with
    | nil => exact fun w => ⟨w, rfl⟩
    | cons c l ih =>
      intro w
      obtain ⟨v, hv⟩ := ih (lib.exec K w c).2
      exact ⟨v, by rw [← hv]; rfl⟩
  obtain ⟨v, hv⟩ := drop before (.seedPy a :: .seedNp b :: rest) w
  obtain ⟨v', hv'⟩ := drop before' (.seedPy a :: .seedNp b :: rest) w'
  rw [hv, hv']
  rfl

/-- C147: the seed given to the generator does not reset Python's generator: a call takes one number per edge from it, and
the next call goes on where it stopped. -/
theorem C147_state (n : ℕ) (p eps : ℚ) (seed : Int) (w : RandomState lib) :
    (lib.generate K n p eps seed w).2.py = (fun s => (lib.random s).2)^[(lib.graph n p seed).length] w.py := by
  obtain ⟨sc, ws, -, -, -, -, h⟩ := generate_eq (K := K) n p eps seed w
  rw [h]

/-- the complexes among the results of a program, without their coordinates -/
def complexesOf (outs : List (Option (Py (SC K × Dict Int (ℚ × ℚ))))) : List (Py (SC K)) :=
  outs.filterMap fun o => o.map fun r => r.map Prod.fst

/-- `np.random.seed(..)` -/
def RandomCall.IsSeedNp : RandomCall lib → Prop
  | .seedNp _ => True
  | _ => False

/-- drawing random numbers for another purpose -/
def RandomCall.IsDraw : RandomCall lib → Prop
  | .draw _ => True
  | _ => False

open Classical in
/-- C147: seeding numpy is no substitute for seeding Python's generator.  The complexes a program generates (with their
features, without the coordinates) depend on the state of Python's generator only; leaving out every call of
`np.random.seed` and changing the state of numpy's generator does not change them. -/
theorem C147_numpy_seed (cmds : List (RandomCall lib)) (hd : ∀ c ∈ cmds, ¬ c.IsDraw) (w w' : RandomState lib)
    (hw : w.py = w'.py) :
    complexesOf (lib.run K cmds w).1 = complexesOf (lib.run K (cmds.filter fun c => ¬ c.IsSeedNp) w').1 := by
  induction cmds generalizing w w' with
  | nil => rfl
  | cons c cs ih =>
    have ih' := fun v v' hv => ih (fun x hx => hd x (List.mem_cons_of_mem _ hx)) v v' hv
    cases c with
    | seedPy s =>
      rw [List.filter_cons_of_pos (by simp [RandomCall.IsSeedNp])]
      exact ih' _ _ rfl
    | seedNp s =>
      rw [List.filter_cons_of_neg (by simp [RandomCall.IsSeedNp])]
      exact ih' _ _ hw
    | generate n p eps seed =>
      rw [List.filter_cons_of_pos (by simp [RandomCall.IsSeedNp])]
      obtain ⟨sc, ws, -, -, e1, h1, h2⟩ := generate_eq (K := K) n p eps seed w
      obtain ⟨sc', ws', -, -, e1', h1', h2'⟩ := generate_eq (K := K) n p eps seed w'
      have hsc : sc = sc' := by
        rw [e1, hw, ← e1', h1'] at h1
        cases h1; rfl
      simp only [RandomLib.run, RandomLib.exec, complexesOf, h2, h2', List.filterMap_cons, Option.map_some, Except.map,
        hsc, List.cons.injEq, true_and]
      exact ih' _ _ (by simp only [hw])
    | draw f => exact absurd trivial (hd (.draw f) (by simp))

/-- a process in which Python's generator first gives 1/2 three times, then 9/10; the graph on three nodes is a triangle -/
def toyRandom : RandomLib where
  PyState := ℕ
  NpState := Unit
  seedPy := fun _ => 0
  seedNp := fun _ => ()
  random := fun k => (if k < 3 then 1 / 2 else 9 / 10, k + 1)
  range := by
    intro k
    dsimp only
    split_ifs <;> norm_num
  graph := fun n _ _ => if n = 3 then [(0, 1), (0, 2), (1, 2)] else []
  edges := by
    intro n p seed e he
    split_ifs at he with h
    · subst h
      revert e
      decide
    · cases he
  nodup := by
    intro n p seed
    split_ifs <;> decide
  layout := fun _ nodes _ => (nodes.map fun v => (v, (0, 0)), ())
  keys := by
    intro _ nodes _
    rw [List.map_map]
    exact List.map_id nodes

/-- C147, the full claim fails: the same arguments, seed included, do not give the same complex. In one process the first
of two equal calls fills the triangle and the second does not, although nothing is called in between. -/
theorem C147_counterexample : ∃ (lib : RandomLib) (w : RandomState lib) (n : ℕ) (p eps : ℚ) (seed : Int)
    (sc sc' : SC K) (c c' : Dict Int (ℚ × ℚ)),
    (lib.run K [.generate n p eps seed, .generate n p eps seed] w).1 = [some (.ok (sc, c)), some (.ok (sc', c'))] ∧
      [0, 1, 2] ∈ sc.triangles ∧ [0, 1, 2] ∉ sc'.triangles := by
  obtain ⟨sc, ws, h1, -, h2, h3, h4⟩ := generate_eq (K := K) (lib := toyRandom) 3 (1 / 2) (3 / 5) 0 ⟨(0 : ℕ), ()⟩
  obtain ⟨sc', ws', h1', -, h2', h3', h4'⟩ := generate_eq (K := K) (lib := toyRandom) 3 (1 / 2) (3 / 5) 0 ⟨(3 : ℕ), ()⟩
  have e : ws = [1 / 2, 1 / 2, 1 / 2] := h2
  have e' : ws' = [9 / 10, 9 / 10, 9 / 10] := h2'
  have hg : toyRandom.graph 3 (1 / 2) 0 = [(0, 1), (0, 2), (1, 2)] := rfl
  obtain ⟨s, g1, -, -, -, -, g4, -⟩ := C45_random_complex (K := K) 3 (toyRandom.graph 3 (1 / 2) 0) ws (3 / 5)
    (toyRandom.edges 3 (1 / 2) 0) (toyRandom.nodup 3 (1 / 2) 0) h1
  obtain ⟨s', g1', -, -, -, -, g4', -⟩ := C45_random_complex (K := K) 3 (toyRandom.graph 3 (1 / 2) 0) ws' (3 / 5)
    (toyRandom.edges 3 (1 / 2) 0) (toyRandom.nodup 3 (1 / 2) 0) h1'
  rw [h3] at g1
  rw [h3'] at g1'
  cases g1
  cases g1'
  refine ⟨toyRandom, ⟨(0 : ℕ), ()⟩, 3, 1 / 2, 3 / 5, 0, sc, sc',
    (toyRandom.layout () (pyRange (3 : ℕ)) (toyRandom.graph 3 (1 / 2) 0)).1,
    (toyRandom.layout () (pyRange (3 : ℕ)) (toyRandom.graph 3 (1 / 2) 0)).1, ?_, ?_, ?_⟩
  · have hs : (toyRandom.generate K 3 (1 / 2) (3 / 5) 0 ⟨(0 : ℕ), ()⟩).2 = ⟨(3 : ℕ), ()⟩ := by rw [h4]; rfl
    show [some (toyRandom.generate K 3 (1 / 2) (3 / 5) 0 ⟨(0 : ℕ), ()⟩).1,
      some (toyRandom.generate K 3 (1 / 2) (3 / 5) 0 (toyRandom.generate K 3 (1 / 2) (3 / 5) 0 ⟨(0 : ℕ), ()⟩).2).1] = _
    rw [hs, h4, h4']
  · rw [g4, hg, e]
    refine ⟨0, 1, 2, rfl, by decide, by decide, ⟨0, 1 / 2, rfl, rfl, by norm_num, by norm_num⟩,
      ⟨2, 1 / 2, rfl, rfl, by norm_num, by norm_num⟩, ⟨1, 1 / 2, rfl, rfl, by norm_num, by norm_num⟩⟩
  · rw [g4', e']
    rintro ⟨x, y, z, -, -, -, ⟨i, q, -, hq, -, hlt⟩, -⟩
    have : q = 9 / 10 := by
      have := List.mem_of_getElem? hq
      simpa using this
    rw [this] at hlt
    norm_num at hlt

/-- two complexes generated by a program that seeds numpy before each of them, which has no effect on them -/
example (w : RandomState toyRandom) :
    complexesOf (toyRandom.run K [.seedNp 1, .generate 3 (1 / 2) (3 / 5) 0, .seedNp 1, .generate 3 (1 / 2) (3 / 5) 0] w).1 =
      complexesOf (toyRandom.run K [.generate 3 (1 / 2) (3 / 5) 0, .generate 3 (1 / 2) (3 / 5) 0] w).1 := by
  have h := C147_numpy_seed (K := K) (lib := toyRandom)
    [.seedNp 1, .generate 3 (1 / 2) (3 / 5) 0, .seedNp 1, .generate 3 (1 / 2) (3 / 5) 0]
    (by simp [RandomCall.IsDraw]) w w rfl
  simpa [RandomCall.IsSeedNp, List.filter] using h

/-- the hypotheses of `C147_triangles_partial` are met: the toy process with threshold 1 fills the triangle -/
example : ∃ (sc : SC ℤ) (c : Dict Int (ℚ × ℚ)), (toyRandom.generate ℤ 3 (1 / 2) 1 0 ⟨(0 : ℕ), ()⟩).1 = .ok (sc, c) ∧
    (∀ e ∈ sc.edges, Dict.get? sc.edgeFeatures e ≠ some [("distance", .num 0)]) ∧ [0, 1, 2] ∈ sc.triangles := by
  obtain ⟨sc, ws, h1, -, h2, h3, h4⟩ := generate_eq (K := ℤ) (lib := toyRandom) 3 (1 / 2) 1 0 ⟨(0 : ℕ), ()⟩
  have e : ws = [1 / 2, 1 / 2, 1 / 2] := h2
  obtain ⟨s, g1, -, g3, gf, -⟩ := C45_random_complex (K := ℤ) 3 (toyRandom.graph 3 (1 / 2) 0) ws 1
    (toyRandom.edges 3 (1 / 2) 0) (toyRandom.nodup 3 (1 / 2) 0) h1
  rw [h3] at g1
  cases g1
  have h0 : ∀ e ∈ sc.edges, Dict.get? sc.edgeFeatures e ≠ some [("distance", .num 0)] := by
    intro d hd
    rw [g3] at hd
    obtain ⟨i, hi, hid⟩ := List.getElem_of_mem hd
    have hw : i < ws.length := by omega
    rw [gf i d (ws[i]) (by rw [List.getElem?_eq_getElem hi, hid]) (List.getElem?_eq_getElem hw)]
    have all : ∀ q ∈ ws, q = 1 / 2 := by
      rw [e]
      simp
    have : ws[i] = 1 / 2 := all _ (List.getElem_mem hw)
    rw [this]
    simp
  have h5 := congrArg Prod.fst h4
  refine ⟨sc, _, h5, h0, ?_⟩
  rw [C147_triangles_partial 3 (1 / 2) 1 0 _ le_rfl sc _ h5 h0]
  exact ⟨0, 1, 2, rfl, by decide, by decide, by decide, by decide, by decide⟩

end Pytspl
