import Verif.Props.Loaders
import Verif.Props.Builder

/-!
# Properties of the dataset loaders and the random generator: C42, C43, C44, C45
-/

namespace Pytspl

private theorem bind_ok {α β : Type} {x : Py α} {f : α → Py β} {r : β} (h : (x >>= f) = .ok r) :
    ∃ a, x = .ok a ∧ f a = .ok r := by
  cases x with
  | error e => cases h
  | ok a => exact ⟨a, rfl, h⟩

section named
variable (K : Type) [CommRing K]

/-! ## C43: names -/

/-- C43: the names are the four fixed ones and the entries of the data folder, without two files that
are not datasets. -/
theorem C43_names (d : DataDir) (name : String) : name ∈ listDatasets K d ↔
    name = "paper" ∨ name = "forex" ∨ name = "lastfm-1k-artist" ∨ name = "wsn" ∨
    (name ∈ d.listing ∧ name ≠ ".DS_Store" ∧ name ≠ "README.md") := by
  unfold listDatasets listTransportationDatasets
  simp only [List.mem_append, List.mem_filter, Dict.keys, namedDatasets, List.map_cons, List.map_nil,
    List.mem_cons, List.not_mem_nil, or_false, decide_eq_true_eq, not_or]
  tauto

/-- C43: every other name is a `ValueError`, whatever the files contain. -/
theorem C43_unknown_name (d : DataDir) (name : String)
    (h : name ≠ "paper" ∧ name ≠ "forex" ∧ name ≠ "lastfm-1k-artist" ∧ name ≠ "wsn")
    (h' : name ∉ d.listing ∨ name = ".DS_Store" ∨ name = "README.md") :
    loadDataset K d name = .error .valueError := by
  have : name ∉ listDatasets K d := by
    rw [C43_names]
    tauto
  unfold loadDataset
  rw [if_pos this]
  rfl

/-- the loader that belongs to a name -/
noncomputable def loaderFor (name : String) (d : DataDir) : Py (Loaded K) :=
  if name = "paper" then loadPaperData K d
  else if name = "forex" then loadForexData K d
  else if name = "lastfm-1k-artist" then loadLastfm1kArtist K d
  else if name = "wsn" then loadWsnData K d
  else loadTransportationDataset K d name

/-- C43: a listed name runs its loader; the result is returned unless the numbers of nodes and
coordinates differ, which is an `AssertionError`. -/
theorem C43_dispatch (d : DataDir) (name : String)
    (h : name = "paper" ∨ name = "forex" ∨ name = "lastfm-1k-artist" ∨ name = "wsn" ∨
      (name ∈ d.listing ∧ name ≠ ".DS_Store" ∧ name ≠ "README.md")) :
    (∀ e, loaderFor K name d = .error e → loadDataset K d name = .error e) ∧
    (∀ r, loaderFor K name d = .ok r → r.sc.nodes.length = r.coordinates.length →
      loadDataset K d name = .ok r) ∧
    (∀ r, loaderFor K name d = .ok r → r.sc.nodes.length ≠ r.coordinates.length →
      loadDataset K d name = .error .assertionError) := by
  have hm := (C43_names K d name).mpr h
  have hload : loadDataset K d name = (loaderFor K name d >>= fun r =>
      if r.sc.nodes.length = r.coordinates.length then Except.ok r
        else Except.error PyErr.assertionError) := by
    unfold loadDataset
    rw [if_neg (not_not.mpr hm)]
    simp only [bind, Except.bind]
    have : (match Dict.get? (namedDatasets K) name with
        | some f => f d
        | none => loadTransportationDataset K d name) = loaderFor K name d := by
      unfold loaderFor namedDatasets
      by_cases h1 : name = "paper"
      · subst h1; rfl
      by_cases h2 : name = "forex"
      · subst h2; rfl
      by_cases h3 : name = "lastfm-1k-artist"
      · subst h3; rfl
      by_cases h4 : name = "wsn"
      · subst h4; rfl
      simp only [Dict.get?, if_neg h1, if_neg h2, if_neg h3, if_neg h4, if_neg (Ne.symm h1),
        if_neg (Ne.symm h2), if_neg (Ne.symm h3), if_neg (Ne.symm h4)]
    rw [← this]
    cases Dict.get? (namedDatasets K) name <;> rfl
  rw [hload]
  refine ⟨fun e he => by rw [he]; rfl, fun r hr hl => ?_, fun r hr hl => ?_⟩
  · rw [hr]
    simp only [bind, Except.bind, if_pos hl]
  · rw [hr]
    simp only [bind, Except.bind, if_neg hl]

/-- C43: whatever is returned has as many coordinates as nodes. -/
theorem C43_checked (d : DataDir) (name : String) (r : Loaded K) (h : loadDataset K d name = .ok r) :
    name ∈ listDatasets K d ∧ loaderFor K name d = .ok r ∧ r.sc.nodes.length = r.coordinates.length := by
  have hm : name ∈ listDatasets K d := by
    by_contra hn
    unfold loadDataset at h
    rw [if_pos hn] at h
    cases h
  obtain ⟨h1, h2, h3⟩ := C43_dispatch K d name ((C43_names K d name).mp hm)
  cases hl : loaderFor K name d with
  | error e => rw [h1 e hl] at h; cases h
  | ok r' =>
    by_cases hc : r'.sc.nodes.length = r'.coordinates.length
    · rw [h2 r' hl hc] at h
      cases h
      exact ⟨hm, rfl, hc⟩
    · rw [h3 r' hl hc] at h
      cases h

omit [CommRing K] in
/-- C43: a graph layout has one position per node, if the end points of the edges are nodes. -/
theorem generateCoordinates_length (sc : SC K) (place) (hn : sc.nodes.Nodup)
    (he : ∀ e ∈ sc.edges, e.1 ∈ sc.nodes ∧ e.2 ∈ sc.nodes) :
    (sc.generateCoordinates place).length = sc.nodes.length ∧
    Dict.keys (sc.generateCoordinates place) = sc.nodes.map fun v : Int => Cell.num (v : ℚ) := by
  have h1 : ∀ (l s : List Int), (s ++ l).Nodup → l.foldl setAdd s = s ++ l := by
    intro l
    induction l with
    | nil => simp
    | cons a l ih =>
      intro s h
      have ha : a ∉ s := by
        intro hm
        exact (List.nodup_append.mp h).2.2 a hm a (by simp) rfl
      rw [List.foldl_cons, show setAdd s a = s ++ [a] by simp [setAdd, ha], ih _ (by simpa using h)]
      simp
  have h2 : ∀ (es : List Edge) (s : List Int), (∀ e ∈ es, e.1 ∈ s ∧ e.2 ∈ s) →
      es.foldl (fun s e => setAdd (setAdd s e.1) e.2) s = s := by
    intro es
    induction es with
    | nil => simp
    | cons e es ih =>
      intro s h
      have := h e (by simp)
      rw [List.foldl_cons, show setAdd s e.1 = s by simp [setAdd, this.1],
        show setAdd s e.2 = s by simp [setAdd, this.2]]
      exact ih s fun e he => h e (by simp [he])
  have h3 : sc.edges.foldl (fun s e => setAdd (setAdd s e.1) e.2) (sc.nodes.foldl setAdd []) = sc.nodes := by
    rw [h1 sc.nodes [] (by simpa using hn), List.nil_append, h2 _ _ he]
  unfold SC.generateCoordinates
  simp only [h3, Dict.keys]
  simp

private theorem nodup_pyRange (n : Int) : (pyRange n).Nodup := by
  unfold pyRange
  exact List.Nodup.map (fun a b h => by simpa using h) List.nodup_range

private theorem edgesOfColumns_nonneg {L : Type} [DecidableEq L] [One L] [Neg L] {m n : ℕ}
    {M : Matrix (Fin m) (Fin n) L} {edges : List Edge} (h : edgesOfColumns M = .ok edges) :
    ∀ e ∈ edges, 0 ≤ e.1 ∧ 0 ≤ e.2 := by
  intro e he
  have h2 := mapM_eq_ok h
  clear h
  generalize List.finRange n = l at h2
  induction h2 with
  | nil => simp at he
  | cons hr _ ih =>
    rcases List.mem_cons.mp he with rfl | he
    · obtain ⟨a, -, hr⟩ := bind_ok hr
      obtain ⟨b, -, hr⟩ := bind_ok hr
      cases hr
      simp
    · exact ih he

private theorem endpoints_in {edges : List Edge} {nodes : List Int}
    (h0 : ∀ e ∈ edges, 0 ≤ e.1 ∧ 0 ≤ e.2) (h : nodesUpToMax (nodeSet edges) = .ok nodes) :
    nodes.Nodup ∧ ∀ e ∈ edges, e.1 ∈ nodes ∧ e.2 ∈ nodes := by
  obtain ⟨m, -, hm, rfl⟩ := nodesUpToMax_ok h
  refine ⟨nodup_pyRange _, fun e he => ?_⟩
  have := h0 e he
  have h1 := hm e.1 ((mem_nodeSet _ _).mpr ⟨e, he, .inl rfl⟩)
  have h2 := hm e.2 ((mem_nodeSet _ _).mpr ⟨e, he, .inr rfl⟩)
  rw [mem_pyRange, mem_pyRange]
  omega

/-- reading incidence files gives edges on the nodes -/
theorem readB1B2_endpoints {L : Type} [DecidableEq L] [Zero L] [One L] [Neg L]
    {f1 f2 : Option (CsvMat L)} {b ts} (h : readB1B2 f1 f2 = .ok (b, ts)) :
    b.nodes.Nodup ∧ ∀ e ∈ b.edges, e.1 ∈ b.nodes ∧ e.2 ∈ b.nodes := by
  unfold readB1B2 at h
  obtain ⟨c, -, h⟩ := bind_ok h
  obtain ⟨edges, h1, h⟩ := bind_ok h
  obtain ⟨nodes, h2, h⟩ := bind_ok h
  obtain ⟨tr, -, h⟩ := bind_ok h
  obtain ⟨rfl, rfl⟩ := Prod.mk.inj (Except.ok.inj h)
  obtain ⟨h3, h4⟩ := endpoints_in (edgesOfColumns_nonneg h1) h2
  exact ⟨h3, fun e he => h4 e ((sortedPairs_perm _).mem_iff.mp he)⟩

/-- C43: for the datasets without a coordinate file the check on coordinates never fails: if the loader
returns, so does `load_dataset`. -/
theorem C43_generated_coordinates (d : DataDir) (name : String)
    (hn : name = "forex" ∨ name = "lastfm-1k-artist" ∨ name = "wsn") (r : Loaded K)
    (h : loaderFor K name d = .ok r) :
    loadDataset K d name = .ok r ∧
      Dict.keys r.coordinates = r.sc.nodes.map fun v : Int => Cell.num (v : ℚ) := by
  have key : r.sc.nodes.length = r.coordinates.length ∧
      Dict.keys r.coordinates = r.sc.nodes.map fun v : Int => Cell.num (v : ℚ) := by
    rcases hn with rfl | rfl | rfl
    · replace h : loadForexData K d = .ok r := h
      unfold loadForexData at h
      obtain ⟨⟨b, ts⟩, h1, h⟩ := bind_ok h
      obtain ⟨sc, h2, h⟩ := bind_ok h
      obtain ⟨c, -, h⟩ := bind_ok h
      obtain ⟨fl, -, h⟩ := bind_ok h
      obtain ⟨fd, -, h⟩ := bind_ok h
      cases h
      obtain ⟨e1, e2⟩ := readB1B2_endpoints h1
      obtain ⟨p1, p2, -⟩ := C36_pass_through _ _ _ _ _ _ h2
      obtain ⟨q1, q2⟩ := generateCoordinates_length K sc d.place (by rw [p1]; exact e1)
        (by rw [p1, p2]; exact e2)
      exact ⟨q1.symm, q2⟩
    · replace h : loadLastfm1kArtist K d = .ok r := h
      unfold loadLastfm1kArtist at h
      obtain ⟨⟨b, ts⟩, h1, h⟩ := bind_ok h
      obtain ⟨sc, h2, h⟩ := bind_ok h
      obtain ⟨c, -, h⟩ := bind_ok h
      obtain ⟨fd, -, h⟩ := bind_ok h
      cases h
      obtain ⟨e1, e2⟩ := readB1B2_endpoints h1
      obtain ⟨p1, p2, -⟩ := C36_pass_through _ _ _ _ _ _ h2
      obtain ⟨q1, q2⟩ := generateCoordinates_length K sc d.place (by rw [p1]; exact e1)
        (by rw [p1, p2]; exact e2)
      exact ⟨q1.symm, q2⟩
    · replace h : loadWsnData K d = .ok r := h
      unfold loadWsnData at h
      obtain ⟨edges, h1, h⟩ := bind_ok h
      obtain ⟨nodes, h0, h⟩ := bind_ok h
      obtain ⟨sc, h2, h⟩ := bind_ok h
      obtain ⟨y, -, h⟩ := bind_ok h
      cases h
      obtain ⟨e1, e2⟩ := endpoints_in (edgesOfColumns_nonneg h1) h0
      obtain ⟨p1, p2, -⟩ := C36_pass_through _ _ _ _ _ _ h2
      obtain ⟨q1, q2⟩ := generateCoordinates_length K sc d.place (by rw [p1]; exact e1)
        (by rw [p1, p2]; exact e2)
      exact ⟨q1.symm, q2⟩
  refine ⟨?_, key.2⟩
  exact (C43_dispatch K d name (by tauto)).2.1 r h key.1

/-- files describing one filled triangle, as forex data and as the transportation network `toy` -/
def sampleDir : DataDir where
  listing := ["toy", "README.md"]
  table := fun p =>
    if p = "transportation_networks/toy/toy_net.tntp" then some
      { cols := ["~", " init_node ", "term_node", ";"],
        rows := [[("~", .str ""), (" init_node ", .num 1), ("term_node", .num 2), (";", .str ";")],
          [("~", .str ""), (" init_node ", .num 2), ("term_node", .num 3), (";", .str ";")]],
        rect := by decide }
    else if p = "transportation_networks/toy/toy_flow.tntp" then some sampleFlow
    else none
  mat := fun p =>
    if p = "foreign_exchange/B1.csv" then
      some ⟨3, 3, Matrix.of ![![-1, -1, 0], ![1, 0, -1], ![0, 1, 1]]⟩
    else if p = "foreign_exchange/B2t.csv" then some ⟨1, 3, Matrix.of ![![1, -1, 1]]⟩
    else if p = "foreign_exchange/flow_FX_1538755200.csv" then some ⟨3, 1, Matrix.of ![![5], ![6], ![7]]⟩
    else none
  wsnB1 := ⟨0, 0, Matrix.of fun _ _ => 0⟩
  wsnFlowRate := []
  wsnHead := []
  wsnHr := []
  place := fun _ v => (.num v, .num 0)

/-- the loaders return on these files, so the theorems about returned data are not vacuous -/
theorem sampleDir_forex : ∃ r, loadDataset ℤ sampleDir "forex" = .ok r ∧
    r.sc.triangles = [[0, 1, 2]] := by
  have h : (match loadForexData ℤ sampleDir with
    | .ok r => decide (r.sc.triangles = [[0, 1, 2]])
    | .error _ => false) = true := by decide +kernel
  cases hr : loadForexData ℤ sampleDir with
  | error e => rw [hr] at h; cases h
  | ok r =>
    rw [hr] at h
    exact ⟨r, (C43_generated_coordinates ℤ sampleDir "forex" (.inl rfl) r hr).1, of_decide_eq_true h⟩

theorem sampleDir_toy : ∃ r, loadDataset ℤ sampleDir "toy" = .ok r ∧ r.sc.edges = [(0, 1), (1, 2)] := by
  have h : (match loadTransportationDataset ℤ sampleDir "toy" with
    | .ok r => decide (r.sc.edges = [(0, 1), (1, 2)] ∧ r.sc.nodes.length = r.coordinates.length)
    | .error _ => false) = true := by decide +kernel
  cases hr : loadTransportationDataset ℤ sampleDir "toy" with
  | error e => rw [hr] at h; cases h
  | ok r =>
    rw [hr] at h
    have h' := of_decide_eq_true h
    exact ⟨r, (C43_dispatch ℤ sampleDir "toy" (by simp [sampleDir])).2.1 r hr h'.2, h'.1⟩

/-! ## C44: the flow dictionaries of the loaders -/

private theorem mapM_flowItem_ok {ν : Type} {flow : List ν} {l : List (Edge × ℕ)} {items : List (Edge × ν)}
    (h : l.mapM (flowItem flow) = .ok items) : items.map Prod.fst = l.map Prod.fst := by
  have h2 := mapM_eq_ok h
  clear h
  induction h2 with
  | nil => rfl
  | cons hr _ ih =>
    rename_i a b _ _ _
    simp only [List.map_cons, ih, List.cons.injEq, and_true]
    unfold flowItem at hr
    cases hf : flow[a.2]? with
    | none => rw [hf] at hr; cases hr
    | some v => rw [hf] at hr; cases hr; rfl

theorem positionalFlow_keys {ν : Type} {edges : List Edge} {flow : List ν} {f : Dict Edge ν}
    (h : positionalFlow edges flow = .ok f) :
    (Dict.keys f).Nodup ∧ ∀ e, e ∈ Dict.keys f ↔ e ∈ edges := by
  unfold positionalFlow at h
  obtain ⟨items, h1, h⟩ := bind_ok h
  cases h
  refine ⟨Dict.nodup_keys_ofPairs _, fun e => ?_⟩
  rw [Dict.mem_keys_ofPairs, mapM_flowItem_ok h1]
  simp [List.zipIdx_map_fst]

/-- C44: for the datasets whose flow file is positional, a returned flow has each edge of the complex as
a key exactly once and no other key. -/
theorem C44_loaded_flow (d : DataDir) (name : String)
    (hn : name = "paper" ∨ name = "forex" ∨ name = "lastfm-1k-artist" ∨ name = "chicago-sketch")
    (r : Loaded K) (h : loadDataset K d name = .ok r) :
    ∃ f, r.flow = .dict f ∧ (Dict.keys f).Nodup ∧ ∀ e, e ∈ Dict.keys f ↔ e ∈ r.sc.edges := by
  obtain ⟨-, h, -⟩ := C43_checked K d name r h
  rcases hn with rfl | rfl | rfl | rfl
  · replace h : loadPaperData K d = .ok r := h
    unfold loadPaperData at h
    obtain ⟨b, -, h⟩ := bind_ok h
    obtain ⟨sc, -, h⟩ := bind_ok h
    obtain ⟨co, -, h⟩ := bind_ok h
    obtain ⟨co', -, h⟩ := bind_ok h
    obtain ⟨c, -, h⟩ := bind_ok h
    obtain ⟨fl, -, h⟩ := bind_ok h
    obtain ⟨fd, h1, h⟩ := bind_ok h
    cases h
    exact ⟨fd, rfl, positionalFlow_keys h1⟩
  · replace h : loadForexData K d = .ok r := h
    unfold loadForexData at h
    obtain ⟨⟨b, ts⟩, -, h⟩ := bind_ok h
    obtain ⟨sc, -, h⟩ := bind_ok h
    obtain ⟨c, -, h⟩ := bind_ok h
    obtain ⟨fl, -, h⟩ := bind_ok h
    obtain ⟨fd, h1, h⟩ := bind_ok h
    cases h
    exact ⟨fd, rfl, positionalFlow_keys h1⟩
  · replace h : loadLastfm1kArtist K d = .ok r := h
    unfold loadLastfm1kArtist at h
    obtain ⟨⟨b, ts⟩, -, h⟩ := bind_ok h
    obtain ⟨sc, -, h⟩ := bind_ok h
    obtain ⟨c, -, h⟩ := bind_ok h
    obtain ⟨fd, h1, h⟩ := bind_ok h
    cases h
    exact ⟨fd, rfl, positionalFlow_keys h1⟩
  · replace h : loadChicagoSketch K d = .ok r := h
    unfold loadChicagoSketch at h
    obtain ⟨⟨b, ts⟩, -, h⟩ := bind_ok h
    obtain ⟨sc, -, h⟩ := bind_ok h
    obtain ⟨co, -, h⟩ := bind_ok h
    obtain ⟨co', -, h⟩ := bind_ok h
    obtain ⟨c, -, h⟩ := bind_ok h
    obtain ⟨fd, h1, h⟩ := bind_ok h
    cases h
    exact ⟨fd, rfl, positionalFlow_keys h1⟩

/-! ## C42: the transportation loader -/

/-- what a transportation dataset returns comes from its flow file and the sorted edges -/
theorem transportation_flow (d : DataDir) (name : String)
    (hn : name ≠ "paper" ∧ name ≠ "forex" ∧ name ≠ "lastfm-1k-artist" ∧ name ≠ "wsn" ∧
      name ≠ "chicago-sketch")
    (r : Loaded K) (h : loadDataset K d name = .ok r) :
    StrictlySorted r.sc.edges ∧ ∃ f, r.flow = .volumes f ∧
      loadFlowTransportation (d.table (tntpPath name "_flow.tntp")) r.sc.edges = .ok f := by
  obtain ⟨-, h, -⟩ := C43_checked K d name r h
  obtain ⟨n1, n2, n3, n4, n5⟩ := hn
  unfold loaderFor at h
  simp only [n1, n2, n3, n4, if_false] at h
  unfold loadTransportationDataset at h
  simp only [n5, if_false] at h
  obtain ⟨b, h1, h⟩ := bind_ok h
  obtain ⟨sc, h2, h⟩ := bind_ok h
  obtain ⟨co, -, h⟩ := bind_ok h
  obtain ⟨fd, h3, h⟩ := bind_ok h
  cases h
  simp only at h3 ⊢
  have hs : StrictlySorted sc.edges := by
    rw [(C36_pass_through _ _ _ _ _ _ h2).2.1]
    cases ht : d.table (tntpPath name "_net.tntp") with
    | none => rw [ht] at h1; cases h1
    | some t' =>
      rw [ht] at h1
      obtain ⟨h4, -⟩ := C37_read_tntp t' _ _ _ b (by decide) (by decide) h1
      obtain ⟨links, hl, hl'⟩ := C37_only_links _ _ _ _ _ h4
      obtain ⟨nodes, edges, h5, h6, -⟩ := C37_extraction _ _ _ _ _ hl' hl
      rw [h4] at h5
      obtain ⟨-, h7⟩ := Prod.mk.inj (Except.ok.inj h5)
      rw [h7]
      exact h6
  exact ⟨hs, fd, rfl, h3⟩

/-- C42: for every transportation dataset with a flow table, the flow that comes back is the net volume
of every edge, in edge order: the loader always meets the sortedness hypothesis of `C42_net_flow`. -/
theorem C42_loaded_flow (d : DataDir) (name : String)
    (hn : name ≠ "paper" ∧ name ≠ "forex" ∧ name ≠ "lastfm-1k-artist" ∧ name ≠ "wsn" ∧
      name ≠ "chicago-sketch")
    (r : Loaded K) (h : loadDataset K d name = .ok r) (t : Table) (rows : List (ℚ × ℚ × ℚ))
    (hf : d.table (tntpPath name "_flow.tntp") = some t) (hne : t.rows ≠ []) (hr : FlowRows t rows) :
    StrictlySorted r.sc.edges ∧ ∃ f, r.flow = .volumes f ∧ Dict.keys f = r.sc.edges ∧
      ∀ e ∈ r.sc.edges, ∃ v, volume rows (e.1 + 1) (e.2 + 1) = some v ∧
        f.get? e = some (some (v - (volume rows (e.2 + 1) (e.1 + 1)).getD 0)) := by
  obtain ⟨hs, fd, hfd, h3⟩ := transportation_flow K d name hn r h
  generalize r.sc = sc at *
  rw [hf] at h3
  obtain ⟨c1, c2, -⟩ := C42_net_flow t rows sc.edges hne hr hs
  have hall : ∀ e ∈ sc.edges, volume rows (e.1 + 1) (e.2 + 1) ≠ none := by
    intro e he hv
    rw [c2.mp ⟨e, he, hv⟩] at h3
    cases h3
  have hex : ∀ e ∈ sc.edges, ∃ v, volume rows (e.1 + 1) (e.2 + 1) = some v := fun e he =>
    Option.ne_none_iff_exists'.mp (hall e he)
  have h6 := c1 (fun e => (volume rows (e.1 + 1) (e.2 + 1)).getD 0 - (volume rows (e.2 + 1) (e.1 + 1)).getD 0)
    (fun e he => by
      obtain ⟨v, hv⟩ := hex e he
      exact ⟨v, hv, by simp [hv]⟩)
  rw [h6] at h3
  cases h3
  have hk : Dict.keys (sc.edges.map fun e => (e, some ((volume rows (e.1 + 1) (e.2 + 1)).getD 0 -
      (volume rows (e.2 + 1) (e.1 + 1)).getD 0))) = sc.edges := by
    simp [Dict.keys, Function.comp_def]
  refine ⟨hs, _, hfd, hk, fun e he => ?_⟩
  obtain ⟨v, hv⟩ := hex e he
  refine ⟨v, hv, ?_⟩
  apply Dict.get?_of_mem (by rw [hk]; exact hs.nodup)
  exact List.mem_map.mpr ⟨e, he, by simp [hv]⟩

/-! ## C45: random complexes -/

/-- the edge was drawn with a weight that is not zero and below the threshold -/
def DrawnNear (edges : List Edge) (weights : List ℚ) (eps : ℚ) (e : Edge) : Prop :=
  ∃ (i : ℕ) (w : ℚ), edges[i]? = some e ∧ weights[i]? = some w ∧ w ≠ 0 ∧ w < eps

/-- C45: for every graph drawn on `n` nodes and all weights, the generator returns; its triangles are
exactly the triangles whose three weights are non-zero and below the threshold, each once, and the
result is a chain complex. -/
theorem C45_random_complex (n : ℕ) (edges : List Edge) (weights : List ℚ) (eps : ℚ)
    (he : ∀ e ∈ edges, 0 ≤ e.1 ∧ e.1 < e.2 ∧ e.2 < n) (hd : edges.Nodup)
    (hw : weights.length = edges.length) :
    ∃ sc : SC K, generateRandomSimplicialComplex K n edges weights eps = .ok sc ∧
      sc.nodes = (List.range n).map (fun i : ℕ => (i : Int)) ∧ sc.edges = edges ∧
      (∀ (i : ℕ) (e : Edge) (w : ℚ), edges[i]? = some e → weights[i]? = some w →
        Dict.get? sc.edgeFeatures e = some [("distance", .num w)]) ∧
      sc.triangles.Nodup ∧
      (∀ t, t ∈ sc.triangles ↔ ∃ x y z, t = [x, y, z] ∧ x < y ∧ y < z ∧
        DrawnNear edges weights eps (x, y) ∧ DrawnNear edges weights eps (y, z) ∧
        DrawnNear edges weights eps (x, z)) ∧
      sc.B1 * sc.B2 = 0 ∧ sc.WellFormed := by
  have hk : (edges.zip weights).map Prod.fst = edges := List.map_fst_zip (by omega)
  have hattr : edges.zipIdx.mapM (flowItem weights) = .ok (edges.zip weights) :=
    flowItem_mapM edges weights (by omega)
  let ef : EdgeFeatures := (edges.zip weights).map fun a => (a.1, [("distance", Cell.num a.2)])
  have hkey : Dict.keys ef = edges := by
    simp only [Dict.keys, ef, List.map_map]
    exact hk
  have hef : (Dict.ofPairs ((edges.zip weights).map fun a => (a.1, [("distance", Cell.num a.2)])) :
      EdgeFeatures) = ef := by
    apply Dict.ofPairs_of_nodup
    change (Dict.keys ef).Nodup
    rw [hkey]
    exact hd
  let b : SCBuilder := { nodes := pyRange n, edges, edgeFeatures := ef }
  have hgen : generateRandomSimplicialComplex K n edges weights eps =
      b.toSimplicialComplex K "distance" "distance" eps none := by
    unfold generateRandomSimplicialComplex
    rw [hattr]
    simp only [bind, Except.bind]
    rw [hef]
  have hget : ∀ (i : ℕ) (e : Edge) (w : ℚ), edges[i]? = some e → weights[i]? = some w →
      Dict.get? ef e = some [("distance", Cell.num w)] := by
    intro i e w h1 h2
    apply Dict.get?_of_mem (by rw [hkey]; exact hd)
    refine List.mem_map.mpr ⟨(e, w), ?_, rfl⟩
    have : (edges.zip weights)[i]? = some (e, w) := by
      rw [List.getElem?_zip_eq_some]
      exact ⟨h1, h2⟩
    exact List.mem_of_getElem? this
  have hrec : ∀ p ∈ edges, ∃ (i : ℕ) (w : ℚ), edges[i]? = some p ∧ weights[i]? = some w ∧
      recorded b p "distance" = some (.num w) := by
    intro p hp
    obtain ⟨i, hi, hip⟩ := List.getElem_of_mem hp
    have h1 : edges[i]? = some p := by rw [List.getElem?_eq_getElem hi, hip]
    have h2 : weights[i]? = some (weights[i]'(by omega)) := List.getElem?_eq_getElem _
    refine ⟨i, _, h1, h2, ?_⟩
    unfold recorded
    rw [show Dict.get? b.edgeFeatures p = _ from hget i p _ h1 h2]
    simp [Dict.get?]
  have hrec' : ∀ p c, recorded b p "distance" = some c → p ∈ edges := by
    intro p c h
    by_contra hp
    unfold recorded at h
    rw [show Dict.get? b.edgeFeatures p = none from Dict.get?_eq_none.mpr (by rw [show Dict.keys b.edgeFeatures = edges from hkey]; exact hp)] at h
    cases h
  have hnear : ∀ p, NearEnough (recorded b p "distance") eps ↔ DrawnNear edges weights eps p := by
    intro p
    constructor
    · rintro ⟨q, h1, h2, h3⟩
      obtain ⟨i, w, e1, e2, e3⟩ := hrec p (hrec' p _ h1)
      rw [h1] at e3
      cases e3
      exact ⟨i, q, e1, e2, h2, h3⟩
    · rintro ⟨i, w, e1, e2, e3, e4⟩
      refine ⟨w, ?_, e3, e4⟩
      unfold recorded
      rw [show Dict.get? b.edgeFeatures p = _ from hget i p w e1 e2]
      simp [Dict.get?]
  have hnum : NumericColumn b "distance" := by
    intro p c h
    obtain ⟨i, w, -, -, e3⟩ := hrec p (hrec' p c h)
    rw [h] at e3
    exact ⟨w, Option.some.inj e3⟩
  have hor : ∀ t ∈ b.triangles, TriOriented b.edges t := fun t ht =>
    ascending_oriented (fun e h => (he e h).2.1) ht
  have hmiss : ¬ ∃ x y z, [x, y, z] ∈ b.triangles ∧ MissingReached b "distance" x y z := by
    rintro ⟨x, y, z, ht, hm⟩
    obtain ⟨x', y', z', heq, o1, o2, o3⟩ := hor _ ht
    obtain ⟨rfl, rfl, rfl⟩ : x = x' ∧ y = y' ∧ z = z' := by simpa using heq
    obtain ⟨_, _, -, -, r1⟩ := hrec _ o1
    obtain ⟨_, _, -, -, r2⟩ := hrec _ o2
    obtain ⟨_, _, -, -, r3⟩ := hrec _ o3
    unfold MissingReached at hm
    rw [r1, r2, r3] at hm
    simp at hm
  obtain ⟨hke, hor2⟩ := C35_distance_keyError b "distance" hnum eps
  obtain ⟨ts, hts⟩ := hor2.resolve_right fun h => hmiss (hke.mp h)
  obtain ⟨hsub, hmem⟩ := C35_distance_general b "distance" eps ts hts
  have hlen : b.nodes.length = n := by simp [b, length_pyRange]
  obtain ⟨sc, hsc, hwf⟩ := SC.exists_wellFormed K b.nodes b.edges ts b.nodeFeatures b.edgeFeatures
    (fun e h => by have := he e h; rw [hlen]; omega) (fun e h => by have := he e h; omega)
    (fun t ht => hor t (hsub.subset ht))
  obtain ⟨s1, s2, s3, -, s5, -⟩ := SC.init_ok hsc
  refine ⟨sc, ?_, ?_, s2, ?_, ?_, ?_, hwf.b1_mul_b2, hwf⟩
  · rw [hgen, (C36_dispatch b "distance" "distance" eps).2.2.2 (by decide) ts hts]
    exact hsc
  · rw [s1]
    simp [b, pyRange]
  · intro i e w h1 h2
    rw [s5]
    exact hget i e w h1 h2
  · rw [s3]
    exact (triangles_nodup b).sublist hsub
  · intro t
    rw [s3]
    constructor
    · intro ht
      obtain ⟨x, y, z, rfl, l1, l2, -⟩ := (mem_triangles b t).mp (hsub.subset ht)
      obtain ⟨-, n1, n2, n3⟩ := (hmem x y z).mp ht
      exact ⟨x, y, z, rfl, l1, l2, (hnear _).mp n1, (hnear _).mp n2, (hnear _).mp n3⟩
    · rintro ⟨x, y, z, rfl, l1, l2, n1, n2, n3⟩
      refine (hmem x y z).mpr ⟨(mem_triangles b _).mpr ⟨x, y, z, rfl, l1, l2, ?_, ?_, ?_⟩,
        (hnear _).mpr n1, (hnear _).mpr n2, (hnear _).mpr n3⟩
      · obtain ⟨i, w, h, -⟩ := n1
        exact .inl (List.mem_of_getElem? h)
      · obtain ⟨i, w, h, -⟩ := n2
        exact .inl (List.mem_of_getElem? h)
      · obtain ⟨i, w, h, -⟩ := n3
        exact .inl (List.mem_of_getElem? h)

/-- the hypotheses of C45 are met by a triangle with one heavy edge, which is then left open -/
example : (∀ e ∈ [((0 : Int), (1 : Int)), (0, 2), (1, 2)], 0 ≤ e.1 ∧ e.1 < e.2 ∧ e.2 < (3 : ℕ)) ∧
    [((0 : Int), (1 : Int)), (0, 2), (1, 2)].Nodup ∧
    DrawnNear [((0 : Int), (1 : Int)), (0, 2), (1, 2)] [1 / 2, 9 / 10, 1 / 4] (3 / 5) (0, 1) ∧
    ¬ DrawnNear [((0 : Int), (1 : Int)), (0, 2), (1, 2)] [1 / 2, 9 / 10, 1 / 4] (3 / 5) (0, 2) := by
  refine ⟨by decide, by decide, ⟨0, 1 / 2, rfl, rfl, by norm_num, by norm_num⟩, ?_⟩
  rintro ⟨i, w, h1, h2, -, h4⟩
  match i, h1, h2 with
  | 0, h1, _ => exact absurd h1 (by decide)
  | 1, _, h2 =>
    simp only [List.getElem?_cons_succ, List.getElem?_cons_zero, Option.some.injEq] at h2
    rw [← h2] at h4
    norm_num at h4
  | 2, h1, _ => exact absurd h1 (by decide)
  | i + 3, h1, _ => simp at h1

end named
end Pytspl
