import Verif.Props.Datasets
import Verif.Props.Operators

/-!
# What the loaded datasets contain: C108 (and the summary printed by `load_dataset`, C43)
-/

namespace Pytspl

private theorem bind_ok {α β : Type} {x : Py α} {f : α → Py β} {r : β} (h : (x >>= f) = .ok r) :
    ∃ a, x = .ok a ∧ f a = .ok r := by
  cases x with
  | error e => cases h
  | ok a => exact ⟨a, rfl, h⟩

private theorem forall₂_left {α β : Type} {R : α → β → Prop} {l : List α} {m : List β}
    (h : List.Forall₂ R l m) {a : α} (ha : a ∈ l) : ∃ b ∈ m, R a b := by
  induction h with
  | nil => simp at ha
  | cons hr _ ih =>
    rcases List.mem_cons.mp ha with rfl | h'
    · exact ⟨_, by simp, hr⟩
    · obtain ⟨b, hb, hab⟩ := ih h'
      exact ⟨b, by simp [hb], hab⟩

private theorem forall₂_right {α β : Type} {R : α → β → Prop} {l : List α} {m : List β}
    (h : List.Forall₂ R l m) {b : β} (hb : b ∈ m) : ∃ a ∈ l, R a b := by
  induction h with
  | nil => simp at hb
  | cons hr _ ih =>
    rcases List.mem_cons.mp hb with rfl | h'
    · exact ⟨_, by simp, hr⟩
    · obtain ⟨a, ha, hab⟩ := ih h'
      exact ⟨a, by simp [ha], hab⟩

private theorem links_graph {t : Table} {src dst : String} {zero : Bool} {nodes : List Int} {edges : List Edge}
    (h : extractNodesEdges t src dst zero = .ok (nodes, edges)) :
    ∃ links, Links t src dst zero links ∧ GraphOfLinks links nodes edges := by
  obtain ⟨links, hl, hl'⟩ := C37_only_links _ _ _ _ _ h
  obtain ⟨nodes', edges', h5, h6, -, h7, -, -, h8⟩ := C37_extraction _ _ _ _ _ hl' hl
  rw [h] at h5
  obtain ⟨rfl, rfl⟩ := Prod.mk.inj (Except.ok.inj h5)
  exact ⟨links, hl', h6, h7, h8⟩

private theorem readMat_ok {L : Type} {f : Option (CsvMat L)} {c : CsvMat L} (h : readMat f = .ok c) :
    f = some c ∧ c.m ≠ 0 ∧ c.n ≠ 0 := by
  unfold readMat at h
  cases f with
  | none => cases h
  | some c' =>
    simp only at h
    split_ifs at h with hc
    cases h
    push Not at hc
    exact ⟨rfl, hc⟩

private theorem flow_by_position {edges : List Edge} {flow : List ℚ} {f : Dict Edge ℚ} {value : ℕ → ℚ → Prop}
    (hd : edges.Nodup) (h : positionalFlow edges flow = .ok f)
    (hv : ∀ i v, flow[i]? = some v → value i v) : FlowByPosition edges value f := by
  obtain ⟨h1, h2⟩ := C44_positional_flow edges flow hd
  have hlen : edges.length ≤ flow.length := by
    by_contra hlt
    rw [h2 (by omega)] at h
    cases h
  obtain ⟨f', h3, h4, h5⟩ := h1 hlen
  rw [h] at h3
  cases h3
  refine ⟨h4, fun i e he => ?_⟩
  obtain ⟨hi, -⟩ := List.getElem?_eq_some_iff.mp he
  have hi' : i < flow.length := by omega
  exact ⟨flow[i], hv i _ (by simp [hi']), by rw [h5 i e he]; simp [hi']⟩

private theorem firstColumn_spec {c : CsvMat ℚ} {l : List ℚ} (h : firstColumn c = .ok l) :
    ∀ i v, l[i]? = some v → InFirstColumn c i v := by
  unfold firstColumn at h
  split_ifs at h with h0
  cases h
  intro i v hv
  obtain ⟨hi, hv⟩ := List.getElem?_eq_some_iff.mp hv
  simp only [List.length_ofFn] at hi
  exact ⟨hi, h0, by rw [← hv]; simp⟩

private theorem flattenMat_spec (c : CsvMat ℚ) : ∀ i v, (flattenMat c)[i]? = some v → InReadingOrder c i v := by
  intro i v hv
  have key : ∀ (rows : List (Fin c.m)) (i : ℕ) (v : ℚ),
      (rows.flatMap fun r => (List.finRange c.n).map fun j => c.M r j)[i]? = some v →
      ∃ (a : ℕ) (r : Fin c.m) (k : Fin c.n), rows[a]? = some r ∧ i = a * c.n + k ∧ v = c.M r k := by
    intro rows
    induction rows with
    | nil => intro i v h; simp at h
    | cons r rows ih =>
      intro i v h
      rw [List.flatMap_cons] at h
      by_cases hi : i < c.n
      · rw [List.getElem?_append_left (by simpa using hi)] at h
        refine ⟨0, r, ⟨i, hi⟩, rfl, by simp, ?_⟩
        simp [hi] at h
        exact h.symm
      · rw [List.getElem?_append_right (by simpa using hi)] at h
        obtain ⟨a, r', k, h1, h2, h3⟩ := ih _ _ h
        refine ⟨a + 1, r', k, by simpa using h1, ?_, h3⟩
        simp only [List.length_map, List.length_finRange] at h2
        have : (a + 1) * c.n = a * c.n + c.n := by ring
        omega
  obtain ⟨a, r, k, h1, h2, h3⟩ := key _ _ _ hv
  obtain ⟨ha, h1⟩ := List.getElem?_eq_some_iff.mp h1
  have : (r : ℕ) = a := by rw [← h1]; simp
  exact ⟨r, k, by rw [this]; exact h2, h3⟩

private theorem whereEq_first {m n : ℕ} {M : Matrix (Fin m) (Fin n) ℚ} {j : Fin n} {x : ℚ} {u : Fin m}
    (h : firstItem (whereEq M j x) = .ok u) : M u j = x ∧ ∀ i < u, M i j ≠ x := by
  unfold firstItem at h
  cases hw : whereEq M j x with
  | nil => rw [hw] at h; cases h
  | cons a l =>
    rw [hw] at h
    cases h
    have hmem : u ∈ whereEq M j x := by rw [hw]; simp
    refine ⟨by simpa [whereEq] using hmem, fun i hi hx => ?_⟩
    have him : i ∈ whereEq M j x := by simpa [whereEq] using hx
    have hs : (whereEq M j x).Pairwise (· < ·) :=
      List.Pairwise.sublist List.filter_sublist (List.pairwise_lt_finRange m)
    rw [hw] at him hs
    rcases List.mem_cons.mp him with rfl | him
    · exact lt_irrefl _ hi
    · exact lt_asymm hi ((List.pairwise_cons.mp hs).1 i him)

private theorem columns_spec {m n : ℕ} {M : Matrix (Fin m) (Fin n) ℚ} {edges : List Edge}
    (h : edgesOfColumns M = .ok edges) : List.Forall₂ (fun j e => ColumnEdge M j e) (List.finRange n) edges := by
  refine (mapM_eq_ok h).imp fun j e he => ?_
  obtain ⟨u, h1, he⟩ := bind_ok he
  obtain ⟨v, h2, he⟩ := bind_ok he
  cases he
  exact ⟨u, v, rfl, (whereEq_first h1).1, (whereEq_first h1).2, (whereEq_first h2).1, (whereEq_first h2).2⟩

private theorem largest_columns {edges : List Edge} {nodes : List Int}
    (h : nodesUpToMax (nodeSet edges) = .ok nodes) :
    ∃ m, LargestId edges m ∧ nodes = (List.range (m + 1).toNat).map fun i : ℕ => (i : Int) := by
  obtain ⟨m, h1, hm, rfl⟩ := nodesUpToMax_ok h
  refine ⟨m, ⟨?_, fun l hl => ⟨hm _ ((mem_nodeSet _ _).mpr ⟨l, hl, .inl rfl⟩),
    hm _ ((mem_nodeSet _ _).mpr ⟨l, hl, .inr rfl⟩)⟩⟩, rfl⟩
  obtain ⟨l, hl, h⟩ := (mem_nodeSet _ _).mp h1
  exact ⟨l, hl, by tauto⟩

private theorem triangle_spec {edges : List Edge} {m n : ℕ} {M : Matrix (Fin m) (Fin n) ℚ} {k : Fin m} {t : List Int}
    (h : triangleOfColumn edges M.transpose k = .ok t) : RowTriangle edges M k t := by
  unfold triangleOfColumn at h
  obtain ⟨es, h1, h⟩ := bind_ok h
  cases h
  refine ⟨sortedInts_lt (nodup_nodeSet _), fun v => ?_⟩
  rw [(sortedInts_perm _).mem_iff, mem_nodeSet]
  have h2 := mapM_eq_ok h1
  constructor
  · rintro ⟨e, he, hv⟩
    obtain ⟨j, hj, hje⟩ := forall₂_right h2 he
    refine ⟨j, e, of_decide_eq_true (List.mem_filter.mp hj).2, ?_, by tauto⟩
    cases hg : edges[(j : ℕ)]? with
    | none => rw [hg] at hje; cases hje
    | some e' => rw [hg] at hje; cases hje; rfl
  · rintro ⟨j, e, hj, hg, hv⟩
    obtain ⟨e', he', hje⟩ := forall₂_left h2 (List.mem_filter.mpr ⟨List.mem_finRange j, decide_eq_true hj⟩)
    rw [hg] at hje
    cases hje
    exact ⟨e, he', by tauto⟩

private theorem matrix_graph {f1 f2 : Option (CsvMat ℚ)} {b : SCBuilder} {ts : List (List Int)}
    (h : readB1B2 f1 f2 = .ok (b, ts)) :
    ∃ (c1 c2 : CsvMat ℚ) (columns : List Edge), f1 = some c1 ∧ f2 = some c2 ∧
      GraphOfMatrix c1.M columns b.nodes ∧ b.edges.Perm columns ∧
      b.edges.Pairwise (fun e f => e.1 < f.1 ∨ (e.1 = f.1 ∧ e.2 ≤ f.2)) ∧
      List.Forall₂ (fun k t => RowTriangle b.edges c2.M k t) (List.finRange c2.m) ts := by
  unfold readB1B2 at h
  obtain ⟨c, h0, h⟩ := bind_ok h
  obtain ⟨edges, h1, h⟩ := bind_ok h
  obtain ⟨nodes, h2, h⟩ := bind_ok h
  obtain ⟨tr, h3, h⟩ := bind_ok h
  obtain ⟨rfl, rfl⟩ := Prod.mk.inj (Except.ok.inj h)
  unfold readB2 at h3
  obtain ⟨c2, h4, h3⟩ := bind_ok h3
  refine ⟨c, c2, edges, (readMat_ok h0).1, (readMat_ok h4).1, ⟨columns_spec h1, largest_columns h2⟩,
    sortedPairs_perm _, sortedPairs_pairwise _, (mapM_eq_ok h3).imp fun k t hk => triangle_spec hk⟩

section loaders
variable (K : Type) [CommRing K]

private theorem default_triangles {b : SCBuilder} {sc : SC K} (h : b.toSimplicialComplex K = .ok sc) :
    sc.nodes = b.nodes ∧ sc.edges = b.edges ∧ AllTriangles sc.edges sc.triangles := by
  obtain ⟨p1, p2, -, -, -, -, p7, -⟩ := C36_pass_through _ _ _ _ _ _ h
  refine ⟨p1, p2, ?_⟩
  rw [p7 rfl rfl, p2]
  exact C33_triangles_exact b

/-- C108: the `paper` dataset. The links of `edges.csv` count from 0, the complex has all triangles of the
graph, the coordinates are those of `coordinates.csv`, and edge number `i` carries line `i` of `flow.csv`. -/
theorem C108_paper (d : DataDir) (r : Loaded K) (h : loadDataset K d "paper" = .ok r) :
    ∃ (te tc : Table) (c : CsvMat ℚ) (links : List Edge) (f : Dict Edge ℚ),
      d.table "paper_data/edges.csv" = some te ∧ d.table "paper_data/coordinates.csv" = some tc ∧
      d.mat "paper_data/flow.csv" = some c ∧
      Links te "Source" "Target" true links ∧ GraphOfLinks links r.sc.nodes r.sc.edges ∧
      AllTriangles r.sc.edges r.sc.triangles ∧
      CoordinatesOf (tc.rename pyStrip) "Id" "X" "Y" true r.coordinates ∧
      r.flow = .dict f ∧ FlowByPosition r.sc.edges (InFirstColumn c) f := by
  obtain ⟨-, h, -⟩ := C43_checked K d _ r h
  replace h : loadPaperData K d = .ok r := h
  unfold loadPaperData at h
  obtain ⟨b, h1, h⟩ := bind_ok h
  obtain ⟨sc, h2, h⟩ := bind_ok h
  obtain ⟨co, h3, h⟩ := bind_ok h
  obtain ⟨co', h4, h⟩ := bind_ok h
  obtain ⟨c, h5, h⟩ := bind_ok h
  obtain ⟨fl, h6, h⟩ := bind_ok h
  obtain ⟨fd, h7, h⟩ := bind_ok h
  cases h
  obtain ⟨q1, q2, q3⟩ := default_triangles K h2
  cases hte : d.table "paper_data/edges.csv" with
  | none => rw [hte] at h1; cases h1
  | some te =>
    rw [hte] at h1
    cases htc : d.table "paper_data/coordinates.csv" with
    | none => rw [htc] at h3; cases h3; cases h4
    | some tc =>
      rw [htc] at h3
      obtain ⟨links, l1, l2⟩ := links_graph (C37_read_csv _ _ _ _ _ _ h1).1
      obtain ⟨dd, rfl, c1⟩ := C41_coordinates _ _ _ _ _ _ h3
      cases h4
      refine ⟨te, tc, c, links, fd, rfl, rfl, (readMat_ok h5).1, l1, by rw [q1, q2]; exact l2, q3, c1, rfl,
        flow_by_position ?_ h7 (firstColumn_spec h6)⟩
      rw [q2]
      exact l2.1.nodup

/-- C108: a transportation network. Ids in its files count from 1: the links are those of `_net.tntp`
lowered by one, the complex has all triangles of the graph, and the coordinates are those of `_node.tntp`
under the ids lowered by one, or, without that file, one generated position per node. (The flow is in
`C42_loaded_flow`.) -/
theorem C108_transportation (d : DataDir) (name : String)
    (hn : name ≠ "paper" ∧ name ≠ "forex" ∧ name ≠ "lastfm-1k-artist" ∧ name ≠ "wsn" ∧ name ≠ "chicago-sketch")
    (r : Loaded K) (h : loadDataset K d name = .ok r) :
    ∃ (te : Table) (links : List Edge),
      d.table ("transportation_networks/" ++ name ++ "/" ++ name ++ "_net.tntp") = some te ∧
      Links (te.rename pyStrip) "init_node" "term_node" false links ∧ GraphOfLinks links r.sc.nodes r.sc.edges ∧
      AllTriangles r.sc.edges r.sc.triangles ∧
      (∀ tc, d.table ("transportation_networks/" ++ name ++ "/" ++ name ++ "_node.tntp") = some tc →
        CoordinatesOf (tc.rename pyStrip) "node" "X" "Y" false r.coordinates) ∧
      (d.table ("transportation_networks/" ++ name ++ "/" ++ name ++ "_node.tntp") = none →
        (∀ l ∈ links, 0 ≤ l.1 ∧ 0 ≤ l.2) →
        Dict.keys r.coordinates = r.sc.nodes.map fun v : Int => Cell.num (v : ℚ)) := by
  obtain ⟨-, h, -⟩ := C43_checked K d name r h
  obtain ⟨n1, n2, n3, n4, n5⟩ := hn
  unfold loaderFor at h
  simp only [n1, n2, n3, n4, if_false] at h
  unfold loadTransportationDataset at h
  simp only [n5, if_false] at h
  obtain ⟨b, h1, h⟩ := bind_ok h
  obtain ⟨sc, h2, h⟩ := bind_ok h
  obtain ⟨co, h3, h⟩ := bind_ok h
  obtain ⟨fd, -, h⟩ := bind_ok h
  cases h
  obtain ⟨q1, q2, q3⟩ := default_triangles K h2
  unfold tntpPath at h1 h3
  cases hte : d.table ("transportation_networks/" ++ name ++ "/" ++ name ++ "_net.tntp") with
  | none => rw [hte] at h1; cases h1
  | some te =>
    rw [hte] at h1
    obtain ⟨links, l1, l2⟩ := links_graph (C37_read_tntp _ _ _ _ _ (by decide) (by decide) h1).1
    have l3 : GraphOfLinks links sc.nodes sc.edges := by rw [q1, q2]; exact l2
    refine ⟨te, links, rfl, l1, l3, q3, fun tc htc => ?_, fun htc h0 => ?_⟩
    · rw [htc] at h3
      obtain ⟨dd, rfl, c1⟩ := C41_coordinates _ _ _ _ _ _ h3
      exact c1
    · rw [htc] at h3
      cases h3
      obtain ⟨e1, e2, m, ⟨hm1, hm2⟩, e3⟩ := l3
      have hnd : sc.nodes.Nodup := by
        rw [e3]
        exact List.Nodup.map (fun a b h => by simpa using h) List.nodup_range
      refine (generateCoordinates_length K sc d.place hnd fun e he => ?_).2
      obtain ⟨pre, post, hl, -⟩ := (e2 e).mp he
      have hel : e ∈ links := by rw [hl]; simp
      have := h0 e hel
      have := hm2 e hel
      rw [e3]
      simp only [List.mem_map, List.mem_range]
      exact ⟨⟨e.1.toNat, by omega, by omega⟩, ⟨e.2.toNat, by omega, by omega⟩⟩

/-- what the datasets given by incidence matrices have in common: the edges of the complex are those of the
columns of the first file, in order; its triangles are the rows of the second -/
def FromMatrices (f1 f2 : Option (CsvMat ℚ)) (sc : SC K) : Prop :=
  ∃ (c1 c2 : CsvMat ℚ) (columns : List Edge), f1 = some c1 ∧ f2 = some c2 ∧
    GraphOfMatrix c1.M columns sc.nodes ∧ sc.edges.Perm columns ∧
    sc.edges.Pairwise (fun e f => e.1 < f.1 ∨ (e.1 = f.1 ∧ e.2 ≤ f.2)) ∧
    List.Forall₂ (fun k t => RowTriangle sc.edges c2.M k t) (List.finRange c2.m) sc.triangles

private theorem from_matrices {f1 f2 : Option (CsvMat ℚ)} {b : SCBuilder} {ts : List (List Int)} {sc : SC K}
    (h : readB1B2 f1 f2 = .ok (b, ts)) (h2 : b.toSimplicialComplex K (triangles := some ts) = .ok sc) :
    FromMatrices K f1 f2 sc := by
  obtain ⟨p1, p2, -, -, -, p6, -⟩ := C36_pass_through _ _ _ _ _ _ h2
  obtain ⟨c1, c2, columns, m1, m2, m3, m4, m5, m6⟩ := matrix_graph h
  refine ⟨c1, c2, columns, m1, m2, by rw [p1]; exact m3, by rw [p2]; exact m4, by rw [p2]; exact m5, ?_⟩
  rw [p2, p6 _ rfl]
  exact m6

/-- C108: the `forex` dataset. -/
theorem C108_forex (d : DataDir) (r : Loaded K) (h : loadDataset K d "forex" = .ok r) :
    FromMatrices K (d.mat "foreign_exchange/B1.csv") (d.mat "foreign_exchange/B2t.csv") r.sc ∧
    ∃ (c : CsvMat ℚ) (f : Dict Edge ℚ), d.mat "foreign_exchange/flow_FX_1538755200.csv" = some c ∧ r.flow = .dict f ∧
      (r.sc.edges.Nodup → FlowByPosition r.sc.edges (InFirstColumn c) f) := by
  obtain ⟨-, h, -⟩ := C43_checked K d _ r h
  replace h : loadForexData K d = .ok r := h
  unfold loadForexData at h
  obtain ⟨⟨b, ts⟩, h1, h⟩ := bind_ok h
  obtain ⟨sc, h2, h⟩ := bind_ok h
  obtain ⟨c, h3, h⟩ := bind_ok h
  obtain ⟨fl, h4, h⟩ := bind_ok h
  obtain ⟨fd, h5, h⟩ := bind_ok h
  cases h
  exact ⟨from_matrices K h1 h2, c, fd, (readMat_ok h3).1, rfl, fun hd => flow_by_position hd h5 (firstColumn_spec h4)⟩

/-- C108: the `lastfm-1k-artist` dataset; its flow file is read row by row. -/
theorem C108_lastfm (d : DataDir) (r : Loaded K) (h : loadDataset K d "lastfm-1k-artist" = .ok r) :
    FromMatrices K (d.mat "lastfm-dataset-1K/B1-artist.csv") (d.mat "lastfm-dataset-1K/B2t-artist.csv") r.sc ∧
    ∃ (c : CsvMat ℚ) (f : Dict Edge ℚ), d.mat "lastfm-dataset-1K/flow-artist.csv" = some c ∧ r.flow = .dict f ∧
      (r.sc.edges.Nodup → FlowByPosition r.sc.edges (InReadingOrder c) f) := by
  obtain ⟨-, h, -⟩ := C43_checked K d _ r h
  replace h : loadLastfm1kArtist K d = .ok r := h
  unfold loadLastfm1kArtist at h
  obtain ⟨⟨b, ts⟩, h1, h⟩ := bind_ok h
  obtain ⟨sc, h2, h⟩ := bind_ok h
  obtain ⟨c, h3, h⟩ := bind_ok h
  obtain ⟨fd, h5, h⟩ := bind_ok h
  cases h
  exact ⟨from_matrices K h1 h2, c, fd, (readMat_ok h3).1, rfl, fun hd => flow_by_position hd h5 (flattenMat_spec c)⟩

/-- C108: the `chicago-sketch` dataset; its coordinates count from 0. -/
theorem C108_chicago (d : DataDir) (r : Loaded K) (h : loadDataset K d "chicago-sketch" = .ok r) :
    FromMatrices K (d.mat "transportation_networks/chicago-sketch/B1_chicago_sketch.csv")
      (d.mat "transportation_networks/chicago-sketch/B2t_chicago_sketch.csv") r.sc ∧
    (∃ tc, d.table "transportation_networks/chicago-sketch/coordinates_chicago_sketch.csv" = some tc ∧
      CoordinatesOf (tc.rename pyStrip) "Id" "X" "Y" true r.coordinates) ∧
    ∃ (c : CsvMat ℚ) (f : Dict Edge ℚ),
      d.mat "transportation_networks/chicago-sketch/flow_chicago_sketch.csv" = some c ∧ r.flow = .dict f ∧
      (r.sc.edges.Nodup → FlowByPosition r.sc.edges (InReadingOrder c) f) := by
  obtain ⟨-, h, -⟩ := C43_checked K d _ r h
  replace h : loadChicagoSketch K d = .ok r := h
  unfold loadChicagoSketch at h
  obtain ⟨⟨b, ts⟩, h1, h⟩ := bind_ok h
  obtain ⟨sc, h2, h⟩ := bind_ok h
  obtain ⟨co, h3, h⟩ := bind_ok h
  obtain ⟨co', h4, h⟩ := bind_ok h
  obtain ⟨c, h5, h⟩ := bind_ok h
  obtain ⟨fd, h6, h⟩ := bind_ok h
  cases h
  refine ⟨from_matrices K h1 h2, ?_, c, fd, (readMat_ok h5).1, rfl, fun hd => flow_by_position hd h6 (flattenMat_spec c)⟩
  cases htc : d.table "transportation_networks/chicago-sketch/coordinates_chicago_sketch.csv" with
  | none => rw [htc] at h3; cases h3; cases h4
  | some tc =>
    rw [htc] at h3
    obtain ⟨dd, rfl, c1⟩ := C41_coordinates _ _ _ _ _ _ h3
    cases h4
    exact ⟨tc, rfl, c1⟩

/-- C108: the `wsn` dataset. The edges are the columns of the incidence matrix in their order, all triangles
of the graph are filled, and the returned array holds the heads, then for every pipe the loss of head. -/
theorem C108_wsn (d : DataDir) (r : Loaded K) (h : loadDataset K d "wsn" = .ok r) :
    GraphOfMatrix d.wsnB1.M r.sc.edges r.sc.nodes ∧ AllTriangles r.sc.edges r.sc.triangles ∧
    d.wsnHr.length ≠ 1 ∧ (d.wsnHr.length = d.wsnFlowRate.length ∨ d.wsnFlowRate.length = 1) ∧
    ∃ losses : List ℝ, r.flow = .arr (d.wsnHead ++ losses) ∧ losses.length = d.wsnHr.length ∧
      ∀ (i : ℕ) (hr q : ℝ), d.wsnHr[i]? = some hr → d.wsnFlowRate[i]? = some q ∨ d.wsnFlowRate = [q] →
        losses[i]? = some (headLoss hr q) := by
  obtain ⟨-, h, -⟩ := C43_checked K d _ r h
  replace h : loadWsnData K d = .ok r := h
  unfold loadWsnData at h
  obtain ⟨edges, h1, h⟩ := bind_ok h
  obtain ⟨nodes, h0, h⟩ := bind_ok h
  obtain ⟨sc, h2, h⟩ := bind_ok h
  obtain ⟨y, h3, h⟩ := bind_ok h
  cases h
  obtain ⟨q1, q2, q3⟩ := default_triangles K h2
  have hloss : ∀ h q : ℝ, -h * (SignType.sign q : ℝ) * |q| ^ (1.852 : ℝ) = headLoss h q := by
    intro h q
    unfold headLoss
    rcases lt_trichotomy q 0 with hq' | rfl | hq'
    · rw [if_neg (by linarith), abs_of_neg hq', sign_neg hq']
      simp
    · rw [if_pos le_rfl]
      norm_num
    · rw [if_pos hq'.le, abs_of_pos hq', sign_pos hq']
      simp
  have hg : GraphOfMatrix d.wsnB1.M sc.edges sc.nodes := by
    simp only [q1, q2]
    exact ⟨columns_spec h1, largest_columns h0⟩
  unfold wsnFlow at h3
  simp only [hloss] at h3
  split_ifs at h3 with hl1 hl
  · cases h3
    refine ⟨hg, q3, hl1, .inl hl, _, rfl, by simp [hl], fun i hr q hi hq => ?_⟩
    rcases hq with hq | hq
    · rw [List.getElem?_zipWith, hi, hq]
    · rw [hq] at hl
      exact absurd hl hl1
  · split at h3
    · rename_i q0 hq0
      cases h3
      refine ⟨hg, q3, hl1, .inr (by simp [hq0]), _, rfl, by simp, fun i hr q hi hq => ?_⟩
      have : q = q0 := by
        rcases hq with hq | hq
        · rw [hq0] at hq
          obtain ⟨h', hq⟩ := List.getElem?_eq_some_iff.1 hq
          simpa using hq.symm
        · rw [hq0] at hq
          simpa using hq.symm
      rw [List.getElem?_map, hi, this]
      rfl
    · cases h3

private theorem firstSeen_nonempty {links edges : List Edge} (h : ∀ e, e ∈ edges ↔ FirstSeen links e)
    (hne : links ≠ []) : edges ≠ [] := by
  cases links with
  | nil => exact absurd rfl hne
  | cons e ls => exact List.ne_nil_of_mem ((h e).mpr ⟨[], ls, rfl, by simp, by simp⟩)

private theorem built_nonempty {sc : SC K} (hb : sc.Built) (he : sc.edges ≠ []) :
    sc.maxDim = .ok 1 ∨ sc.maxDim = .ok 2 := by
  obtain ⟨h1, h2, -⟩ := C06_max_dim sc hb
  by_cases ht : sc.triangles = []
  · exact .inl (h2 ht he)
  · exact .inr (h1 ht)

private theorem largest_nonempty {edges : List Edge} {m : Int} (h : LargestId edges m) : edges ≠ [] := by
  obtain ⟨⟨l, hl, -⟩, -⟩ := h
  exact List.ne_nil_of_mem hl

/-- C43: the summary `load_dataset` prints (it asks for the dimension) never fails: every loaded complex has
an edge, so its dimension is 1 or 2. -/
theorem C43_summary (d : DataDir) (name : String) (r : Loaded K) (h : loadDataset K d name = .ok r) :
    r.sc.edges ≠ [] ∧ (r.sc.maxDim = .ok 1 ∨ r.sc.maxDim = .ok 2) := by
  have key : r.sc.Built ∧ r.sc.edges ≠ [] := by
    have h' := h
    obtain ⟨-, hl, -⟩ := C43_checked K d name r h
    unfold loaderFor at hl
    split_ifs at hl with n1 n2 n3 n4
    · subst n1
      obtain ⟨te, tc, c, links, f, -, -, -, -, ⟨-, e2, m, hm, -⟩, -⟩ := C108_paper K d r h
      refine ⟨?_, ?_⟩
      · unfold loadPaperData at hl
        obtain ⟨b, -, hl⟩ := bind_ok hl
        obtain ⟨sc, h2, hl⟩ := bind_ok hl
        obtain ⟨co, -, hl⟩ := bind_ok hl
        obtain ⟨co', -, hl⟩ := bind_ok hl
        obtain ⟨c, -, hl⟩ := bind_ok hl
        obtain ⟨fl, -, hl⟩ := bind_ok hl
        obtain ⟨fd, -, hl⟩ := bind_ok hl
        cases hl
        exact (C36_pass_through _ _ _ _ _ _ h2).2.2.2.2.1
      · exact firstSeen_nonempty e2 (largest_nonempty hm)
    · subst n2
      obtain ⟨⟨c1, c2, columns, -, -, ⟨-, top, hm, -⟩, hp, -⟩, -⟩ := C108_forex K d r h
      refine ⟨?_, fun hn => largest_nonempty hm ?_⟩
      · unfold loadForexData at hl
        obtain ⟨⟨b, ts⟩, -, hl⟩ := bind_ok hl
        obtain ⟨sc, h2, hl⟩ := bind_ok hl
        obtain ⟨c, -, hl⟩ := bind_ok hl
        obtain ⟨fl, -, hl⟩ := bind_ok hl
        obtain ⟨fd, -, hl⟩ := bind_ok hl
        cases hl
        exact (C36_pass_through _ _ _ _ _ _ h2).2.2.2.2.1
      · rw [hn] at hp
        exact hp.nil_eq.symm
    · subst n3
      obtain ⟨⟨c1, c2, columns, -, -, ⟨-, top, hm, -⟩, hp, -⟩, -⟩ := C108_lastfm K d r h
      refine ⟨?_, fun hn => largest_nonempty hm ?_⟩
      · unfold loadLastfm1kArtist at hl
        obtain ⟨⟨b, ts⟩, -, hl⟩ := bind_ok hl
        obtain ⟨sc, h2, hl⟩ := bind_ok hl
        obtain ⟨c, -, hl⟩ := bind_ok hl
        obtain ⟨fd, -, hl⟩ := bind_ok hl
        cases hl
        exact (C36_pass_through _ _ _ _ _ _ h2).2.2.2.2.1
      · rw [hn] at hp
        exact hp.nil_eq.symm
    · subst n4
      obtain ⟨⟨-, top, hm, -⟩, -⟩ := C108_wsn K d r h
      refine ⟨?_, largest_nonempty hm⟩
      unfold loadWsnData at hl
      obtain ⟨edges, -, hl⟩ := bind_ok hl
      obtain ⟨nodes, -, hl⟩ := bind_ok hl
      obtain ⟨sc, h2, hl⟩ := bind_ok hl
      obtain ⟨y, -, hl⟩ := bind_ok hl
      cases hl
      exact (C36_pass_through _ _ _ _ _ _ h2).2.2.2.2.1
    · by_cases n5 : name = "chicago-sketch"
      · subst n5
        obtain ⟨⟨c1, c2, columns, -, -, ⟨-, top, hm, -⟩, hp, -⟩, -⟩ := C108_chicago K d r h
        refine ⟨?_, fun hn => largest_nonempty hm ?_⟩
        · unfold loadTransportationDataset at hl
          rw [if_pos rfl] at hl
          unfold loadChicagoSketch at hl
          obtain ⟨⟨b, ts⟩, -, hl⟩ := bind_ok hl
          obtain ⟨sc, h2, hl⟩ := bind_ok hl
          obtain ⟨co, -, hl⟩ := bind_ok hl
          obtain ⟨co', -, hl⟩ := bind_ok hl
          obtain ⟨c, -, hl⟩ := bind_ok hl
          obtain ⟨fd, -, hl⟩ := bind_ok hl
          cases hl
          exact (C36_pass_through _ _ _ _ _ _ h2).2.2.2.2.1
        · rw [hn] at hp
          exact hp.nil_eq.symm
      · obtain ⟨te, links, -, -, ⟨-, e2, m, hm, -⟩, -⟩ := C108_transportation K d name ⟨n1, n2, n3, n4, n5⟩ r h
        refine ⟨?_, firstSeen_nonempty e2 (largest_nonempty hm)⟩
        unfold loadTransportationDataset at hl
        rw [if_neg n5] at hl
        obtain ⟨b, -, hl⟩ := bind_ok hl
        obtain ⟨sc, h2, hl⟩ := bind_ok hl
        obtain ⟨co, -, hl⟩ := bind_ok hl
        obtain ⟨fd, -, hl⟩ := bind_ok hl
        cases hl
        exact (C36_pass_through _ _ _ _ _ _ h2).2.2.2.2.1
  exact ⟨key.2, built_nonempty K key.1 key.2⟩

end loaders

/-! ## Files on which the loaders return -/

/-- a path of two links, as `paper`, `lastfm-1k-artist`, `chicago-sketch` and `wsn` data -/
noncomputable def sampleDir2 : DataDir where
  listing := ["chicago-sketch"]
  table := fun p =>
    if p = "paper_data/edges.csv" then some
      { cols := ["Source", "Target", "Distance"],
        rows := [[("Source", .num 0), ("Target", .num 1), ("Distance", .num 1)],
          [("Source", .num 1), ("Target", .num 2), ("Distance", .num 2)]],
        rect := by decide }
    else some
      { cols := ["Id", "X", " Y"],
        rows := [[("Id", .num 0), ("X", .num 0), (" Y", .num 0)], [("Id", .num 1), ("X", .num 1), (" Y", .num 0)],
          [("Id", .num 2), ("X", .num 2), (" Y", .num 0)]],
        rect := by decide }
  mat := fun p =>
    if p = "paper_data/flow.csv" then some ⟨2, 1, Matrix.of ![![5], ![6]]⟩
    else if p = "lastfm-dataset-1K/flow-artist.csv" ∨
      p = "transportation_networks/chicago-sketch/flow_chicago_sketch.csv" then some ⟨1, 3, Matrix.of ![![5, 6, 7]]⟩
    else if p = "lastfm-dataset-1K/B1-artist.csv" ∨
      p = "transportation_networks/chicago-sketch/B1_chicago_sketch.csv" then
      some ⟨3, 3, Matrix.of ![![-1, -1, 0], ![1, 0, -1], ![0, 1, 1]]⟩
    else some ⟨1, 3, Matrix.of ![![1, -1, 1]]⟩
  wsnB1 := ⟨3, 2, Matrix.of ![![-1, 0], ![1, -1], ![0, 1]]⟩
  wsnFlowRate := [2, -3]
  wsnHead := [10, 9, 8]
  wsnHr := [1, 1]
  place := fun _ v => (.num v, .num 0)

/-- C108: when the columns of the matrix are in order, edge number `i` is column number `i`, so that the
value number `i` of the flow file belongs to column `i`. -/
theorem C108_sorted_columns (K : Type) [CommRing K] {f1 f2 : Option (CsvMat ℚ)} {sc : SC K} {c1 : CsvMat ℚ}
    {columns : List Edge} (h : FromMatrices K f1 f2 sc) (h1 : f1 = some c1)
    (hc : List.Forall₂ (fun j e => ColumnEdge c1.M j e) (List.finRange c1.n) columns)
    (hs : StrictlySorted columns) : sc.edges = columns := by
  obtain ⟨c1', c2, columns', h2, -, ⟨h3, -⟩, hp, hso, -⟩ := h
  rw [h1] at h2
  cases h2
  have huniq : ∀ (j : Fin c1.n) (e e' : Edge), ColumnEdge c1.M j e → ColumnEdge c1.M j e' → e = e' := by
    rintro j e e' ⟨u, v, rfl, a1, a2, a3, a4⟩ ⟨u', v', rfl, b1, b2, b3, b4⟩
    have e1 : u = u' := le_antisymm (not_lt.mp fun h => a2 _ h b1) (not_lt.mp fun h => b2 _ h a1)
    have e2 : v = v' := le_antisymm (not_lt.mp fun h => a4 _ h b3) (not_lt.mp fun h => b4 _ h a3)
    rw [e1, e2]
  have hcol : columns = columns' := by
    generalize List.finRange c1.n = l at hc h3
    clear hs hp
    induction hc generalizing columns' with
    | nil => cases h3; rfl
    | cons hr _ ih =>
      cases h3 with
      | cons hr' ht => rw [huniq _ _ _ hr hr', ih _ ht]
  subst hcol
  refine List.Perm.eq_of_pairwise (le := fun a b : Edge => a.1 < b.1 ∨ (a.1 = b.1 ∧ a.2 ≤ b.2)) ?_ hso
    (List.Pairwise.imp (fun {a b} hab => ?_) hs) hp
  · rintro ⟨a1, a2⟩ ⟨b1, b2⟩ - - h1 h2
    simp only [Prod.mk.injEq] at *
    omega
  · omega

/-- the same triangle with the columns of the matrix in another order -/
def unsortedDir : DataDir := { sampleDir with
  mat := fun p =>
    if p = "foreign_exchange/B1.csv" then
      some ⟨3, 3, Matrix.of ![![0, -1, -1], ![-1, 1, 0], ![1, 0, 1]]⟩
    else if p = "foreign_exchange/B2t.csv" then some ⟨1, 3, Matrix.of ![![1, 1, -1]]⟩
    else if p = "foreign_exchange/flow_FX_1538755200.csv" then some ⟨3, 1, Matrix.of ![![5], ![6], ![7]]⟩
    else none }

/-- C108: when they are not, flow values reach other edges: the first column is the edge `(1, 2)` and the
first value is 5, but the loaded flow of `(1, 2)` is 7. -/
theorem C108_unsorted_counterexample : ∃ (c1 c2 : CsvMat ℚ) (hm : 0 < c2.m) (hn : 0 < c2.n) (hn1 : 0 < c1.n)
    (r : Loaded ℤ) (f : Dict Edge ℚ),
    unsortedDir.mat "foreign_exchange/B1.csv" = some c1 ∧
    unsortedDir.mat "foreign_exchange/flow_FX_1538755200.csv" = some c2 ∧
    loadDataset ℤ unsortedDir "forex" = .ok r ∧ r.flow = .dict f ∧
    ColumnEdge c1.M ⟨0, hn1⟩ (1, 2) ∧ c2.M ⟨0, hm⟩ ⟨0, hn⟩ = 5 ∧ f.get? (1, 2) = some 7 := by
  have h : (match loadForexData ℤ unsortedDir with
    | .ok r => match r.flow with
      | .dict f => decide (f.get? (1, 2) = some 7)
      | .volumes _ => false
      | .arr _ => false
    | .error _ => false) = true := by decide +kernel
  cases hr : loadForexData ℤ unsortedDir with
  | error e => rw [hr] at h; cases h
  | ok r =>
    rw [hr] at h
    cases hf : r.flow with
    | arr y => simp only [hf] at h; cases h
    | volumes y => simp only [hf] at h; cases h
    | dict f =>
      simp only [hf] at h
      refine ⟨_, _, by decide, by decide, by decide, r, f, rfl, rfl,
        (C43_generated_coordinates ℤ unsortedDir "forex" (.inl rfl) r hr).1, hf, ?_, ?_, of_decide_eq_true h⟩
      · refine ⟨(1 : Fin 3), (2 : Fin 3), by decide, ?_⟩
        decide +kernel
      · decide +kernel

theorem sampleDir2_loads : ∀ name ∈ ["paper", "lastfm-1k-artist", "chicago-sketch", "wsn"],
    ∃ r, loadDataset ℤ sampleDir2 name = .ok r := by
  have key : ∀ (name : String) (l : Py (Loaded ℤ)), loaderFor ℤ name sampleDir2 = l →
      name ∈ ["paper", "lastfm-1k-artist", "chicago-sketch", "wsn"] →
      (match l with
        | .ok r => decide (r.sc.nodes.length = r.coordinates.length)
        | .error _ => false) = true → ∃ r, loadDataset ℤ sampleDir2 name = .ok r := by
    intro name l hl hn h
    cases l with
    | error e => cases h
    | ok r =>
      refine ⟨r, (C43_dispatch ℤ sampleDir2 name ?_).2.1 r hl (of_decide_eq_true h)⟩
      simp only [List.mem_cons, List.not_mem_nil, or_false] at hn
      rcases hn with rfl | rfl | rfl | rfl <;> simp [sampleDir2]
  intro name hn
  have hn' := hn
  simp only [List.mem_cons, List.not_mem_nil, or_false] at hn
  rcases hn with rfl | rfl | rfl | rfl
  · exact key _ (loadPaperData ℤ sampleDir2) rfl hn' (by decide +kernel)
  · exact key _ (loadLastfm1kArtist ℤ sampleDir2) rfl hn' (by decide +kernel)
  · exact key _ (loadChicagoSketch ℤ sampleDir2) rfl hn' (by decide +kernel)
  · have h : (match (do
        let edges ← edgesOfColumns sampleDir2.wsnB1.M
        let nodes ← nodesUpToMax (nodeSet edges)
        ({ nodes, edges } : SCBuilder).toSimplicialComplex ℤ : Py (SC ℤ)) with
        | .ok sc => decide (sc.nodes.length = (sc.generateCoordinates sampleDir2.place).length)
        | .error _ => false) = true := by decide +kernel
    obtain ⟨y, hy⟩ : ∃ y, wsnFlow sampleDir2.wsnFlowRate sampleDir2.wsnHead sampleDir2.wsnHr = .ok y := by
      unfold wsnFlow
      simp [sampleDir2]
    refine key _ (loadWsnData ℤ sampleDir2) rfl hn' ?_
    unfold loadWsnData
    simp only [bind, Except.bind] at h ⊢
    cases h1 : edgesOfColumns sampleDir2.wsnB1.M with
    | error e => rw [h1] at h; cases h
    | ok edges =>
      rw [h1] at h
      simp only at h ⊢
      cases h2 : nodesUpToMax (nodeSet edges) with
      | error e => rw [h2] at h; cases h
      | ok nodes =>
        rw [h2] at h
        simp only at h ⊢
        cases h3 : ({ nodes, edges } : SCBuilder).toSimplicialComplex ℤ with
        | error e => rw [h3] at h; cases h
        | ok sc =>
          rw [h3] at h
          simp only [hy] at h ⊢
          exact h

end Pytspl
