import Verif.Props.DatasetContents
import Verif.Props.Incidence

/-!
# From a file to a chain complex: C162

Which tables and datasets give a complex to which the theorems about well formed complexes apply.
-/

namespace Pytspl

private theorem bind_ok {α β : Type} {x : Py α} {f : α → Py β} {r : β} (h : (x >>= f) = .ok r) :
    ∃ a, x = .ok a ∧ f a = .ok r := by
  cases x with
  | error e => cases h
  | ok a => exact ⟨a, rfl, h⟩

variable {K : Type} [CommRing K]

/-- three nodes, any two of them linked in the table in some direction -/
def LinkedTriple (links : List Edge) (x y z : Int) : Prop :=
  x < y ∧ y < z ∧ Joined links x y ∧ Joined links y z ∧ Joined links x z

/-- the first link between the two nodes goes from the smaller to the larger id -/
def FirstUp (links : List Edge) (u v : Int) : Prop := FirstSeen links (u, v)

/-- the first link between the two nodes goes from the larger to the smaller id -/
def FirstDown (links : List Edge) (u v : Int) : Prop := FirstSeen links (v, u)

private theorem firstSeen_mem {links : List Edge} {e : Edge} (h : FirstSeen links e) : e ∈ links := by
  obtain ⟨pre, post, rfl, -⟩ := h
  simp

/-- the graph of a table of links on ordinary numbers is a simple graph -/
private theorem table_graph {t : Table} {src dst : String} {zero : Bool} {links : List Edge} {nodes : List Int}
    {edges : List Edge} (hl : Links t src dst zero links) (hne : links ≠ [])
    (h0 : ∀ l ∈ links, 0 ≤ l.1 ∧ 0 ≤ l.2 ∧ l.1 ≠ l.2)
    (h : extractNodesEdges t src dst zero = .ok (nodes, edges)) :
    EdgesInRange nodes.length edges ∧ NoLoops edges ∧ NoRepeats edges ∧
      (∀ e, e ∈ edges ↔ FirstSeen links e) ∧ ∀ u v, Joined edges u v ↔ Joined links u v := by
  obtain ⟨nodes', edges', h1, -, h3, h4, h5, -, m, hm, h8⟩ := C37_extraction t src dst zero links hl hne
  rw [h] at h1
  obtain ⟨rfl, rfl⟩ := Prod.mk.inj (Except.ok.inj h1)
  refine ⟨fun e he => ?_, fun e he => (h0 e (firstSeen_mem ((h4 e).mp he))).2.2, h3, h4, fun u v => ⟨?_, ?_⟩⟩
  · have hmem := firstSeen_mem ((h4 e).mp he)
    have a := h0 e hmem
    have b := hm.2 e hmem
    have hlen : (nodes.length : Int) = m + 1 := by
      rw [h8]; simp; omega
    rw [hlen]
    omega
  · rintro (h | h)
    · exact .inl (firstSeen_mem ((h4 _).mp h))
    · exact .inr (firstSeen_mem ((h4 _).mp h))
  · rintro (h | h)
    · exact h5 _ h
    · exact (h5 _ h).symm

/-- what a table of links becomes, whichever reader delivered the builder -/
private theorem table_complex [CharZero K] [NoZeroDivisors K] {t : Table} {src dst : String} {zero : Bool}
    {links : List Edge} {b : SCBuilder} (hl : Links t src dst zero links) (hne : links ≠ [])
    (h0 : ∀ l ∈ links, 0 ≤ l.1 ∧ 0 ≤ l.2 ∧ l.1 ≠ l.2)
    (h : extractNodesEdges t src dst zero = .ok (b.nodes, b.edges)) :
    ∃ sc : SC K, b.toSimplicialComplex K = .ok sc ∧ sc.OnSimpleGraph ∧
      (∀ x y z, [x, y, z] ∈ sc.triangles ↔ LinkedTriple links x y z) ∧
      (sc.WellFormed ↔ ∀ x y z, LinkedTriple links x y z →
        FirstUp links x y ∧ FirstUp links y z ∧ FirstUp links x z) ∧
      (sc.B1 * sc.B2 = 0 ↔ ∀ x y z, LinkedTriple links x y z →
        (FirstUp links x y ∧ FirstUp links y z ∧ FirstUp links x z) ∨
        (FirstDown links x y ∧ FirstDown links y z ∧ FirstDown links x z)) := by
  obtain ⟨g1, g2, g3, g4, g5⟩ := table_graph hl hne h0 h
  obtain ⟨sc, hsc⟩ := C36_all_never_raises (K := K) b "distance" (3 / 2) (fun e he => by
    have := g1 e he; unfold ValidLabel; omega)
  have hsc' : b.toSimplicialComplex K = .ok sc := hsc
  obtain ⟨p1, p2, -, -, hb, -, p7, -⟩ := C36_pass_through _ _ _ _ _ _ hsc
  have p7 := p7 rfl rfl
  have hs : sc.OnSimpleGraph := ⟨hb, by rw [p1, p2]; exact g1, by rw [p2]; exact g2, by rw [p2]; exact g3⟩
  have ht : ∀ x y z, [x, y, z] ∈ sc.triangles ↔ LinkedTriple links x y z := by
    intro x y z
    rw [p7, mem_triangles]
    unfold LinkedTriple
    simp only [← g5]
    constructor
    · rintro ⟨x', y', z', he, h⟩
      simp only [List.cons.injEq, and_true] at he
      obtain ⟨rfl, rfl, rfl⟩ := he
      exact h
    · intro h
      exact ⟨x, y, z, rfl, h⟩
  have hm : ∀ e, e ∈ sc.edges ↔ FirstSeen links e := fun e => by rw [p2]; exact g4 e
  refine ⟨sc, hsc', hs, ht, ⟨fun hw x y z hx => ?_, fun hx => ⟨hb, hs.inRange, hs.noLoops, fun t' ht' => ?_⟩⟩,
    ⟨fun hz x y z hx => ?_, fun hx => ?_⟩⟩
  · obtain ⟨a, b', c, he, m1, m2, m3⟩ := hw.oriented _ ((ht x y z).mpr hx)
    simp only [List.cons.injEq, and_true] at he
    obtain ⟨rfl, rfl, rfl⟩ := he
    exact ⟨(hm _).mp m1, (hm _).mp m2, (hm _).mp m3⟩
  · obtain ⟨x, y, z, rfl, -⟩ := (mem_triangles b t').mp (by rw [← p7]; exact ht')
    obtain ⟨m1, m2, m3⟩ := hx x y z ((ht x y z).mp ht')
    exact ⟨x, y, z, rfl, (hm _).mpr m1, (hm _).mpr m2, (hm _).mpr m3⟩
  · obtain ⟨i, hi, e⟩ := List.getElem_of_mem ((ht x y z).mpr hx)
    have := (C04_boundary_zero_iff sc hs ⟨i, hi⟩ x y z e).mp (fun j => by rw [hz]; rfl)
    simp only [hm] at this
    exact this
  · ext i j
    obtain ⟨x, y, z, e, -⟩ := (mem_triangles b _).mp (by rw [← p7]; exact List.getElem_mem j.2)
    have hx' := hx x y z ((ht x y z).mp (by rw [← e]; exact List.getElem_mem j.2))
    refine (C04_boundary_zero_iff sc hs j x y z e).mpr ?_ i
    simp only [hm]
    exact hx'

/-- C162: a csv table of links between different nodes, numbered from 0 (or 1), always gives a complex on a simple
graph, with a triangle for any three pairwise linked nodes.  Its boundary maps compose to zero exactly when for any
such three nodes the first links go all up or all down; it is well formed exactly when they all go up. -/
theorem C162_read_csv [CharZero K] [NoZeroDivisors K] (t : Table) (src dst : String) (fc) (zero : Bool)
    (links : List Edge) (b : SCBuilder) (hl : Links t src dst zero links)
    (h0 : ∀ l ∈ links, 0 ≤ l.1 ∧ 0 ≤ l.2 ∧ l.1 ≠ l.2) (h : readCsv (some t) src dst fc zero = .ok b) :
    ∃ sc : SC K, b.toSimplicialComplex K = .ok sc ∧ sc.OnSimpleGraph ∧
      (∀ x y z, [x, y, z] ∈ sc.triangles ↔ LinkedTriple links x y z) ∧
      (sc.WellFormed ↔ ∀ x y z, LinkedTriple links x y z →
        FirstUp links x y ∧ FirstUp links y z ∧ FirstUp links x z) ∧
      (sc.B1 * sc.B2 = 0 ↔ ∀ x y z, LinkedTriple links x y z →
        (FirstUp links x y ∧ FirstUp links y z ∧ FirstUp links x z) ∨
        (FirstDown links x y ∧ FirstDown links y z ∧ FirstDown links x z)) := by
  have h' := (C37_read_csv _ _ _ _ _ _ h).1
  refine table_complex hl ?_ h0 h'
  rintro rfl
  have : t.rows = [] := List.forall₂_nil_right_iff.mp hl
  rw [(C38_empty t src dst zero this).1] at h'
  cases h'

/-- the table of `C37` -/
example : ∃ (b : SCBuilder) (links : List Edge), readCsv (some sampleTable) "a" "b" (some []) false = .ok b ∧
    Links sampleTable "a" "b" false links ∧ ∀ l ∈ links, 0 ≤ l.1 ∧ 0 ≤ l.2 ∧ l.1 ≠ l.2 := by
  have h : (readCsv (some sampleTable) "a" "b" (some []) false).isOk = true := by decide +kernel
  cases hc : readCsv (some sampleTable) "a" "b" (some []) false with
  | error e => rw [hc] at h; cases h
  | ok b => exact ⟨b, _, rfl, sampleTable_links, by decide⟩

/-- one-way links 1 to 0, 1 to 2 and 0 to 2 -/
def oneWayTable : Table where
  cols := ["a", "b"]
  rows := [[("a", .num 1), ("b", .num 0)], [("a", .num 1), ("b", .num 2)], [("a", .num 0), ("b", .num 2)]]
  rect := by decide

theorem oneWayTable_links : Links oneWayTable "a" "b" true [(1, 0), (1, 2), (0, 2)] := by
  have tr : ∀ a : ℕ, Truncates (a : ℚ) (a : Int) := fun a => .inl ⟨by positivity, by simp⟩
  refine .cons ⟨.num 1, .num 0, by decide, by decide, .inl ⟨1, rfl, ?_⟩, .inl ⟨0, rfl, ?_⟩⟩
    (.cons ⟨.num 1, .num 2, by decide, by decide, .inl ⟨1, rfl, ?_⟩, .inl ⟨2, rfl, ?_⟩⟩
    (.cons ⟨.num 0, .num 2, by decide, by decide, .inl ⟨0, rfl, ?_⟩, .inl ⟨2, rfl, ?_⟩⟩ .nil))
  · exact_mod_cast tr 1
  · exact_mod_cast tr 0
  · exact_mod_cast tr 1
  · exact_mod_cast tr 2
  · exact_mod_cast tr 0
  · exact_mod_cast tr 2

/-- C162: a table with mixed directions reads and builds without an error, but its boundary maps do not compose to
zero, so the decompositions of flows on it are not orthogonal. -/
theorem C162_one_way_counterexample : ∃ (b : SCBuilder) (sc : SC ℚ),
    readCsv (some oneWayTable) "a" "b" (some []) true = .ok b ∧ b.toSimplicialComplex ℚ = .ok sc ∧
      sc.triangles = [[0, 1, 2]] ∧ sc.B1 * sc.B2 ≠ 0 := by
  have h : (match readCsv (some oneWayTable) "a" "b" (some []) true with
    | .ok b => decide (b.triangles = [[0, 1, 2]])
    | .error _ => false) = true := by decide +kernel
  cases hc : readCsv (some oneWayTable) "a" "b" (some []) true with
  | error e => rw [hc] at h; cases h
  | ok b =>
    rw [hc] at h
    obtain ⟨sc, h1, -, -, -, h2⟩ := C162_read_csv (K := ℚ) _ _ _ _ _ _ b oneWayTable_links (by decide) hc
    refine ⟨b, sc, rfl, h1, ?_, fun hz => ?_⟩
    · rw [(C36_pass_through _ _ _ _ _ _ h1).2.2.2.2.2.2.1 rfl rfl]
      exact of_decide_eq_true h
    · have mem : ∀ e, FirstSeen [((1 : Int), (0 : Int)), (1, 2), (0, 2)] e → e = (1, 0) ∨ e = (1, 2) ∨ e = (0, 2) :=
        fun e he => by simpa using firstSeen_mem he
      rcases h2.mp hz 0 1 2 (by simp [LinkedTriple, Joined]) with ⟨g, -⟩ | ⟨-, g, -⟩
      · simpa using mem _ g
      · simpa using mem _ g

/-- C162: the same for a table in the TNTP format. -/
theorem C162_read_tntp [CharZero K] [NoZeroDivisors K] (t : Table) (src dst : String) (zero : Bool)
    (hs : src ≠ "~" ∧ src ≠ ";") (hd : dst ≠ "~" ∧ dst ≠ ";")
    (links : List Edge) (b : SCBuilder) (hl : Links (t.rename pyStrip) src dst zero links)
    (h0 : ∀ l ∈ links, 0 ≤ l.1 ∧ 0 ≤ l.2 ∧ l.1 ≠ l.2) (h : readTntp (some t) src dst zero = .ok b) :
    ∃ sc : SC K, b.toSimplicialComplex K = .ok sc ∧ sc.OnSimpleGraph ∧
      (∀ x y z, [x, y, z] ∈ sc.triangles ↔ LinkedTriple links x y z) ∧
      (sc.WellFormed ↔ ∀ x y z, LinkedTriple links x y z →
        FirstUp links x y ∧ FirstUp links y z ∧ FirstUp links x z) ∧
      (sc.B1 * sc.B2 = 0 ↔ ∀ x y z, LinkedTriple links x y z →
        (FirstUp links x y ∧ FirstUp links y z ∧ FirstUp links x z) ∨
        (FirstDown links x y ∧ FirstDown links y z ∧ FirstDown links x z)) := by
  have h' := (C37_read_tntp _ _ _ _ _ hs hd h).1
  refine table_complex hl ?_ h0 h'
  rintro rfl
  have : (t.rename pyStrip).rows = [] := List.forall₂_nil_right_iff.mp hl
  rw [(C38_empty _ src dst zero this).1] at h'
  cases h'

/-- C162: two layouts of a table in which all first links go up: every link goes up, or every link has its
opposite in the table and the rows are sorted by source. -/
theorem C162_layouts (links : List Edge) (h : (∀ l ∈ links, l.1 < l.2) ∨
    ((∀ l ∈ links, l.1 ≠ l.2 ∧ l.swap ∈ links) ∧ links.Pairwise fun l l' => l.1 ≤ l'.1)) (x y z : Int)
    (ht : LinkedTriple links x y z) : FirstUp links x y ∧ FirstUp links y z ∧ FirstUp links x z := by
  -- the first link between two linked nodes
  have first : ∀ (ls : List Edge) (u v : Int), Joined ls u v → FirstSeen ls (u, v) ∨ FirstSeen ls (v, u) := by
    intro ls u v
    induction ls with
    | nil => simp [Joined]
    | cons l ls ih =>
      intro hj
      by_cases h1 : l = (u, v)
      · exact .inl ⟨[], ls, by simp [h1], by simp, by simp⟩
      by_cases h2 : l = (v, u)
      · exact .inr ⟨[], ls, by simp [h2], by simp, by simp⟩
      have hj' : Joined ls u v := by
        rcases hj with h | h
        · exact .inl ((List.mem_cons.mp h).resolve_left fun h => h1 h.symm)
        · exact .inr ((List.mem_cons.mp h).resolve_left fun h => h2 h.symm)
      rcases ih hj' with ⟨pre, post, e, a1, a2⟩ | ⟨pre, post, e, a1, a2⟩
      · refine .inl ⟨l :: pre, post, by simp [e], ?_, ?_⟩
        · simp only [List.mem_cons, not_or]; exact ⟨fun h => h1 h.symm, a1⟩
        · simp only [List.mem_cons, not_or]; exact ⟨fun h => h2 h.symm, a2⟩
      · refine .inr ⟨l :: pre, post, by simp [e], ?_, ?_⟩
        · simp only [List.mem_cons, not_or]; exact ⟨fun h => h2 h.symm, a1⟩
        · simp only [List.mem_cons, not_or]; exact ⟨fun h => h1 h.symm, a2⟩
  have up : ∀ u v, u < v → Joined links u v → FirstUp links u v := by
    intro u v huv hj
    rcases first links u v hj with hf | hf
    · exact hf
    · exfalso
      obtain ⟨pre, post, e, a1, a2⟩ := hf
      have hmem : (v, u) ∈ links := by rw [e]; simp
      rcases h with h | ⟨h, hso⟩
      · have := h _ hmem
        simp only at this
        omega
      · have h2 := (h _ hmem).2
        simp only [Prod.swap_prod_mk] at h2 a2
        rw [e] at h2 hso
        rcases List.mem_append.mp h2 with h2 | h2
        · exact a2 h2
        · rcases List.mem_cons.mp h2 with h2 | h2
          · simp only [Prod.mk.injEq] at h2
            omega
          · have := (List.pairwise_cons.mp (List.pairwise_append.mp hso).2.1).1 _ h2
            simp only at this
            omega
  obtain ⟨h1, h2, j1, j2, j3⟩ := ht
  exact ⟨up _ _ h1 j1, up _ _ h2 j2, up _ _ (by omega) j3⟩

/-- a symmetric table sorted by source -/
example : let links : List Edge := [(0, 1), (0, 2), (1, 0), (1, 2), (2, 0), (2, 1)]
    ((∀ l ∈ links, l.1 ≠ l.2 ∧ l.swap ∈ links) ∧ links.Pairwise fun l l' => l.1 ≤ l'.1) ∧
      LinkedTriple links 0 1 2 := by
  simp [LinkedTriple, Joined]

/-- C162: whichever triangles are chosen (all, by distance, or any other condition), the complex of a builder whose
edges are ascending on existing nodes is well formed. -/
theorem C162_any_condition (b : SCBuilder) (cond col : String) (eps : ℚ) (sc : SC K)
    (he : ∀ e ∈ b.edges, 0 ≤ e.1 ∧ e.1 < e.2 ∧ e.2 < b.nodes.length)
    (h : b.toSimplicialComplex K cond col eps none = .ok sc) :
    sc.WellFormed ∧ sc.B1 * sc.B2 = 0 ∧ sc.triangles.Sublist b.triangles := by
  obtain ⟨p1, p2, -, -, hb, -, p7, p8⟩ := C36_pass_through _ _ _ _ _ _ h
  have hsub : sc.triangles.Sublist b.triangles := by
    by_cases hc : cond = "all"
    · rw [p7 rfl hc]
    · exact (C35_distance_general b col eps _ (p8 rfl hc)).1
  have hw : sc.WellFormed := ⟨hb, fun e h' => by rw [p2] at h'; have := he e h'; rw [p1]; omega,
    fun e h' => by rw [p2] at h'; have := he e h'; omega,
    fun t ht => by
      rw [p2]
      exact ascending_oriented (fun e h' => (he e h').2.1) (hsub.subset ht)⟩
  exact ⟨hw, hw.b1_mul_b2, hsub⟩

example : ∃ sc : SC ℤ, distBuilder.toSimplicialComplex ℤ "distance" = .ok sc ∧
    ∀ e ∈ distBuilder.edges, 0 ≤ e.1 ∧ e.1 < e.2 ∧ e.2 < distBuilder.nodes.length := by
  have h : (distBuilder.toSimplicialComplex ℤ "distance").isOk = true := by decide +kernel
  cases hc : distBuilder.toSimplicialComplex ℤ "distance" with
  | error e => rw [hc] at h; cases h
  | ok sc => exact ⟨sc, rfl, by decide⟩

/-! ## Datasets -/

private theorem built_tri {sc : SC K} (hb : sc.Built) {t : List Int} (ht : t ∈ sc.triangles) :
    TriPresent sc.edges t := by
  obtain ⟨i, hi, e⟩ := List.getElem_of_mem ht
  obtain ⟨a, b, c, ia, ib, ic, h0, h1, h2, h3, -⟩ := hb.tri_entry ⟨i, hi⟩
  have key : ∀ {u v : Int} {k : Fin sc.E}, listIndexOr sc.edges (u, v) (v, u) = .ok k → Joined sc.edges u v := by
    intro u v k hk
    have hm : sc.edges[k] ∈ sc.edges := List.getElem_mem _
    rcases listIndexOr_get hk with g | ⟨-, g⟩
    · exact .inl (g ▸ hm)
    · exact .inr (g ▸ hm)
  exact ⟨a, b, c, by rw [← e]; exact h0, key h1, key h2, key h3⟩

private theorem range_length (m : Int) (nodes : List Int)
    (h : nodes = (List.range (m + 1).toNat).map fun i : ℕ => (i : Int)) : m + 1 ≤ nodes.length := by
  rw [h]; simp

private theorem forall₂_right {α β : Type} {R : α → β → Prop} {l : List α} {m : List β}
    (h : List.Forall₂ R l m) {b : β} (hb : b ∈ m) : ∃ a ∈ l, R a b := by
  induction h with
  | nil => simp at hb
  | cons hr _ ih =>
    rcases List.mem_cons.mp hb with rfl | h'
    · exact ⟨_, by simp, hr⟩
    · obtain ⟨a, ha, hab⟩ := ih h'
      exact ⟨a, by simp [ha], hab⟩

private theorem columnEdge_ok {m n : ℕ} {M : Matrix (Fin m) (Fin n) ℚ} {j : Fin n} {e : Edge}
    (h : ColumnEdge M j e) : 0 ≤ e.1 ∧ 0 ≤ e.2 ∧ e.1 ≠ e.2 := by
  obtain ⟨u, v, rfl, h1, -, h2, -⟩ := h
  refine ⟨by simp, by simp, fun hne => ?_⟩
  have : u = v := by
    apply Fin.ext
    simpa using hne
  rw [this, h2] at h1
  norm_num at h1

/-- the endpoints stay below the number of nodes, and the triangles are increasing triples -/
private def LoadedShape (sc : SC K) : Prop :=
  sc.Built ∧ (∀ e ∈ sc.edges, e.1 < sc.nodes.length ∧ e.2 < sc.nodes.length) ∧
    ∀ t ∈ sc.triangles, t.Pairwise (· < ·)

private theorem shape_links {links : List Edge} {sc : SC K} (hb : sc.Built)
    (h : GraphOfLinks links sc.nodes sc.edges) (ht : AllTriangles sc.edges sc.triangles) : LoadedShape sc := by
  obtain ⟨-, h2, m, hm, h3⟩ := h
  have hlen := range_length m _ h3
  refine ⟨hb, fun e he => ?_, fun t ht' => ?_⟩
  · have := hm.2 e (firstSeen_mem ((h2 e).mp he))
    omega
  · obtain ⟨x, y, z, rfl, h1, h2, -⟩ := (ht.2 t).mp ht'
    simp only [List.pairwise_cons, List.mem_cons, List.not_mem_nil, or_false, forall_eq_or_imp, forall_eq,
      List.Pairwise.nil, and_true]
    exact ⟨⟨h1, by omega⟩, h2, by simp⟩

private theorem shape_matrices {f1 f2 : Option (CsvMat ℚ)} {sc : SC K} (hb : sc.Built)
    (h : FromMatrices K f1 f2 sc) :
    LoadedShape sc ∧ ∀ e ∈ sc.edges, 0 ≤ e.1 ∧ 0 ≤ e.2 ∧ e.1 ≠ e.2 := by
  obtain ⟨c1, c2, columns, -, -, ⟨h1, top, hm, h2⟩, hp, -, h3⟩ := h
  have hlen := range_length top _ h2
  refine ⟨⟨hb, fun e he => ?_, fun t ht => ?_⟩, fun e he => ?_⟩
  · have := hm.2 e (hp.mem_iff.mp he)
    omega
  · obtain ⟨k, -, hk⟩ := forall₂_right h3 ht
    exact hk.1
  · obtain ⟨j, -, hj⟩ := forall₂_right h1 (hp.mem_iff.mp he)
    exact columnEdge_ok hj

section loaders
variable (K)

/-- every loaded complex came out of the constructor -/
private theorem loaded_built (d : DataDir) (name : String) (r : Loaded K) (h : loadDataset K d name = .ok r) :
    r.sc.Built := by
  obtain ⟨-, h, -⟩ := C43_checked K d name r h
  unfold loaderFor at h
  split_ifs at h
  · unfold loadPaperData at h
    obtain ⟨b, h1, h⟩ := bind_ok h
    obtain ⟨sc, h2, h⟩ := bind_ok h
    obtain ⟨co, h3, h⟩ := bind_ok h
    obtain ⟨co', h4, h⟩ := bind_ok h
    obtain ⟨c, h5, h⟩ := bind_ok h
    obtain ⟨fl, h6, h⟩ := bind_ok h
    obtain ⟨fd, h7, h⟩ := bind_ok h
    cases h
    exact (C36_pass_through _ _ _ _ _ _ h2).2.2.2.2.1
  · unfold loadForexData at h
    obtain ⟨⟨b, ts⟩, h1, h⟩ := bind_ok h
    obtain ⟨sc, h2, h⟩ := bind_ok h
    obtain ⟨c, h3, h⟩ := bind_ok h
    obtain ⟨fl, h4, h⟩ := bind_ok h
    obtain ⟨fd, h5, h⟩ := bind_ok h
    cases h
    exact (C36_pass_through _ _ _ _ _ _ h2).2.2.2.2.1
  · unfold loadLastfm1kArtist at h
    obtain ⟨⟨b, ts⟩, h1, h⟩ := bind_ok h
    obtain ⟨sc, h2, h⟩ := bind_ok h
    obtain ⟨c, h3, h⟩ := bind_ok h
    obtain ⟨fd, h5, h⟩ := bind_ok h
    cases h
    exact (C36_pass_through _ _ _ _ _ _ h2).2.2.2.2.1
  · unfold loadWsnData at h
    obtain ⟨edges, h1, h⟩ := bind_ok h
    obtain ⟨nodes, h0, h⟩ := bind_ok h
    obtain ⟨sc, h2, h⟩ := bind_ok h
    obtain ⟨y, h3, h⟩ := bind_ok h
    cases h
    exact (C36_pass_through _ _ _ _ _ _ h2).2.2.2.2.1
  · unfold loadTransportationDataset at h
    split_ifs at h
    · unfold loadChicagoSketch at h
      obtain ⟨⟨b, ts⟩, h1, h⟩ := bind_ok h
      obtain ⟨sc, h2, h⟩ := bind_ok h
      obtain ⟨co, h3, h⟩ := bind_ok h
      obtain ⟨co', h4, h⟩ := bind_ok h
      obtain ⟨c, h5, h⟩ := bind_ok h
      obtain ⟨fd, h6, h⟩ := bind_ok h
      cases h
      exact (C36_pass_through _ _ _ _ _ _ h2).2.2.2.2.1
    · obtain ⟨b, h1, h⟩ := bind_ok h
      obtain ⟨sc, h2, h⟩ := bind_ok h
      obtain ⟨co, h3, h⟩ := bind_ok h
      obtain ⟨fd, -, h⟩ := bind_ok h
      cases h
      exact (C36_pass_through _ _ _ _ _ _ h2).2.2.2.2.1

private theorem loaded_shape (d : DataDir) (name : String) (r : Loaded K) (h : loadDataset K d name = .ok r) :
    LoadedShape r.sc ∧ ((name = "forex" ∨ name = "lastfm-1k-artist" ∨ name = "chicago-sketch" ∨ name = "wsn") →
      ∀ e ∈ r.sc.edges, 0 ≤ e.1 ∧ 0 ≤ e.2 ∧ e.1 ≠ e.2) := by
  have hb := loaded_built K d name r h
  by_cases n1 : name = "paper"
  · subst n1
    obtain ⟨te, tc, c, links, f, -, -, -, -, h1, h2, -⟩ := C108_paper K d r h
    exact ⟨shape_links hb h1 h2, by simp⟩
  by_cases n2 : name = "forex"
  · subst n2
    obtain ⟨h1, h2⟩ := shape_matrices hb (C108_forex K d r h).1
    exact ⟨h1, fun _ => h2⟩
  by_cases n3 : name = "lastfm-1k-artist"
  · subst n3
    obtain ⟨h1, h2⟩ := shape_matrices hb (C108_lastfm K d r h).1
    exact ⟨h1, fun _ => h2⟩
  by_cases n4 : name = "wsn"
  · subst n4
    obtain ⟨⟨h1, top, hm, h2⟩, h3, -⟩ := C108_wsn K d r h
    have hlen := range_length top _ h2
    refine ⟨⟨hb, fun e he => ?_, fun t ht' => ?_⟩, fun _ e he => ?_⟩
    · have := hm.2 e he
      omega
    · obtain ⟨x, y, z, rfl, h1, h2, -⟩ := (h3.2 t).mp ht'
      simp only [List.pairwise_cons, List.mem_cons, List.not_mem_nil, or_false, forall_eq_or_imp, forall_eq,
        List.Pairwise.nil, and_true]
      exact ⟨⟨h1, by omega⟩, h2, by simp⟩
    · obtain ⟨j, -, hj⟩ := forall₂_right h1 he
      exact columnEdge_ok hj
  by_cases n5 : name = "chicago-sketch"
  · subst n5
    obtain ⟨h1, h2⟩ := shape_matrices hb (C108_chicago K d r h).1
    exact ⟨h1, fun _ => h2⟩
  obtain ⟨te, links, -, -, h1, h2, -⟩ := C108_transportation K d name ⟨n1, n2, n3, n4, n5⟩ r h
  exact ⟨shape_links hb h1 h2, by simp [n2, n3, n4, n5]⟩

/-- C162: a dataset that loads, whatever its files contain, with edges that go from a smaller to a larger ordinary
node number, is a well formed complex: its boundary maps compose to zero. -/
theorem C162_dataset (d : DataDir) (name : String) (r : Loaded K) (h : loadDataset K d name = .ok r)
    (he : ∀ e ∈ r.sc.edges, 0 ≤ e.1 ∧ e.1 < e.2) : r.sc.WellFormed ∧ r.sc.B1 * r.sc.B2 = 0 := by
  obtain ⟨⟨hb, hr, hp⟩, -⟩ := loaded_shape K d name r h
  have hw : r.sc.WellFormed := by
    refine ⟨hb, fun e h' => ?_, fun e h' => ?_, fun t ht => ?_⟩
    · have := he e h'
      have := hr e h'
      omega
    · have := he e h'
      omega
    · obtain ⟨a, b, c, rfl, j1, j2, j3⟩ := built_tri hb ht
      have hp' := hp _ ht
      simp only [List.pairwise_cons, List.mem_cons, List.not_mem_nil, or_false, forall_eq_or_imp, forall_eq] at hp'
      have key : ∀ u v, u < v → Joined r.sc.edges u v → (u, v) ∈ r.sc.edges := by
        rintro u v huv (hj | hj)
        · exact hj
        · have := (he _ hj).2
          simp only at this
          omega
      exact ⟨a, b, c, rfl, key _ _ hp'.1.1 j1, key _ _ hp'.2.1 j2, key _ _ hp'.1.2 j3⟩
  exact ⟨hw, hw.b1_mul_b2⟩

example : ∃ r : Loaded ℤ, loadDataset ℤ sampleDir "toy" = .ok r ∧ ∀ e ∈ r.sc.edges, 0 ≤ e.1 ∧ e.1 < e.2 := by
  obtain ⟨r, h, he⟩ := sampleDir_toy
  exact ⟨r, h, by rw [he]; decide⟩

/-- C162: the datasets given by incidence matrices never have self-loops or nodes out of range, so only repeated
columns can keep them from being complexes on a simple graph. -/
theorem C162_matrix_dataset (d : DataDir) (name : String)
    (hn : name = "forex" ∨ name = "lastfm-1k-artist" ∨ name = "chicago-sketch" ∨ name = "wsn")
    (r : Loaded K) (h : loadDataset K d name = .ok r) : r.sc.OnSimpleGraph ↔ NoRepeats r.sc.edges := by
  obtain ⟨⟨hb, hr, -⟩, h0⟩ := loaded_shape K d name r h
  have h0 := h0 hn
  refine ⟨fun h => h.noRepeats, fun hr' => ⟨hb, fun e h' => ?_, fun e h' => (h0 e h').2.2, hr'⟩⟩
  have := h0 e h'
  have := hr e h'
  omega

/-- the triangle of `sampleDir2` -/
example : ∃ r : Loaded ℤ, loadDataset ℤ sampleDir2 "chicago-sketch" = .ok r :=
  sampleDir2_loads _ (by simp)

end loaders

end Pytspl
